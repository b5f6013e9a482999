import Verif.Model.CuckooLemmas
import Verif.Model.LiteMurmur
import Verif.Props.Word
import Mathlib.Data.Nat.ModEq
/-!
Properties C04, C05, C06, C07: cuckoo filter.
-/

namespace Kunlun.Cuckoo

open Kunlun

/-- A call made by the user, with the `rand()` values used inside it. -/
inductive Op where
  | insert (x : Bytes) (rnd : Nat → Nat)
  | delete (x : Bytes)

/-- One call: new state and returned flag. -/
def step (H : Bytes → UInt32) (f : Filter) : Op → Option (Filter × Bool)
  | .insert x rnd => insert H rnd f x
  | .delete x => delete H f x

/-- A history of calls: final state and the returned flags, `none` if some call left the table. -/
def run (H : Bytes → UInt32) : Filter → List Op → Option (Filter × List Bool)
  | f, [] => some (f, [])
  | f, op :: ops => do
    let (f1, ok) ← step H f op
    let (f2, oks) ← run H f1 ops
    some (f2, ok :: oks)

theorem new_wf (projected : Nat) (dbl : Bool) (hp : projected / 4 ≤ 2 ^ 31) : WF (new projected dbl) := by
  have hm : 1 ≤ max 1 (BitVec.ofNat 32 (projected / 4)).toNat ∧ max 1 (BitVec.ofNat 32 (projected / 4)).toNat ≤ 2 ^ 31 := by
    rw [BitVec.toNat_ofNat, Nat.mod_eq_of_lt (by omega)]
    omega
  have hx : (BitVec.ofNat 32 (max 1 (BitVec.ofNat 32 (projected / 4)).toNat)).toNat = max 1 (BitVec.ofNat 32 (projected / 4)).toNat := by
    rw [BitVec.toNat_ofNat, Nat.mod_eq_of_lt]
    omega
  obtain ⟨k, hk, _, _⟩ := Word.upperpower2_least (BitVec.ofNat 32 (max 1 (BitVec.ofNat 32 (projected / 4)).toNat))
    (by rw [hx]; exact hm.1) (by rw [hx]; exact hm.2)
  constructor
  · cases dbl
    · exact ⟨k, hk⟩
    · exact ⟨k + 1, by simp only [new, if_true]; rw [hk, Nat.pow_succ]⟩
  · simp only [new, List.length_replicate]
    omega

theorem new_victim (projected : Nat) (dbl : Bool) : (new projected dbl).victim.used = 0 := rfl

/-- The two keys have equal tags and share their pair of buckets. -/
def Clash (H : Bytes → UInt32) (n : Nat) (x y : Bytes) : Prop :=
  computeTag (H x) = computeTag (H y) ∧
    (bucketIndex n (H x) = bucketIndex n (H y) ∨ bucketIndex n (H x) = another n (bucketIndex n (H y)) (computeTag (H y)))

/-- The call is not a deletion of a key clashing with `x`. -/
def Harmless (H : Bytes → UInt32) (n : Nat) (x : Bytes) : Op → Prop
  | .insert _ _ => True
  | .delete y => ¬ Clash H n x y

theorem step_spec (H : Bytes → UInt32) {f : Filter} (w : WF f) (op : Op) :
    ∃ f' ok, step H f op = some (f', ok) ∧ WF f' ∧ f'.bucketNum = f.bucketNum ∧
      (∀ x rnd, op = .insert x rnd → ok = true → contain H f' x = some true) ∧
      (∀ x, Harmless H f.bucketNum x op → contain H f x = some true → contain H f' x = some true) := by
  have hc : ∀ {f1 f2 : Filter} (x : Bytes), WF f1 → WF f2 → f2.bucketNum = f1.bucketNum →
      (Present f1 (bucketIndex f1.bucketNum (H x)) (computeTag (H x)) →
       Present f2 (bucketIndex f1.bucketNum (H x)) (computeTag (H x))) →
      contain H f1 x = some true → contain H f2 x = some true := by
    intro f1 f2 x w1 w2 e hp h
    obtain ⟨r1, h1, i1⟩ := contain_spec H w1 x
    obtain ⟨r2, h2, i2⟩ := contain_spec H w2 x
    rw [h1] at h
    cases h
    rw [h2, i2.mpr (by rw [e]; exact hp (i1.mp rfl))]
  cases op with
  | insert x rnd =>
    obtain ⟨f', ok, h1, w', e, hok, hno, hk⟩ := insert_spec H rnd w x
    refine ⟨f', ok, h1, w', e, ?_, ?_⟩
    · rintro x' rnd' he hk'
      cases he
      obtain ⟨r2, h2, i2⟩ := contain_spec H w' x
      rw [h2, i2.mpr (by rw [e]; exact hok hk')]
    · intro y _ hy
      exact hc y w w' e (hk _ _ (bucketIndex_lt w.pow _) (computeTag_range _).1) hy
  | delete y =>
    obtain ⟨f', d, h1, w', e, hk⟩ := delete_spec H w y
    refine ⟨f', d, h1, w', e, ?_, ?_⟩
    · rintro x rnd he
      cases he
    · intro x hx h
      exact hc x w w' e (hk _ _ (bucketIndex_lt w.pow _) (computeTag_range _).1 hx) h

theorem run_keeps (H : Bytes → UInt32) (x : Bytes) (ops : List Op) {f : Filter} (w : WF f)
    (hx : contain H f x = some true) (hh : ∀ op ∈ ops, Harmless H f.bucketNum x op) :
    ∃ f' oks, run H f ops = some (f', oks) ∧ contain H f' x = some true := by
  induction ops generalizing f with
  | nil => exact ⟨f, [], rfl, hx⟩
  | cons op ops ih =>
    obtain ⟨f1, ok, h1, w1, e1, _, hk⟩ := step_spec H w op
    obtain ⟨f2, oks, h2, h3⟩ := ih w1 (hk x (hh op (by simp)) hx) (by rw [e1]; exact fun o ho => hh o (by simp [ho]))
    exact ⟨f2, ok :: oks, by simp [run, h1, h2], h3⟩

theorem run_spec (H : Bytes → UInt32) (ops : List Op) {f : Filter} (w : WF f) :
    ∃ f' oks, run H f ops = some (f', oks) ∧ oks.length = ops.length ∧ WF f' ∧ f'.bucketNum = f.bucketNum ∧
      ∀ (i : Nat) x rnd, ops[i]? = some (.insert x rnd) → oks[i]? = some true →
        (∀ op ∈ ops.drop (i + 1), Harmless H f.bucketNum x op) → contain H f' x = some true := by
  induction ops generalizing f with
  | nil => exact ⟨f, [], rfl, rfl, w, rfl, by simp⟩
  | cons op ops ih =>
    obtain ⟨f1, ok, h1, w1, e1, hi, hk⟩ := step_spec H w op
    obtain ⟨f2, oks, h2, hl, w2, e2, h3⟩ := ih w1
    refine ⟨f2, ok :: oks, by simp [run, h1, h2], by simp [hl], w2, by omega, ?_⟩
    intro i x rnd hop hok hh
    cases i with
    | zero =>
      simp only [List.getElem?_cons_zero, Option.some.injEq] at hop hok
      have := hi x rnd hop hok
      obtain ⟨f2', oks', h2', h3'⟩ := run_keeps H x ops w1 this (by rw [e1]; simpa using hh)
      rw [h2] at h2'
      cases h2'
      exact h3'
    | succ i =>
      simp only [List.getElem?_cons_succ] at hop hok
      exact h3 i x rnd hop hok (by rw [e1]; simpa using hh)

/-- **C04** No false negatives: for a new filter (of a size the constructor can represent), any hash, any sequence of insertions
with any `rand()` values never leaves the table, and every key whose insertion reported success is reported as contained,
whatever was inserted afterwards and whether or not a victim is parked. -/
theorem cuckoo_no_false_negatives (H : Bytes → UInt32) (projected : Nat) (dbl : Bool) (hp : projected / 4 ≤ 2 ^ 31)
    (keys : List (Bytes × (Nat → Nat))) :
    ∃ f oks, run H (new projected dbl) (keys.map (fun p => .insert p.1 p.2)) = some (f, oks) ∧ oks.length = keys.length ∧
      ∀ (i : Nat) x rnd, keys[i]? = some (x, rnd) → oks[i]? = some true → contain H f x = some true := by
  obtain ⟨f, oks, h1, hl, _, _, h2⟩ := run_spec H (keys.map (fun p => Op.insert p.1 p.2)) (new_wf projected dbl hp)
  refine ⟨f, oks, h1, by simpa using hl, ?_⟩
  intro i x rnd hk ho
  refine h2 i x rnd (by simp [hk]) ho ?_
  intro op hop
  have := List.mem_of_mem_drop hop
  simp only [List.mem_map] at this
  obtain ⟨p, _, rfl⟩ := this
  trivial

/-- **C04** (converse bookkeeping) an insertion reports failure only when a victim is already parked, and then changes nothing. -/
theorem cuckoo_insert_failure (H : Bytes → UInt32) (rnd : Nat → Nat) {f f' : Filter} (w : WF f) (x : Bytes)
    (h : insert H rnd f x = some (f', false)) : f' = f ∧ f.victim.used ≠ 0 := by
  obtain ⟨g, ok, h1, _, _, _, hno, _⟩ := insert_spec H rnd w x
  rw [h1] at h
  cases h
  exact hno rfl

/-- Non-trivial case: the hypotheses of `cuckoo_no_false_negatives` are met by ordinary sizes, and the new filter is usable. -/
example : 1000000 / 4 ≤ 2 ^ 31 := by decide

/-- A constructor argument above `4 * 2^31` wraps the bucket count to zero, so the table is empty and every query reads
outside it. -/
theorem cuckoo_oversized_is_undefined (H : Bytes → UInt32) (projected : Nat)
    (h : 2 ^ 31 < projected / 4 % 2 ^ 32) (dbl : Bool) (x : Bytes) : contain H (new projected dbl) x = none := by
  have hx : (BitVec.ofNat 32 (max 1 (BitVec.ofNat 32 (projected / 4)).toNat)).toNat = projected / 4 % 2 ^ 32 := by
    rw [BitVec.toNat_ofNat, BitVec.toNat_ofNat, Nat.max_eq_right (by omega), Nat.mod_mod]
  have hz := Word.upperpower2_out_of_range (BitVec.ofNat 32 (max 1 (BitVec.ofNat 32 (projected / 4)).toNat))
    (Or.inr (by rw [hx]; exact h))
  have ht : (new projected dbl).table = [] := by
    simp only [new, hz]
    cases dbl <;> rfl
  unfold contain findTag
  rw [ht]
  have : ∀ b, load [] (b * 8) 8 = none := by intro b; simp [load]
  simp [this]

/-- **C05** For every power-of-two bucket count, both buckets of a key are inside the table, and the partner of the partner of a
bucket is the bucket itself. -/
theorem cuckoo_partner_involution (k i tag : Nat) (hi : i < 2 ^ k) :
    another (2 ^ k) i tag < 2 ^ k ∧ another (2 ^ k) (another (2 ^ k) i tag) tag = i :=
  ⟨another_lt ⟨k, rfl⟩ i tag, another_another' ⟨k, rfl⟩ hi⟩

/-- **C05** the first bucket of every key is inside the table. -/
theorem cuckoo_first_bucket_in_table (k : Nat) (h : UInt32) : bucketIndex (2 ^ k) h = h.toNat % 2 ^ k ∧
    bucketIndex (2 ^ k) h < 2 ^ k :=
  ⟨Nat.and_two_pow_sub_one_eq_mod _ _, bucketIndex_lt ⟨k, rfl⟩ h⟩

/-- **C05** a tag is never the empty-slot marker 0 and fits in 16 bits. -/
theorem cuckoo_tag_nonzero (h : UInt32) : 0 < computeTag h ∧ computeTag h < 2 ^ 16 := computeTag_range h

/-- **C05** two tags send a bucket to the same partner exactly when they agree modulo the bucket count, so tags spread over all
partners. -/
theorem cuckoo_partner_spread (k i t1 t2 : Nat) (hk : k ≤ 32) :
    another (2 ^ k) i t1 = another (2 ^ k) i t2 ↔ t1 % 2 ^ k = t2 % 2 ^ k := by
  have e : ∀ t, another (2 ^ k) i t = i % 2 ^ k ^^^ t * 0x5bd1e995 % 2 ^ k := by
    intro t
    unfold another
    rw [Nat.and_two_pow_sub_one_eq_mod, Nat.xor_mod_two_pow, Nat.mod_mod_of_dvd _ (Nat.pow_dvd_pow 2 hk)]
  rw [e, e]
  refine Iff.trans ⟨fun h => ?_, fun h => by rw [h]⟩ (?_ : t1 * 0x5bd1e995 % 2 ^ k = t2 * 0x5bd1e995 % 2 ^ k ↔ _)
  · have := congrArg (fun x => i % 2 ^ k ^^^ x) h
    simpa only [← Nat.xor_assoc, Nat.xor_self, Nat.zero_xor] using this
  · exact ⟨fun h => Nat.ModEq.cancel_right_of_coprime (m := 2 ^ k) (c := 0x5bd1e995)
    ((Nat.Coprime.pow_left k (by decide) : Nat.Coprime (2 ^ k) 0x5bd1e995)) h, fun h => Nat.ModEq.mul_right 0x5bd1e995 h⟩

/-- **C05** a key has two different buckets unless the bucket count divides its tag. -/
theorem cuckoo_two_buckets (k i t : Nat) (hk : k ≤ 32) (hi : i < 2 ^ k) :
    another (2 ^ k) i t = i ↔ 2 ^ k ∣ t := by
  have h := cuckoo_partner_spread k i t 0 hk
  have z : another (2 ^ k) i 0 = i := by
    unfold another
    rw [Nat.and_two_pow_sub_one_eq_mod, Nat.zero_mul, Nat.zero_mod, Nat.xor_zero, Nat.mod_eq_of_lt hi]
  rw [z, Nat.zero_mod] at h
  rw [h, Nat.dvd_iff_mod_eq_zero]

/-- In a table of 8 buckets tag 8 leaves a key with a single bucket, tag 9 gives it two. -/
example : another 8 5 8 = 5 ∧ another 8 5 9 ≠ 5 := by decide

/-- The hypothesis `i < 2 ^ k` cannot be dropped. -/
example : another (2 ^ 2) (another (2 ^ 2) 7 3) 3 ≠ 7 := by decide

/-- **C06** (partial) After any history of insertions and deletions on a new filter, a key whose insertion reported success is
still contained provided no later deletion is of a key with the same tag and the same pair of buckets.
Missing from C06: deletions of a *different* key that clashes with it (see `cuckoo_delete_loses_other_key`). -/
theorem cuckoo_delete_keeps_others_partial (H : Bytes → UInt32) (projected : Nat) (dbl : Bool) (hp : projected / 4 ≤ 2 ^ 31)
    (ops : List Op) :
    ∃ f oks, run H (new projected dbl) ops = some (f, oks) ∧ oks.length = ops.length ∧
      ∀ (i : Nat) x rnd, ops[i]? = some (.insert x rnd) → oks[i]? = some true →
        (∀ y, Op.delete y ∈ ops.drop (i + 1) → ¬ Clash H (new projected dbl).bucketNum x y) →
        contain H f x = some true := by
  obtain ⟨f, oks, h1, hl, _, _, h2⟩ := run_spec H ops (new_wf projected dbl hp)
  refine ⟨f, oks, h1, hl, ?_⟩
  intro i x rnd hk ho hh
  refine h2 i x rnd hk ho ?_
  intro op hop
  cases op with
  | insert => trivial
  | delete y => exact hh y hop

/-- The 4-byte little-endian key as `Insert(const int&)` passes it. -/
def intKey (v : Nat) : Bytes := leBytes 4 v

/-- The hash the filter uses. -/
def fastHash (m : Bytes) : UInt32 := LiteMurmur.hash LiteMurmur.fixedSalt m


/-- **C06 is violated by the code**: with the filter's own hash, insert the integers 1 and 2, both reported successful; delete 1;
`Contain(2)` is then false. -/
theorem cuckoo_delete_loses_other_key (rnd : Nat → Nat) :
    ∃ f oks, run fastHash (new 3 false) [.insert (intKey 1) rnd, .insert (intKey 2) rnd, .delete (intKey 1)] = some (f, oks) ∧
      oks = [true, true, true] ∧ intKey 1 ≠ intKey 2 ∧ contain fastHash f (intKey 2) = some false := by
  have h1 : insert fastHash rnd (new 3 false) (intKey 1) =
      some ({ new 3 false with table := [170, 250, 0, 0, 0, 0, 0, 0], inserted := 1}, true) :=
    insert_direct (by decide) (by decide) (by rfl)
  have h2 : insert fastHash rnd { new 3 false with table := [170, 250, 0, 0, 0, 0, 0, 0], inserted := 1} (intKey 2) =
      some ({ new 3 false with table := [170, 250, 170, 250, 0, 0, 0, 0], inserted := 2}, true) :=
    insert_direct (by decide) (by decide) (by rfl)
  have h3 : delete fastHash { new 3 false with table := [170, 250, 170, 250, 0, 0, 0, 0], inserted := 2} (intKey 1) =
      some (new 3 false, true) := by decide
  exact ⟨new 3 false, [true, true, true], by simp [run, step, h1, h2, h3], rfl, by decide, by decide⟩

/-! ### C07 -/

/-- Every member fits the width it is stored with, and the table has the length the members say. -/
structure Storable (f : Filter) : Prop where
  inserted : f.inserted < 2 ^ 64
  maxKick : f.maxKick < 2 ^ 64
  slotNum : f.slotNum < 2 ^ 64
  tagBits : f.tagBits < 2 ^ 64
  bucketBytes : f.bucketBytes = 8
  bucketNum : f.bucketNum ≤ 2 ^ 32
  table : f.table.length = 8 * f.bucketNum
  index : f.victim.bucketIndex < 2 ^ 32
  tag : f.victim.tag < 2 ^ 32
  used : f.victim.used < 2 ^ 32

theorem load_whole (b : Bytes) : load b 0 b.length = some b := by
  rw [load_eq_some (by omega)]; simp

/-- What a successful write leaves in the buffer, field by field. -/
theorem write_layout {f : Filter} (s : Storable f) (h2 : 2 ≤ f.bucketNum) (buf : Bytes) (hb : buf.length = objectSize f) :
    ∃ buf', writeObject f buf = some buf' ∧ buf'.length = buf.length ∧
      load buf' 0 8 = some (leBytes 8 f.inserted) ∧ load buf' 8 8 = some (leBytes 8 f.maxKick) ∧
      load buf' 16 8 = some (leBytes 8 f.slotNum) ∧ load buf' 24 8 = some (leBytes 8 f.tagBits) ∧
      load buf' 32 8 = some (leBytes 8 f.bucketBytes) ∧ load buf' 40 8 = some (leBytes 8 f.bucketNum) ∧
      load buf' 48 4 = some (leBytes 4 f.victim.bucketIndex) ∧ load buf' 52 4 = some (leBytes 4 f.victim.tag) ∧
      load buf' 56 4 = load buf 56 4 ∧ load buf' 60 f.table.length = some f.table := by
  have ht := s.table
  have hl : buf.length = 60 + f.table.length := by rw [hb, objectSize]; omega
  obtain ⟨b0, e0⟩ := store_isSome (m := buf) (off := 0) (b := leBytes 8 f.inserted) (by rw [leBytes_length]; omega)
  have l0 := store_length e0
  obtain ⟨b1, e1⟩ := store_isSome (m := b0) (off := 8) (b := leBytes 8 f.maxKick) (by rw [leBytes_length]; omega)
  have l1 := store_length e1
  obtain ⟨b2, e2⟩ := store_isSome (m := b1) (off := 16) (b := leBytes 8 f.slotNum) (by rw [leBytes_length]; omega)
  have l2 := store_length e2
  obtain ⟨b3, e3⟩ := store_isSome (m := b2) (off := 24) (b := leBytes 8 f.tagBits) (by rw [leBytes_length]; omega)
  have l3 := store_length e3
  obtain ⟨b4, e4⟩ := store_isSome (m := b3) (off := 32) (b := leBytes 8 f.bucketBytes) (by rw [leBytes_length]; omega)
  have l4 := store_length e4
  obtain ⟨b5, e5⟩ := store_isSome (m := b4) (off := 40) (b := leBytes 8 f.bucketNum) (by rw [leBytes_length]; omega)
  have l5 := store_length e5
  obtain ⟨b6, e6⟩ := store_isSome (m := b5) (off := 48) (b := leBytes 4 f.victim.bucketIndex) (by rw [leBytes_length]; omega)
  have l6 := store_length e6
  obtain ⟨b7, e7⟩ := store_isSome (m := b6) (off := 52) (b := leBytes 4 f.victim.tag) (by rw [leBytes_length]; omega)
  have l7 := store_length e7
  obtain ⟨b8, e8⟩ := store_isSome (m := b7) (off := 66) (b := leBytes 4 f.victim.used) (by rw [leBytes_length]; omega)
  have l8 := store_length e8
  obtain ⟨b9, e9⟩ := store_isSome (m := b8) (off := 60) (b := f.table) (by omega)
  have l9 := store_length e9
  have s0 := load_store_same e0
  have s1 := load_store_same e1
  have s2 := load_store_same e2
  have s3 := load_store_same e3
  have s4 := load_store_same e4
  have s5 := load_store_same e5
  have s6 := load_store_same e6
  have s7 := load_store_same e7
  have s9 := load_store_same e9
  simp only [leBytes_length] at s0 s1 s2 s3 s4 s5 s6 s7
  refine ⟨b9, by simp [writeObject, e0, e1, e2, e3, e4, e5, e6, e7, e8, e9], by omega, ?_, ?_, ?_, ?_, ?_, ?_, ?_, ?_, ?_, s9⟩
  · rw [load_store_disjoint e9, load_store_disjoint e8, load_store_disjoint e7, load_store_disjoint e6, load_store_disjoint e5,
      load_store_disjoint e4, load_store_disjoint e3, load_store_disjoint e2, load_store_disjoint e1, s0] <;>
      (try rw [leBytes_length]) <;> omega
  · rw [load_store_disjoint e9, load_store_disjoint e8, load_store_disjoint e7, load_store_disjoint e6, load_store_disjoint e5,
      load_store_disjoint e4, load_store_disjoint e3, load_store_disjoint e2, s1] <;>
      (try rw [leBytes_length]) <;> omega
  · rw [load_store_disjoint e9, load_store_disjoint e8, load_store_disjoint e7, load_store_disjoint e6, load_store_disjoint e5,
      load_store_disjoint e4, load_store_disjoint e3, s2] <;>
      (try rw [leBytes_length]) <;> omega
  · rw [load_store_disjoint e9, load_store_disjoint e8, load_store_disjoint e7, load_store_disjoint e6, load_store_disjoint e5,
      load_store_disjoint e4, s3] <;>
      (try rw [leBytes_length]) <;> omega
  · rw [load_store_disjoint e9, load_store_disjoint e8, load_store_disjoint e7, load_store_disjoint e6, load_store_disjoint e5,
      s4] <;>
      (try rw [leBytes_length]) <;> omega
  · rw [load_store_disjoint e9, load_store_disjoint e8, load_store_disjoint e7, load_store_disjoint e6, s5] <;>
      (try rw [leBytes_length]) <;> omega
  · rw [load_store_disjoint e9, load_store_disjoint e8, load_store_disjoint e7, s6] <;>
      (try rw [leBytes_length]) <;> omega
  · rw [load_store_disjoint e9, load_store_disjoint e8, s7] <;>
      (try rw [leBytes_length]) <;> omega
  · rw [load_store_disjoint e9, load_store_disjoint e8, load_store_disjoint e7, load_store_disjoint e6, load_store_disjoint e5,
      load_store_disjoint e4, load_store_disjoint e3, load_store_disjoint e2, load_store_disjoint e1, load_store_disjoint e0] <;>
      (try rw [leBytes_length]) <;> omega

theorem resize_length (t : Bytes) (n : Nat) : (resize t n).length = n := by
  simp [resize]; omega

/-- Reading back gives the original members, except that the victim flag is whatever bytes 56..59 of the buffer held *before*
the write. -/
theorem read_write {f : Filter} (s : Storable f) (h2 : 2 ≤ f.bucketNum) (buf : Bytes) (hb : buf.length = objectSize f) (f0 : Filter) :
    ∃ buf' u, writeObject f buf = some buf' ∧ load buf 56 4 = some u ∧
      readObject f0 buf' = some { f with victim := { f.victim with used := ofLE u } } := by
  obtain ⟨buf', w, wl, l0, l1, l2, l3, l4, l5, l6, l7, l8, l9⟩ := write_layout s h2 buf hb
  have hu : load buf 56 4 = some ((buf.drop 56).take 4) := load_eq_some (by rw [hb, objectSize, s.table]; omega)
  refine ⟨buf', _, w, hu, ?_⟩
  have hbn := s.bucketNum
  have e : ofLE (leBytes 8 f.bucketBytes) * ofLE (leBytes 8 f.bucketNum) % 2 ^ 64 = f.table.length := by
    rw [ofLE_leBytes 8 f.bucketBytes (by rw [s.bucketBytes]; decide), ofLE_leBytes 8 f.bucketNum (by omega), s.bucketBytes, s.table]
    omega
  have hr : (resize f0.table (ofLE (leBytes 8 f.bucketBytes) * ofLE (leBytes 8 f.bucketNum) % 2 ^ 64)).length = f.table.length := by
    rw [resize_length, e]
  obtain ⟨t', ht'⟩ := store_isSome (m := resize f0.table (ofLE (leBytes 8 f.bucketBytes) * ofLE (leBytes 8 f.bucketNum) % 2 ^ 64))
    (off := 0) (b := f.table) (by omega)
  have htt : t' = f.table := by
    have a := load_store_same ht'
    have b := store_length ht'
    rw [hr] at b
    rw [← b, load_whole] at a
    exact Option.some.inj a
  simp only [readObject, l0, l1, l2, l3, l4, l5, l6, l7, l8, hu, Option.bind_eq_bind, Option.bind_some, hr, l9, ht', htt]
  rw [ofLE_leBytes 8 f.inserted s.inserted, ofLE_leBytes 8 f.maxKick s.maxKick, ofLE_leBytes 8 f.slotNum s.slotNum,
    ofLE_leBytes 8 f.tagBits s.tagBits, ofLE_leBytes 8 f.bucketBytes (by rw [s.bucketBytes]; decide),
    ofLE_leBytes 8 f.bucketNum (by omega), ofLE_leBytes 4 f.victim.bucketIndex s.index, ofLE_leBytes 4 f.victim.tag s.tag]

theorem insert_storable (H : Bytes → UInt32) (rnd : Nat → Nat) {f f' : Filter} {ok : Bool} (w : WF f) (s : Storable f) (x : Bytes)
    (h : insert H rnd f x = some (f', ok)) : Storable f' := by
  obtain ⟨h0, h1⟩ := computeTag_range (H x)
  obtain ⟨t', v, e, w', hv, hp⟩ := kickLoop_spec rnd f.maxKick false f.table (bucketIndex f.bucketNum (H x))
    (computeTag (H x)) w (bucketIndex_lt w.pow _) h0 h1
  unfold insert at h
  split at h
  · cases h; exact s
  · simp only [e] at h
    cases v with
    | none =>
      cases h
      exact { s with inserted := Nat.mod_lt _ (by decide), table := w'.len }
    | some p =>
      obtain ⟨pi, pt⟩ := p
      cases h
      obtain ⟨q1, q2, q3⟩ := hv _ rfl
      have := s.bucketNum
      exact { s with table := w'.len, index := by simp only at q1; show pi < _; omega, tag := by simp only at q3; show pt < _; omega, used := by show 1 < _; decide }

theorem deleteFrom_storable {f f' : Filter} {b tag : Nat} {d : Bool} (s : Storable f)
    (h : deleteFrom f b tag = some (f', d)) : Storable f' := by
  simp only [deleteFrom, deleteTag, Option.bind_eq_bind, Option.bind_eq_some_iff] at h
  obtain ⟨⟨t, o⟩, ⟨o', _, ho⟩, h⟩ := h
  cases o with
  | none => cases h; exact s
  | some j =>
    cases o' with
    | none => simp at ho
    | some j' =>
      simp only [Option.bind_eq_some_iff] at ho h
      obtain ⟨t1, ht1, ho⟩ := ho
      obtain ⟨f1, hf1, h⟩ := h
      cases ho
      cases h
      have hl : t.length = f.table.length := store_length ht1
      unfold trySaveVictim at hf1
      split at hf1
      · simp only [Option.bind_eq_bind, Option.bind_eq_some_iff] at hf1
        obtain ⟨t2, ht2, hf1⟩ := hf1
        cases hf1
        have hl2 : t2.length = t.length := store_length ht2
        exact { s with inserted := Nat.mod_lt _ (by decide), table := by rw [← s.table, ← hl, ← hl2], used := by show 0 < _; decide }
      · cases hf1
        exact { s with inserted := Nat.mod_lt _ (by decide), table := by rw [← s.table, ← hl] }

theorem delete_storable (H : Bytes → UInt32) {f f' : Filter} {d : Bool} (s : Storable f) (x : Bytes)
    (h : delete H f x = some (f', d)) : Storable f' := by
  simp only [delete, Option.bind_eq_bind, Option.bind_eq_some_iff] at h
  obtain ⟨⟨f1, d1⟩, h1, ⟨f2, d2⟩, h2, h⟩ := h
  have s2 := deleteFrom_storable (deleteFrom_storable s h1) h2
  split at h
  · cases h
    exact { s2 with used := by show 0 < _; decide }
  · cases h
    exact s2

theorem new_storable (projected : Nat) (dbl : Bool) (hp : projected / 4 ≤ 2 ^ 31) : Storable (new projected dbl) := by
  refine ⟨by show 0 < _; decide, by show 500 < _; decide, by show 4 < _; decide, by show 16 < _; decide, rfl, ?_, (new_wf projected dbl hp).len, by show 0 < _; decide, by show 0 < _; decide, by show 0 < _; decide⟩
  have hm : 1 ≤ max 1 (BitVec.ofNat 32 (projected / 4)).toNat ∧ max 1 (BitVec.ofNat 32 (projected / 4)).toNat ≤ 2 ^ 31 := by
    rw [BitVec.toNat_ofNat, Nat.mod_eq_of_lt (by omega)]
    omega
  have hx : (BitVec.ofNat 32 (max 1 (BitVec.ofNat 32 (projected / 4)).toNat)).toNat = max 1 (BitVec.ofNat 32 (projected / 4)).toNat := by
    rw [BitVec.toNat_ofNat, Nat.mod_eq_of_lt]
    omega
  obtain ⟨k, hk, _, hmin⟩ := Word.upperpower2_least (BitVec.ofNat 32 (max 1 (BitVec.ofNat 32 (projected / 4)).toNat))
    (by rw [hx]; exact hm.1) (by rw [hx]; exact hm.2)
  have := hmin 31 (by rw [hx]; exact hm.2)
  simp only [new]
  rw [hk]
  split <;> omega

/-- Every state reached by calls on a new filter is storable. -/
theorem cuckoo_reachable_storable (H : Bytes → UInt32) (projected : Nat) (dbl : Bool) (hp : projected / 4 ≤ 2 ^ 31)
    (ops : List Op) {f : Filter} {oks : List Bool} (hr : run H (new projected dbl) ops = some (f, oks)) : Storable f := by
  have key : ∀ (ops : List Op) (f0 : Filter) (oks : List Bool), WF f0 → Storable f0 → run H f0 ops = some (f, oks) → Storable f := by
    intro ops
    induction ops with
    | nil => intro f0 oks _ s h; cases h; exact s
    | cons op ops ih =>
      intro f0 oks w s h
      simp only [run, Option.bind_eq_bind, Option.bind_eq_some_iff] at h
      obtain ⟨⟨f1, ok⟩, h1, ⟨f2, oks'⟩, h2, h⟩ := h
      cases h
      have hs : Storable f1 := by
        cases op with
        | insert x rnd => exact insert_storable H rnd w s x h1
        | delete x => exact delete_storable H s x h1
      obtain ⟨f1', ok', h1', w1, _⟩ := step_spec H w op
      rw [h1] at h1'
      cases h1'
      exact ih f1 oks' w1 hs h2
  exact key ops _ _ (new_wf projected dbl hp) (new_storable projected dbl hp) hr

/-- **C07** (partial) For every reachable filter with at least two buckets and no parked victim, writing into a buffer of
`ObjectSize()` bytes that were zero before and reading into any other filter restores exactly the same filter, hence the same
answers.  Missing from C07: states with a parked victim, one-bucket filters, and buffers that are not zeroed; in each of them the
code fails, see the three theorems below. -/
theorem cuckoo_object_round_trip_partial (H : Bytes → UInt32) (projected : Nat) (dbl : Bool) (hp : projected / 4 ≤ 2 ^ 31)
    (ops : List Op) {f : Filter} {oks : List Bool} (hr : run H (new projected dbl) ops = some (f, oks))
    (hv : f.victim.used = 0) (h2 : 2 ≤ f.bucketNum) (f0 : Filter) :
    ∃ buf', writeObject f (List.replicate (objectSize f) 0) = some buf' ∧ readObject f0 buf' = some f := by
  have s := cuckoo_reachable_storable H projected dbl hp ops hr
  obtain ⟨buf', u, w, hu, r⟩ := read_write s h2 (List.replicate (objectSize f) 0) (by simp) f0
  refine ⟨buf', w, ?_⟩
  have : u = [0, 0, 0, 0] := by
    have hlen : 60 ≤ objectSize f := by rw [objectSize]; omega
    rw [load_eq_some (by simpa using hlen)] at hu
    cases hu
    rw [List.drop_replicate, List.take_replicate]
    rw [Nat.min_eq_left (by omega)]
    rfl
  rw [r, this]
  congr 1
  cases f
  simp only at hv
  congr 1
  rw [show ofLE [0, 0, 0, 0] = 0 from rfl, ← hv]

/-- **C07 is violated (1)**: the victim flag that is read back is never the one of the written filter: it is whatever the
buffer's bytes 56..59 held before the write. -/
theorem cuckoo_victim_flag_not_saved (H : Bytes → UInt32) (projected : Nat) (dbl : Bool) (hp : projected / 4 ≤ 2 ^ 31)
    (ops : List Op) {f : Filter} {oks : List Bool} (hr : run H (new projected dbl) ops = some (f, oks)) (h2 : 2 ≤ f.bucketNum)
    (buf : Bytes) (hb : buf.length = objectSize f) (f0 : Filter) :
    ∃ buf' f1 u, writeObject f buf = some buf' ∧ readObject f0 buf' = some f1 ∧ load buf 56 4 = some u ∧
      f1.victim.used = ofLE u := by
  obtain ⟨buf', u, w, hu, r⟩ := read_write (cuckoo_reachable_storable H projected dbl hp ops hr) h2 buf hb f0
  exact ⟨buf', _, u, w, r, hu, rfl⟩

/-- The nine integers of the counterexample below. -/
def nineKeys : List Op := (List.range 9).map (fun i => .insert (intKey (i * 1000003)) (fun _ => 0))

/-- An evaluable form of `run` (the kick-out loop in structural form). -/
def runE (H : Bytes → UInt32) : Filter → List Op → Option (Filter × List Bool)
  | f, [] => some (f, [])
  | f, op :: ops => do
    let (f1, ok) ← match op with
      | .insert x rnd => insertE H rnd f x
      | .delete x => delete H f x
    let (f2, oks) ← runE H f1 ops
    some (f2, ok :: oks)

theorem run_eval (H : Bytes → UInt32) (f : Filter) (ops : List Op) : run H f ops = runE H f ops := by
  induction ops generalizing f with
  | nil => rfl
  | cons op ops ih =>
    cases op with
    | insert x rnd => simp only [run, runE, step, insert_eval, ih]
    | delete x => simp only [run, runE, step, ih]

/-- **C07 is violated (2)**: a concrete history. Nine successful insertions into a filter built for seven items park the ninth as
victim; it is contained; after a write into a zeroed buffer of `ObjectSize()` bytes and a read, it is not. -/
theorem cuckoo_round_trip_loses_victim :
    ∃ f oks buf f1, run fastHash (new 7 true) nineKeys = some (f, oks) ∧ oks = List.replicate 9 true ∧
      contain fastHash f (intKey 8000024) = some true ∧
      writeObject f (List.replicate (objectSize f) 0) = some buf ∧ readObject (new 7 true) buf = some f1 ∧
      contain fastHash f1 (intKey 8000024) = some false := by
  let f : Filter := { new 7 true with
    table := [170, 250, 140, 250, 109, 250, 79, 250, 155, 250, 124, 250, 94, 250, 63, 250], inserted := 8, victim := ⟨0, 64048, 1⟩ }
  have hr : run fastHash (new 7 true) nineKeys = some (f, List.replicate 9 true) := by
    rw [run_eval]
    decide +kernel
  have hrd : (writeObject f (List.replicate (objectSize f) 0)).bind (readObject (new 7 true)) =
      some { f with victim := ⟨0, 64048, 0⟩ } := by decide +kernel
  obtain ⟨buf, hw, hrd⟩ := Option.bind_eq_some_iff.mp hrd
  exact ⟨f, _, buf, _, hr, rfl, by decide +kernel, hw, hrd, by decide +kernel⟩

/-- **C07 is violated (3)**: with one bucket (a filter built for at most three items) the write touches bytes beyond
`ObjectSize()`. -/
theorem cuckoo_one_bucket_write_overflows (f : Filter) (h : f.table.length = 8) (buf : Bytes) (hb : buf.length = objectSize f) :
    writeObject f buf = none := by
  cases hw : writeObject f buf with
  | none => rfl
  | some b =>
    exfalso
    simp only [writeObject, Option.bind_eq_bind, Option.bind_eq_some_iff] at hw
    obtain ⟨b0, e0, b1, e1, b2, e2, b3, e3, b4, e4, b5, e5, b6, e6, b7, e7, b8, e8, e9⟩ := hw
    have l0 := store_length e0
    have l1 := store_length e1
    have l2 := store_length e2
    have l3 := store_length e3
    have l4 := store_length e4
    have l5 := store_length e5
    have l6 := store_length e6
    have l7 := store_length e7
    have := store_bound e8
    rw [leBytes_length] at this
    rw [objectSize, h] at hb
    omega

example : (new 3 false).table.length = 8 := by decide

/-! ### C80: files -/

theorem load_app (a b c : Bytes) : load (a ++ (b ++ c)) a.length b.length = some b := by
  rw [load_eq_some (by simp)]
  simp

/-- What `ReadObject(file)` does with a file made by `WriteObject(file)`: all members but the table come back, and the table goes through
`extract`. -/
theorem readFile_writeFile {f : Filter} (s : Storable f) (f0 : Filter) :
    readFile f0 (writeFile f) = (extract (resize f0.table f.table.length) f.table).map fun t => { f with table := t } := by
  have e : ofLE (leBytes 8 f.bucketBytes) * ofLE (leBytes 8 f.bucketNum) % 2 ^ 64 = f.table.length := by
    have hbn := s.bucketNum
    rw [ofLE_leBytes 8 f.bucketBytes (by rw [s.bucketBytes]; decide), ofLE_leBytes 8 f.bucketNum (by omega), s.bucketBytes, s.table]
    omega
  have l0 : load (writeFile f) 0 8 = some (leBytes 8 f.inserted) := by
    have := load_app [] (leBytes 8 f.inserted) (leBytes 8 f.maxKick ++ leBytes 8 f.slotNum ++ leBytes 8 f.tagBits ++ leBytes 8 f.bucketBytes ++
      leBytes 8 f.bucketNum ++ leBytes 4 f.victim.bucketIndex ++ leBytes 4 f.victim.tag ++ leBytes 4 f.victim.used ++ f.table)
    simpa [writeFile] using this
  have l1 : load (writeFile f) 8 8 = some (leBytes 8 f.maxKick) := by
    have := load_app (leBytes 8 f.inserted) (leBytes 8 f.maxKick) (leBytes 8 f.slotNum ++ leBytes 8 f.tagBits ++ leBytes 8 f.bucketBytes ++
      leBytes 8 f.bucketNum ++ leBytes 4 f.victim.bucketIndex ++ leBytes 4 f.victim.tag ++ leBytes 4 f.victim.used ++ f.table)
    simpa [writeFile] using this
  have l2 : load (writeFile f) 16 8 = some (leBytes 8 f.slotNum) := by
    have := load_app (leBytes 8 f.inserted ++ leBytes 8 f.maxKick) (leBytes 8 f.slotNum) (leBytes 8 f.tagBits ++ leBytes 8 f.bucketBytes ++
      leBytes 8 f.bucketNum ++ leBytes 4 f.victim.bucketIndex ++ leBytes 4 f.victim.tag ++ leBytes 4 f.victim.used ++ f.table)
    simpa [writeFile] using this
  have l3 : load (writeFile f) 24 8 = some (leBytes 8 f.tagBits) := by
    have := load_app (leBytes 8 f.inserted ++ leBytes 8 f.maxKick ++ leBytes 8 f.slotNum) (leBytes 8 f.tagBits) (leBytes 8 f.bucketBytes ++
      leBytes 8 f.bucketNum ++ leBytes 4 f.victim.bucketIndex ++ leBytes 4 f.victim.tag ++ leBytes 4 f.victim.used ++ f.table)
    simpa [writeFile] using this
  have l4 : load (writeFile f) 32 8 = some (leBytes 8 f.bucketBytes) := by
    have := load_app (leBytes 8 f.inserted ++ leBytes 8 f.maxKick ++ leBytes 8 f.slotNum ++ leBytes 8 f.tagBits) (leBytes 8 f.bucketBytes)
      (leBytes 8 f.bucketNum ++ leBytes 4 f.victim.bucketIndex ++ leBytes 4 f.victim.tag ++ leBytes 4 f.victim.used ++ f.table)
    simpa [writeFile] using this
  have l5 : load (writeFile f) 40 8 = some (leBytes 8 f.bucketNum) := by
    have := load_app (leBytes 8 f.inserted ++ leBytes 8 f.maxKick ++ leBytes 8 f.slotNum ++ leBytes 8 f.tagBits ++ leBytes 8 f.bucketBytes)
      (leBytes 8 f.bucketNum) (leBytes 4 f.victim.bucketIndex ++ leBytes 4 f.victim.tag ++ leBytes 4 f.victim.used ++ f.table)
    simpa [writeFile] using this
  have l6 : load (writeFile f) 48 4 = some (leBytes 4 f.victim.bucketIndex) := by
    have := load_app (leBytes 8 f.inserted ++ leBytes 8 f.maxKick ++ leBytes 8 f.slotNum ++ leBytes 8 f.tagBits ++ leBytes 8 f.bucketBytes ++
      leBytes 8 f.bucketNum) (leBytes 4 f.victim.bucketIndex) (leBytes 4 f.victim.tag ++ leBytes 4 f.victim.used ++ f.table)
    simpa [writeFile] using this
  have l7 : load (writeFile f) 52 4 = some (leBytes 4 f.victim.tag) := by
    have := load_app (leBytes 8 f.inserted ++ leBytes 8 f.maxKick ++ leBytes 8 f.slotNum ++ leBytes 8 f.tagBits ++ leBytes 8 f.bucketBytes ++
      leBytes 8 f.bucketNum ++ leBytes 4 f.victim.bucketIndex) (leBytes 4 f.victim.tag) (leBytes 4 f.victim.used ++ f.table)
    simpa [writeFile] using this
  have l8 : load (writeFile f) 56 4 = some (leBytes 4 f.victim.used) := by
    have := load_app (leBytes 8 f.inserted ++ leBytes 8 f.maxKick ++ leBytes 8 f.slotNum ++ leBytes 8 f.tagBits ++ leBytes 8 f.bucketBytes ++
      leBytes 8 f.bucketNum ++ leBytes 4 f.victim.bucketIndex ++ leBytes 4 f.victim.tag) (leBytes 4 f.victim.used) f.table
    simpa [writeFile] using this
  have ld : (writeFile f).drop 60 = f.table := by
    have : 60 = (leBytes 8 f.inserted ++ leBytes 8 f.maxKick ++ leBytes 8 f.slotNum ++ leBytes 8 f.tagBits ++ leBytes 8 f.bucketBytes ++
      leBytes 8 f.bucketNum ++ leBytes 4 f.victim.bucketIndex ++ leBytes 4 f.victim.tag ++ leBytes 4 f.victim.used).length := by simp
    rw [writeFile, this, List.drop_left]
  unfold readFile
  rw [l0, l1, l2, l3, l4, l5, l6, l7, l8]
  simp only [Option.bind_eq_bind, Option.bind_some]
  rw [e, ld, ofLE_leBytes 8 _ s.inserted, ofLE_leBytes 8 _ s.maxKick, ofLE_leBytes 8 _ s.slotNum, ofLE_leBytes 8 _ s.tagBits,
    ofLE_leBytes 8 f.bucketBytes (by rw [s.bucketBytes]; decide), ofLE_leBytes 8 f.bucketNum (by have := s.bucketNum; omega),
    ofLE_leBytes 4 _ s.index, ofLE_leBytes 4 _ s.tag, ofLE_leBytes 4 _ s.used]
  cases extract (resize f0.table f.table.length) f.table <;> rfl

/-- Storing the white-space delimited word never gives back the bytes it was read from. -/
theorem extract_ne (t b : Bytes) (hl : t.length = b.length) (hb : b.dropWhile isSpace ≠ []) : extract t b ≠ some b := by
  intro h
  unfold extract at h
  rw [if_neg hb] at h
  have hbd := store_bound h
  cases b with
  | nil => exact hb rfl
  | cons x xs =>
    by_cases hx : isSpace x
    · -- leading white space is skipped: the first byte differs
      have h0 := store_getElem? h 0
      cases hd : (x :: xs).dropWhile isSpace with
      | nil => exact hb hd
      | cons y ys =>
        have hy : isSpace y = false := by
          have := List.head_dropWhile_not isSpace hb
          simpa [hd] using this
        rw [hd] at h0
        simp [hy] at h0
        rw [h0] at hx
        rw [hx] at hy
        cases hy
    · -- the word is a prefix, and the byte after it is white space, but a zero is stored there
      have hd : (x :: xs).dropWhile isSpace = x :: xs := by simp [hx]
      rw [hd] at h hbd
      generalize hw : (x :: xs).takeWhile (fun b => !isSpace b) = w at *
      have hsplit := List.takeWhile_append_dropWhile (p := fun b => !isSpace b) (l := x :: xs)
      rw [hw] at hsplit
      have h1 := store_getElem? h w.length
      have hlen : w.length < (x :: xs).length := by
        rw [hl, List.length_append, List.length_singleton] at hbd; omega
      cases hr : (x :: xs).dropWhile (fun b => !isSpace b) with
      | nil => rw [hr, List.append_nil] at hsplit; rw [hsplit] at hlen; omega
      | cons y ys =>
        have hy : isSpace y = true := by
          have := List.head_dropWhile_not (fun b => !isSpace b) (l := x :: xs) (by rw [hr]; simp)
          simpa [hr] using this
        rw [← hsplit, hr] at h1
        simp at h1
        rw [h1] at hy
        revert hy
        decide

/-- **C80 is violated by the code, for every filter**: a filter reached by any history of calls, written to a file and read into a new
object (`CuckooFilter()`, whose table is empty), is never restored. -/
theorem cuckoo_file_never_restores (H : Bytes → UInt32) (projected : Nat) (dbl : Bool) (hp : projected / 4 ≤ 2 ^ 31)
    (ops : List Op) {f : Filter} {oks : List Bool} (hr : run H (new projected dbl) ops = some (f, oks)) (f0 : Filter) (h0 : f0.table = []) :
    readFile f0 (writeFile f) ≠ some f := by
  have s := cuckoo_reachable_storable H projected dbl hp ops hr
  obtain ⟨f', oks', h1, _, w, _⟩ := run_spec H ops (new_wf projected dbl hp)
  rw [hr] at h1
  cases h1
  have hpos : 0 < f.table.length := by
    obtain ⟨k, hk⟩ := w.pow
    rw [s.table, hk]
    have := Nat.two_pow_pos k
    omega
  rw [readFile_writeFile s]
  intro h
  rw [Option.map_eq_some_iff] at h
  obtain ⟨t, h1, h2⟩ := h
  have ht : t = f.table := by rw [← h2]
  subst ht
  by_cases hb : f.table.dropWhile isSpace = []
  · unfold extract at h1
    rw [if_pos hb, h0, Option.some.injEq] at h1
    have hz : f.table[0]? = some 0 := by
      rw [← h1]
      simp [resize, hpos]
    cases hf : f.table with
    | nil => rw [hf] at hpos; simp at hpos
    | cons x xs =>
      rw [hf] at hz hb
      simp at hz
      rw [hz, List.dropWhile_cons_of_neg (by decide)] at hb
      cases hb
  · exact extract_ne _ _ (by simp [resize_length]) hb h1

/-- **C80 is violated (2)**: reading the file of a filter whose table holds no white-space byte, in particular of every filter just
constructed, writes past the end of the table. -/
theorem cuckoo_file_overflows {f : Filter} (s : Storable f) (h : ∀ b ∈ f.table, isSpace b = false) (hne : f.table ≠ []) (f0 : Filter) :
    readFile f0 (writeFile f) = none := by
  rw [readFile_writeFile s, Option.map_eq_none_iff]
  have hd : f.table.dropWhile isSpace = f.table := by
    cases hf : f.table with
    | nil => rfl
    | cons x xs => rw [List.dropWhile_cons_of_neg]; rw [h x (by rw [hf]; simp)]; decide
  have ht : f.table.takeWhile (fun b => !isSpace b) = f.table := by
    have : ∀ l : Bytes, (∀ b ∈ l, isSpace b = false) → l.takeWhile (fun b => !isSpace b) = l := by
      intro l
      induction l with
      | nil => intro _; rfl
      | cons x xs ih =>
        intro hl
        rw [List.takeWhile_cons_of_pos (by rw [hl x (by simp)]; rfl), ih fun b hb => hl b (by simp [hb])]
    exact this _ h
  unfold extract
  rw [hd, if_neg hne, ht]
  cases hs : store (resize f0.table f.table.length) 0 (f.table ++ [0]) with
  | none => rfl
  | some r =>
    have := store_bound hs
    simp only [List.length_append, List.length_singleton, resize_length] at this
    omega

example : Storable (new 7 true) ∧ (∀ b ∈ (new 7 true).table, isSpace b = false) ∧ (new 7 true).table ≠ [] :=
  ⟨new_storable 7 true (by decide), by decide, by decide⟩

/-- The string "110". -/
def crKey : Bytes := [49, 49, 48]

/-- **C80 is violated (3)**: the string "110" is inserted and contained; after writing the filter to a file and reading the file, which ends
without an overflow because the tag has a byte 13 (carriage return), it is not contained. -/
theorem cuckoo_file_loses_key (rnd : Nat → Nat) (f0 : Filter) (h0 : f0.table = []) :
    ∃ f f1, insert fastHash rnd (new 7 true) crKey = some (f, true) ∧ contain fastHash f crKey = some true ∧
      readFile f0 (writeFile f) = some f1 ∧ contain fastHash f1 crKey = some false := by
  let f : Filter := { new 7 true with table := [0, 0, 0, 0, 0, 0, 0, 0, 45, 13, 0, 0, 0, 0, 0, 0], inserted := 1 }
  have hi : insert fastHash rnd (new 7 true) crKey = some (f, true) := insert_direct (by decide) (by decide) (by rfl)
  have s : Storable f := insert_storable fastHash rnd (new_wf 7 true (by decide)) (new_storable 7 true (by decide)) crKey hi
  refine ⟨f, { f with table := [0, 0, 0, 0, 0, 0, 0, 0, 45, 0, 0, 0, 0, 0, 0, 0] }, hi, by decide +kernel, ?_, by decide +kernel⟩
  rw [readFile_writeFile s, h0]
  rfl

/-- **C80** (partial) Whenever reading the file returns, every member but the table is the one of the filter written, for every receiving
object; so are the lengths. Missing: the contents of the table, which the code does not restore (`cuckoo_file_never_restores`). -/
theorem cuckoo_file_header_partial (H : Bytes → UInt32) (projected : Nat) (dbl : Bool) (hp : projected / 4 ≤ 2 ^ 31)
    (ops : List Op) {f : Filter} {oks : List Bool} (hr : run H (new projected dbl) ops = some (f, oks)) (f0 f1 : Filter)
    (h : readFile f0 (writeFile f) = some f1) : { f1 with table := f.table } = f ∧ f1.table.length = f.table.length := by
  rw [readFile_writeFile (cuckoo_reachable_storable H projected dbl hp ops hr), Option.map_eq_some_iff] at h
  obtain ⟨t, h1, rfl⟩ := h
  refine ⟨rfl, ?_⟩
  show t.length = _
  unfold extract at h1
  split at h1
  · cases h1
    exact resize_length _ _
  · rw [store_length h1, resize_length]

/-! ### Points as keys -/

/-- A finding about `Insert(ECPoint)`/`Contain(ECPoint)`: the hashed buffer has indeterminate bytes after the 33 encoded ones, so
C04 does not extend to points: for some garbage the inserted point is not found. -/
theorem cuckoo_point_key_false_negative (rnd : Nat → Nat) :
    ∃ enc g1 g2 f, enc.length = 33 ∧ g1.length = 32 ∧ g2.length = 32 ∧
      insert fastHash rnd (new 3 false) (pointBuffer enc g1) = some (f, true) ∧
      contain fastHash f (pointBuffer enc g2) = some false := by
  refine ⟨List.replicate 33 2, List.replicate 32 0, List.replicate 32 1,
    { new 3 false with table := [71, 172, 0, 0, 0, 0, 0, 0], inserted := 1}, by decide, by decide, by decide,
    insert_direct (by decide) (by decide) (by rfl), by decide +kernel⟩

end Kunlun.Cuckoo
