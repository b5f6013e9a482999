import Verif.Model.Cuckoo
import Verif.Model.WordLemmas
/-! Helper lemmas for the cuckoo filter model. -/

namespace Kunlun.Cuckoo

open Kunlun

/-- Table of `n` buckets, `n` a power of two. -/
structure TableWF (n : Nat) (t : Bytes) : Prop where
  pow : ∃ k, n = 2 ^ k
  len : t.length = 8 * n

theorem and_pow_lt {n : Nat} (hp : ∃ k, n = 2 ^ k) (a : Nat) : a &&& (n - 1) < n := by
  obtain ⟨k, rfl⟩ := hp
  rw [Nat.and_two_pow_sub_one_eq_mod]
  exact Nat.mod_lt _ (Nat.two_pow_pos k)

theorem another_lt {n : Nat} (hp : ∃ k, n = 2 ^ k) (i tag : Nat) : another n i tag < n := and_pow_lt hp _

theorem bucketIndex_lt {n : Nat} (hp : ∃ k, n = 2 ^ k) (h : UInt32) : bucketIndex n h < n := and_pow_lt hp _

theorem another_another' {n : Nat} (hp : ∃ k, n = 2 ^ k) {i tag : Nat} (hi : i < n) :
    another n (another n i tag) tag = i := by
  obtain ⟨k, rfl⟩ := hp
  unfold another
  rw [Nat.and_two_pow_sub_one_eq_mod, Nat.and_two_pow_sub_one_eq_mod, Nat.xor_mod_two_pow, Nat.mod_mod,
    Nat.xor_mod_two_pow, Nat.xor_assoc, Nat.xor_self, Nat.xor_zero, Nat.mod_eq_of_lt hi]

theorem computeTag_range (h : UInt32) : 0 < computeTag h ∧ computeTag h < 65536 := by
  unfold computeTag
  have := h.toNat_lt
  rw [Nat.shiftRight_eq_div_pow]
  simp only
  split <;> omega

theorem readTag_some {n : Nat} {t : Bytes} (w : TableWF n t) {b j : Nat} (hb : b < n) (hj : j < 4) :
    ∃ v, readTag t b j = some v ∧ v < 65536 := by
  have hl : b * 8 + j * 2 + 2 ≤ t.length := by rw [w.len]; omega
  refine ⟨_, by rw [readTag, load_eq_some hl]; rfl, ?_⟩
  have := ofLE_lt ((t.drop (b * 8 + j * 2)).take 2)
  have hlen : ((t.drop (b * 8 + j * 2)).take 2).length = 2 := by simp; omega
  rw [hlen] at this
  exact this

theorem writeTag_some {n : Nat} {t : Bytes} (w : TableWF n t) {b j : Nat} (tag : Nat) (hb : b < n) (hj : j < 4) :
    ∃ t', writeTag t b j tag = some t' :=
  store_isSome (by rw [w.len, leBytes_length]; omega)

theorem writeTag_wf {n : Nat} {t t' : Bytes} (w : TableWF n t) {b j tag : Nat} (h : writeTag t b j tag = some t') :
    TableWF n t' := ⟨w.pow, by rw [store_length h, w.len]⟩

theorem read_write_same {t t' : Bytes} {b j tag : Nat} (h : writeTag t b j tag = some t') (ht : tag < 65536) :
    readTag t' b j = some tag := by
  have := load_store_same h
  rw [leBytes_length] at this
  rw [readTag, this, Option.map_some, ofLE_leBytes 2 tag (by simpa using ht)]

theorem read_write_other {t t' : Bytes} {b j tag b' j' : Nat} (h : writeTag t b j tag = some t') (hj : j < 4) (hj' : j' < 4)
    (hne : ¬ (b' = b ∧ j' = j)) : readTag t' b' j' = readTag t b' j' := by
  unfold readTag
  rw [load_store_disjoint h]
  rw [leBytes_length]
  omega

/-- The tag is stored in some slot of the bucket. -/
def Has (t : Bytes) (b tag : Nat) : Prop := ∃ j, j < 4 ∧ readTag t b j = some tag

theorem findSlot_spec {n : Nat} {t : Bytes} (w : TableWF n t) {b : Nat} (hb : b < n) (tag : Nat) (k j : Nat)
    (hkj : k + j = 4) :
    (∃ j', findSlot t b tag k j = some (some j') ∧ j ≤ j' ∧ j' < 4 ∧ readTag t b j' = some tag) ∨
    (findSlot t b tag k j = some none ∧ ∀ j', j ≤ j' → j' < 4 → readTag t b j' ≠ some tag) := by
  induction k generalizing j with
  | zero => exact Or.inr ⟨rfl, fun j' h1 h2 => by omega⟩
  | succ k ih =>
    obtain ⟨v, hv, _⟩ := readTag_some w hb (show j < 4 by omega)
    unfold findSlot
    simp only [hv, Option.bind_eq_bind, Option.bind_some]
    by_cases hvt : v = tag
    · rw [if_pos hvt]
      exact Or.inl ⟨j, rfl, Nat.le_refl _, by omega, by rw [hv, hvt]⟩
    · rw [if_neg hvt]
      rcases ih (j + 1) (by omega) with ⟨j', h1, h2, h3, h4⟩ | ⟨h1, h2⟩
      · exact Or.inl ⟨j', h1, by omega, h3, h4⟩
      · refine Or.inr ⟨h1, ?_⟩
        intro j' hj1 hj2
        by_cases e : j' = j
        · subst e; rw [hv]; intro h; cases h; exact hvt rfl
        · exact h2 j' (by omega) hj2

theorem ofLE_lane (w : Bytes) (hw : w.length = 8) (j : Nat) (hj : j < 4) :
    ofLE w / 2 ^ (16 * j) % 2 ^ 16 = ofLE ((w.drop (2 * j)).take 2) := by
  match w, hw with
  | [b0, b1, b2, b3, b4, b5, b6, b7], _ =>
    have h0 := b0.toNat_lt; have h1 := b1.toNat_lt; have h2 := b2.toNat_lt; have h3 := b3.toNat_lt
    have h4 := b4.toNat_lt; have h5 := b5.toNat_lt; have h6 := b6.toNat_lt; have h7 := b7.toNat_lt
    have : j = 0 ∨ j = 1 ∨ j = 2 ∨ j = 3 := by omega
    rcases this with rfl | rfl | rfl | rfl <;> simp [ofLE] <;> omega

theorem findTag_spec {n : Nat} {t : Bytes} (w : TableWF n t) {b tag : Nat} (hb : b < n) (ht : tag < 65536) :
    ∃ r, findTag t b tag = some r ∧ (r = true ↔ Has t b tag) := by
  have hl : b * 8 + 8 ≤ t.length := by rw [w.len]; omega
  have hlen : ((t.drop (b * 8)).take 8).length = 8 := by simp; omega
  refine ⟨_, by rw [findTag, load_eq_some hl]; rfl, ?_⟩
  rw [bne_iff_ne, Word.hasvalue16_iff_lane _ _ ht]
  have hlt : ofLE ((t.drop (b * 8)).take 8) < 2 ^ 64 := by
    have := ofLE_lt ((t.drop (b * 8)).take 8); rw [hlen] at this; exact this
  have e : ∀ j, j < 4 → (Word.lane 16 (BitVec.ofNat 64 (ofLE ((t.drop (b * 8)).take 8))) j = tag ↔
      readTag t b j = some tag) := by
    intro j hj
    unfold Word.lane
    rw [BitVec.toNat_ofNat, Nat.mod_eq_of_lt hlt, ofLE_lane _ hlen j hj, readTag,
      load_eq_some (by rw [w.len]; omega), Option.map_some, Option.some.injEq]
    have : ((t.drop (b * 8)).take 8).drop (2 * j) = ((t.drop (b * 8 + j * 2)).take (8 - 2 * j)) := by
      rw [List.drop_take, List.drop_drop, Nat.mul_comm 2 j]
    rw [this, List.take_take, Nat.min_eq_left (by omega)]
  constructor
  · rintro ⟨j, hj, h⟩; exact ⟨j, hj, (e j hj).mp h⟩
  · rintro ⟨j, hj, h⟩; exact ⟨j, hj, (e j hj).mpr h⟩

/-- Where a tag with home buckets `i`, `another i` may be found. -/
def Stored (n : Nat) (t : Bytes) (i tag : Nat) : Prop := Has t i tag ∨ Has t (another n i tag) tag

/-- The tag `g` with home `i` is the one currently in hand at bucket `b`. -/
def InHand (n : Nat) (i g : Nat) : Option (Nat × Nat) → Prop
  | none => False
  | some (b, tag) => tag = g ∧ (b = i ∨ b = another n i g)

theorem insertTag_spec {n : Nat} {t : Bytes} (w : TableWF n t) {b tag : Nat} (hb : b < n) (_h0 : 0 < tag)
    (ht : tag < 65536) (licence : Bool) (r : Nat) :
    ∃ t' s, insertTag t b tag licence r = some (t', s) ∧ TableWF n t' ∧
      (match s with
        | .successNoKick => Has t' b tag ∧ ∀ b' g, 0 < g → Has t b' g → Has t' b' g
        | .freshFailure => t' = t ∧ licence = false
        | .successKick kicked => licence = true ∧ 0 < kicked ∧ kicked < 65536 ∧ Has t' b tag ∧
            ∀ b' g, 0 < g → Has t b' g → Has t' b' g ∨ (b' = b ∧ g = kicked)) := by
  unfold insertTag
  rcases findSlot_spec w hb 0 4 0 rfl with ⟨j, h1, _, h3, h4⟩ | ⟨h1, h2⟩
  · obtain ⟨t', ht'⟩ := writeTag_some w tag hb h3
    refine ⟨t', .successNoKick, by simp [h1, ht'], writeTag_wf w ht', ⟨j, h3, read_write_same ht' ht⟩, ?_⟩
    rintro b' g hg ⟨j', hj', hr⟩
    by_cases e : b' = b ∧ j' = j
    · obtain ⟨rfl, rfl⟩ := e
      rw [h4] at hr
      cases hr
      omega
    · exact ⟨j', hj', by rw [read_write_other ht' h3 hj' e, hr]⟩
  · cases licence with
    | false => exact ⟨t, .freshFailure, by simp [h1], w, rfl, rfl⟩
    | true =>
      have hr4 : r % 4 < 4 := Nat.mod_lt _ (by decide)
      obtain ⟨v, hv, hvlt⟩ := readTag_some w hb hr4
      obtain ⟨t', ht'⟩ := writeTag_some w tag hb hr4
      refine ⟨t', .successKick v, by simp [h1, hv, ht'], writeTag_wf w ht', rfl, ?_, hvlt,
        ⟨r % 4, hr4, read_write_same ht' ht⟩, ?_⟩
      · have := h2 (r % 4) (Nat.zero_le _) hr4
        rw [hv] at this
        rcases Nat.eq_zero_or_pos v with h | h
        · subst h; exact absurd rfl this
        · exact h
      · rintro b' g hg ⟨j', hj', hr⟩
        by_cases e : b' = b ∧ j' = r % 4
        · obtain ⟨rfl, rfl⟩ := e
          rw [hv] at hr
          cases hr
          exact Or.inr ⟨rfl, rfl⟩
        · exact Or.inl ⟨j', hj', by rw [read_write_other ht' hr4 hj' e, hr]⟩

theorem kickLoop_spec {n : Nat} (rnd : Nat → Nat) (kicks : Nat) (licence : Bool) (t : Bytes) (b tag : Nat)
    (w : TableWF n t) (hb : b < n) (h0 : 0 < tag) (ht : tag < 65536) :
    ∃ t' v, kickLoop n rnd t b tag kicks licence = some (t', v) ∧ TableWF n t' ∧
      (∀ p, v = some p → p.1 < n ∧ 0 < p.2 ∧ p.2 < 65536) ∧
      ∀ i g, i < n → 0 < g → (Stored n t i g ∨ InHand n i g (some (b, tag))) →
        Stored n t' i g ∨ InHand n i g v := by
  match kicks with
  | 0 =>
    refine ⟨t, some (b, tag), by simp [kickLoop], w, ?_, fun i g _ _ h => h⟩
    rintro p hp; cases hp; exact ⟨hb, h0, ht⟩
  | k + 1 =>
    obtain ⟨t1, s, h1, w1, hs⟩ := insertTag_spec w hb h0 ht licence (rnd (k + 1))
    unfold kickLoop
    rw [h1]
    cases s with
    | successNoKick =>
      refine ⟨t1, none, rfl, w1, (fun p hp => by cases hp), ?_⟩
      intro i g hi hg h
      left
      rcases h with (h | h) | ⟨e, h⟩
      · exact Or.inl (hs.2 _ _ hg h)
      · exact Or.inr (hs.2 _ _ hg h)
      · subst e
        rcases h with rfl | rfl
        · exact Or.inl hs.1
        · exact Or.inr hs.1
    | freshFailure =>
      obtain ⟨rfl, hl⟩ := hs
      simp only [hl, Bool.false_eq_true, if_false]
      obtain ⟨t', v, h2, w2, hv, h3⟩ := kickLoop_spec rnd (k + 1) true t1 (another n b tag) tag w1
        (another_lt w.pow _ _) h0 ht
      refine ⟨t', v, h2, w2, hv, ?_⟩
      intro i g hi hg h
      apply h3 i g hi hg
      rcases h with h | ⟨rfl, h⟩
      · exact Or.inl h
      · refine Or.inr ⟨rfl, ?_⟩
        rcases h with rfl | rfl
        · exact Or.inr rfl
        · exact Or.inl (another_another' w.pow hi)
    | successKick kicked =>
      obtain ⟨hl, k0, k1, hh, hp⟩ := hs
      obtain ⟨t', v, h2, w2, hv, h3⟩ := kickLoop_spec rnd k licence t1 (another n b kicked) kicked w1
        (another_lt w.pow _ _) k0 k1
      refine ⟨t', v, h2, w2, hv, ?_⟩
      intro i g hi hg h
      apply h3 i g hi hg
      rcases h with (h | h) | ⟨rfl, h⟩
      · rcases hp _ _ hg h with h | ⟨rfl, rfl⟩
        · exact Or.inl (Or.inl h)
        · exact Or.inr ⟨rfl, Or.inr rfl⟩
      · rcases hp _ _ hg h with h | ⟨e, rfl⟩
        · exact Or.inl (Or.inr h)
        · refine Or.inr ⟨rfl, Or.inl ?_⟩
          rw [← e]; exact another_another' w.pow hi
      · rcases h with rfl | rfl
        · exact Or.inl (Or.inl hh)
        · exact Or.inl (Or.inr hh)
termination_by (kicks, (if licence then 0 else 1))
decreasing_by
  · simp_wf
    right
    simp [hl]
  · simp_wf
    left
    omega

/-- The kick loop once kicking is licensed, as a structural recursion (used to evaluate concrete cases). -/
def kickT (n : Nat) (rnd : Nat → Nat) : Bytes → Nat → Nat → Nat → Option (Bytes × Option (Nat × Nat))
  | t, i, tag, 0 => some (t, some (i, tag))
  | t, i, tag, k + 1 =>
    match insertTag t i tag true (rnd (k + 1)) with
    | none => none
    | some (t', .successNoKick) => some (t', none)
    | some (_, .freshFailure) => none
    | some (t', .successKick kicked) => kickT n rnd t' (another n i kicked) kicked k

theorem kickLoop_true (n : Nat) (rnd : Nat → Nat) (k : Nat) (t : Bytes) (i tag : Nat) :
    kickLoop n rnd t i tag k true = kickT n rnd t i tag k := by
  induction k generalizing t i tag with
  | zero => simp [kickLoop, kickT]
  | succ k ih =>
    rw [kickLoop, kickT]
    rcases insertTag t i tag true (rnd (k + 1)) with _ | ⟨t', _ | _ | kicked⟩
    · rfl
    · rfl
    · rfl
    · exact ih _ _ _

/-- The kick loop of a fresh key, evaluable. -/
def kickF (n : Nat) (rnd : Nat → Nat) (t : Bytes) (i tag k : Nat) : Option (Bytes × Option (Nat × Nat)) :=
  match k with
  | 0 => some (t, some (i, tag))
  | k + 1 =>
    match insertTag t i tag false (rnd (k + 1)) with
    | none => none
    | some (t', .successNoKick) => some (t', none)
    | some (t', .freshFailure) => kickT n rnd t' (another n i tag) tag (k + 1)
    | some (_, .successKick _) => none

theorem kickLoop_false (n : Nat) (rnd : Nat → Nat) (k : Nat) (t : Bytes) (i tag : Nat) :
    kickLoop n rnd t i tag k false = kickF n rnd t i tag k := by
  cases k with
  | zero => simp [kickLoop, kickF]
  | succ k =>
    rw [kickLoop, kickF]
    have hne : ∀ t' kd, insertTag t i tag false (rnd (k + 1)) ≠ some (t', .successKick kd) := by
      intro t' kd h
      simp only [insertTag, Option.bind_eq_bind, Option.bind_eq_some_iff] at h
      obtain ⟨o, _, h⟩ := h
      cases o with
      | none => simp at h
      | some j =>
        simp only [Option.bind_eq_some_iff] at h
        obtain ⟨_, _, h⟩ := h
        simp at h
    rcases h : insertTag t i tag false (rnd (k + 1)) with _ | ⟨t', _ | _ | kicked⟩
    · rfl
    · rfl
    · exact kickLoop_true n rnd _ _ _ _
    · exact absurd h (hne _ _)

/-- An insertion that finds an empty slot at once. -/
theorem insert_direct {H : Bytes → UInt32} {rnd : Nat → Nat} {f : Filter} {x t' : Bytes} (hu : f.victim.used = 0)
    (hm : f.maxKick = 500)
    (h : kickF f.bucketNum rnd f.table (bucketIndex f.bucketNum (H x)) (computeTag (H x)) 500 = some (t', none)) :
    insert H rnd f x = some ({ f with table := t', inserted := (f.inserted + 1) % 2 ^ 64 }, true) := by
  simp only [insert, hu, ne_eq, not_true_eq_false, if_false, hm, kickLoop_false, h]

/-- An evaluable form of `insert`. -/
def insertE (H : Bytes → UInt32) (rnd : Nat → Nat) (f : Filter) (x : Bytes) : Option (Filter × Bool) :=
  if f.victim.used ≠ 0 then some (f, false)
  else
    match kickF f.bucketNum rnd f.table (bucketIndex f.bucketNum (H x)) (computeTag (H x)) f.maxKick with
    | none => none
    | some (t, none) => some ({ f with table := t, inserted := (f.inserted + 1) % 2 ^ 64 }, true)
    | some (t, some (i, tag)) => some ({ f with table := t, victim := ⟨i, tag, 1⟩ }, true)

theorem insert_eval (H : Bytes → UInt32) (rnd : Nat → Nat) (f : Filter) (x : Bytes) :
    insert H rnd f x = insertE H rnd f x := by
  unfold insert insertE
  simp only [kickLoop_false]
  rfl

/-- State invariant. -/
def WF (f : Filter) : Prop := TableWF f.bucketNum f.table

/-- The fingerprint `(i, g)` is present in the filter. -/
def Present (f : Filter) (i g : Nat) : Prop :=
  Stored f.bucketNum f.table i g ∨
    (f.victim.used ≠ 0 ∧ InHand f.bucketNum i g (some (f.victim.bucketIndex, f.victim.tag)))

theorem contain_spec (H : Bytes → UInt32) {f : Filter} (w : WF f) (x : Bytes) :
    ∃ r, contain H f x = some r ∧
      (r = true ↔ Present f (bucketIndex f.bucketNum (H x)) (computeTag (H x))) := by
  obtain ⟨h0, h1⟩ := computeTag_range (H x)
  have hb1 := bucketIndex_lt w.pow (H x)
  have hb2 := another_lt w.pow (bucketIndex f.bucketNum (H x)) (computeTag (H x))
  obtain ⟨r1, e1, i1⟩ := findTag_spec w hb1 h1
  obtain ⟨r2, e2, i2⟩ := findTag_spec w hb2 h1
  unfold contain Present Stored InHand
  simp only [e1, e2, Option.bind_eq_bind, Option.bind_some]
  cases r1 with
  | true => exact ⟨true, rfl, by simp [i1.mp rfl]⟩
  | false =>
    have n1 : ¬ Has f.table (bucketIndex f.bucketNum (H x)) (computeTag (H x)) := fun h => by
      have := i1.mpr h; cases this
    cases r2 with
    | true => exact ⟨true, rfl, by simp [i2.mp rfl]⟩
    | false =>
      have n2 : ¬ Has f.table (another f.bucketNum (bucketIndex f.bucketNum (H x)) (computeTag (H x)))
          (computeTag (H x)) := fun h => by
        have := i2.mpr h; cases this
      refine ⟨_, rfl, ?_⟩
      simp only [n1, n2, false_or, Bool.and_eq_true, bne_iff_ne, ne_eq, beq_iff_eq, Bool.or_eq_true]
      constructor
      · rintro ⟨⟨a, b⟩, c⟩
        exact ⟨a, b.symm, by rcases c with c | c <;> simp [c]⟩
      · rintro ⟨a, b, c⟩
        exact ⟨⟨a, b.symm⟩, by rcases c with c | c <;> simp [c]⟩

theorem insert_spec (H : Bytes → UInt32) (rnd : Nat → Nat) {f : Filter} (w : WF f) (x : Bytes) :
    ∃ f' ok, insert H rnd f x = some (f', ok) ∧ WF f' ∧ f'.bucketNum = f.bucketNum ∧
      (ok = true → Present f' (bucketIndex f.bucketNum (H x)) (computeTag (H x))) ∧
      (ok = false → f' = f ∧ f.victim.used ≠ 0) ∧
      ∀ i g, i < f.bucketNum → 0 < g → Present f i g → Present f' i g := by
  unfold insert
  by_cases hu : f.victim.used ≠ 0
  · rw [if_pos hu]
    exact ⟨f, false, rfl, w, rfl, by simp, fun _ => ⟨rfl, hu⟩, fun _ _ _ _ h => h⟩
  · rw [if_neg hu]
    obtain ⟨h0, h1⟩ := computeTag_range (H x)
    obtain ⟨t', v, e, w', hv, hp⟩ := kickLoop_spec rnd f.maxKick false f.table (bucketIndex f.bucketNum (H x))
      (computeTag (H x)) w (bucketIndex_lt w.pow _) h0 h1
    simp only [e]
    have hu' : f.victim.used = 0 := by simpa using hu
    cases v with
    | none =>
      refine ⟨_, true, rfl, w', rfl, fun _ => ?_, by simp, ?_⟩
      · rcases hp _ _ (bucketIndex_lt w.pow _) h0 (Or.inr ⟨rfl, Or.inl rfl⟩) with h | h
        · exact Or.inl h
        · exact absurd h id
      · intro i g hi hg h
        rcases h with h | ⟨h, _⟩
        · rcases hp i g hi hg (Or.inl h) with h | h
          · exact Or.inl h
          · exact absurd h id
        · exact absurd hu' h
    | some p =>
      obtain ⟨pi, pt⟩ := p
      refine ⟨_, true, rfl, w', rfl, fun _ => ?_, by simp, ?_⟩
      · rcases hp _ _ (bucketIndex_lt w.pow _) h0 (Or.inr ⟨rfl, Or.inl rfl⟩) with h | h
        · exact Or.inl h
        · exact Or.inr ⟨by simp, h⟩
      · intro i g hi hg h
        rcases h with h | ⟨h, _⟩
        · rcases hp i g hi hg (Or.inl h) with h | h
          · exact Or.inl h
          · exact Or.inr ⟨by simp, h⟩
        · exact absurd hu' h

/-- Two fingerprints share their tag and their pair of buckets. -/
def SameClass (n : Nat) (i g i' g' : Nat) : Prop := g = g' ∧ (i = i' ∨ i = another n i' g')

theorem deleteFrom_spec {f : Filter} (w : WF f) {b tag : Nat} (hb : b < f.bucketNum) (h0 : 0 < tag)
    (ht : tag < 65536) :
    ∃ f' d, deleteFrom f b tag = some (f', d) ∧ WF f' ∧ f'.bucketNum = f.bucketNum ∧
      ∀ i g, 0 < g → ¬ (g = tag ∧ (b = i ∨ b = another f.bucketNum i g)) → Present f i g → Present f' i g := by
  unfold deleteFrom deleteTag
  rcases findSlot_spec w hb tag 4 0 rfl with ⟨j, h1, _, h3, h4⟩ | ⟨h1, h2⟩
  · obtain ⟨t', ht'⟩ := writeTag_some w 0 hb h3
    have w' : TableWF f.bucketNum t' := writeTag_wf w ht'
    simp only [h1, ht', Option.bind_eq_bind, Option.bind_some]
    have keep : ∀ b' g, 0 < g → ¬ (g = tag ∧ b' = b) → Has f.table b' g → Has t' b' g := by
      rintro b' g hg hne ⟨j', hj', hr⟩
      by_cases e : b' = b ∧ j' = j
      · obtain ⟨rfl, rfl⟩ := e
        rw [h4] at hr
        cases hr
        exact absurd ⟨rfl, rfl⟩ hne
      · exact ⟨j', hj', by rw [read_write_other ht' h3 hj' e, hr]⟩
    unfold trySaveVictim
    by_cases hv : f.victim.used ≠ 0 ∧ f.victim.bucketIndex = b ∧ f.victim.tag = tag
    · simp only
      rw [if_pos hv]
      obtain ⟨t2, ht2⟩ := writeTag_some w' tag hb h3
      simp only [ht2, Option.bind_some]
      refine ⟨_, true, rfl, writeTag_wf w' ht2, rfl, ?_⟩
      have keep2 : ∀ b' g, 0 < g → Has t' b' g → Has t2 b' g := by
        rintro b' g hg ⟨j', hj', hr⟩
        by_cases e : b' = b ∧ j' = j
        · obtain ⟨rfl, rfl⟩ := e
          have := read_write_same ht' (by decide)
          rw [this] at hr
          cases hr
          omega
        · exact ⟨j', hj', by rw [read_write_other ht2 h3 hj' e, hr]⟩
      rintro i g hg hne (h | ⟨_, ev, hvb⟩)
      · left
        rcases h with h | h
        · exact Or.inl (keep2 _ _ hg (keep _ _ hg (fun ⟨a, c⟩ => hne ⟨a, Or.inl c.symm⟩) h))
        · exact Or.inr (keep2 _ _ hg (keep _ _ hg (fun ⟨a, c⟩ => hne ⟨a, Or.inr c.symm⟩) h))
      · exfalso
        apply hne
        rw [hv.2.1] at hvb
        exact ⟨by rw [← ev, hv.2.2], hvb⟩
    · simp only
      rw [if_neg hv]
      refine ⟨_, true, rfl, w', rfl, ?_⟩
      rintro i g hg hne (h | h)
      · left
        rcases h with h | h
        · exact Or.inl (keep _ _ hg (fun ⟨a, c⟩ => hne ⟨a, Or.inl c.symm⟩) h)
        · exact Or.inr (keep _ _ hg (fun ⟨a, c⟩ => hne ⟨a, Or.inr c.symm⟩) h)
      · exact Or.inr h
  · simp only [h1, Option.bind_eq_bind, Option.bind_some]
    exact ⟨f, false, rfl, w, rfl, fun _ _ _ _ h => h⟩

theorem delete_spec (H : Bytes → UInt32) {f : Filter} (w : WF f) (x : Bytes) :
    ∃ f' d, delete H f x = some (f', d) ∧ WF f' ∧ f'.bucketNum = f.bucketNum ∧
      ∀ i g, i < f.bucketNum → 0 < g →
        ¬ SameClass f.bucketNum i g (bucketIndex f.bucketNum (H x)) (computeTag (H x)) →
        Present f i g → Present f' i g := by
  obtain ⟨h0, h1⟩ := computeTag_range (H x)
  have hb1 := bucketIndex_lt w.pow (H x)
  have hb2 := another_lt w.pow (bucketIndex f.bucketNum (H x)) (computeTag (H x))
  obtain ⟨f1, d1, e1, w1, n1, p1⟩ := deleteFrom_spec w hb1 h0 h1
  obtain ⟨f2, d2, e2, w2, n2, p2⟩ := deleteFrom_spec (b := another f.bucketNum (bucketIndex f.bucketNum (H x)) (computeTag (H x)))
    w1 (by rw [n1]; exact hb2) h0 h1
  unfold delete
  simp only [e1, e2, Option.bind_eq_bind, Option.bind_some]
  have key : ∀ i g, i < f.bucketNum → 0 < g →
        ¬ SameClass f.bucketNum i g (bucketIndex f.bucketNum (H x)) (computeTag (H x)) →
        Present f i g → Present f2 i g := by
    intro i g hi hg hne h
    apply p2 i g hg ?_ (p1 i g hg ?_ h)
    · rintro ⟨rfl, c⟩
      apply hne
      refine ⟨rfl, ?_⟩
      rw [n1] at c
      rcases c with c | c
      · exact Or.inr c.symm
      · left
        have := congrArg (fun z => another f.bucketNum z (computeTag (H x))) c
        simp only [another_another' w.pow hb1, another_another' w.pow hi] at this
        exact this.symm
    · rintro ⟨rfl, c⟩
      apply hne
      refine ⟨rfl, ?_⟩
      rcases c with c | c
      · exact Or.inl c.symm
      · right
        rw [c, another_another' w.pow hi]
  split
  · rename_i hv
    refine ⟨_, true, rfl, w2, by rw [← n1, ← n2], ?_⟩
    intro i g hi hg hne h
    rcases key i g hi hg hne h with h | ⟨_, ev, hb⟩
    · exact Or.inl h
    · exfalso
      apply hne
      obtain ⟨_, hv2, hv3⟩ := hv
      have hn : f2.bucketNum = f.bucketNum := by omega
      rw [hn] at hb
      refine ⟨by rw [← ev, ← hv2], ?_⟩
      have eg : g = computeTag (H x) := by rw [← ev, ← hv2]
      subst eg
      rcases hv3 with c | c
      · rw [← c] at hb
        rcases hb with e | e
        · exact Or.inl e.symm
        · right
          rw [e, another_another' w.pow hi]
      · rw [← c] at hb
        rcases hb with e | e
        · exact Or.inr e.symm
        · left
          have := congrArg (fun z => another f.bucketNum z (computeTag (H x))) e
          simp only [another_another' w.pow hb1, another_another' w.pow hi] at this
          exact this.symm
  · exact ⟨f2, d1 || d2, rfl, w2, by omega, key⟩

end Kunlun.Cuckoo
