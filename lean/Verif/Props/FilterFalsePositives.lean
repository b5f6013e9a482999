import Verif.Model.LiteMurmurColl
import Verif.Props.Cuckoo
import Verif.Props.Bloom
import Mathlib.Algebra.Order.BigOperators.Group.Finset
import Mathlib.Data.Finset.Prod
import Mathlib.Tactic.Positivity
import Mathlib.Tactic.NormNum
import Mathlib.Tactic.Ring
/-!
Property C110: which keys that were never inserted the two filters report.
-/

namespace Kunlun.Cuckoo

open Kunlun

/-- **C110** (violation) For every key of at least eight bytes that a cuckoo filter reports, in whatever state the filter is, there are
`2^32 - 1` other keys of the same length that it reports as well and that differ from the key in the first eight bytes only: one for every
choice of the first four bytes. The next four are computed with a few operations from public constants. Deleting any of them is deleting the
key. -/
theorem cuckoo_false_positives (f : Filter) (x : Bytes) (hx : 8 ≤ x.length) (hc : contain fastHash f x = some true) :
    ∃ other : UInt32 → Bytes, Function.Injective other ∧ (∃ a, other a = x) ∧
      ∀ a, (other a).take 4 = leBytes 4 a.toNat ∧ (other a).drop 8 = x.drop 8 ∧ (other a).length = x.length ∧
        contain fastHash f (other a) = some true ∧ delete fastHash f (other a) = delete fastHash f x := by
  refine ⟨LiteMurmur.twin LiteMurmur.fixedSalt x, LiteMurmur.twin_inj _ _, ⟨_, LiteMurmur.twin_self _ x hx⟩, fun a => ?_⟩
  have hh : fastHash (LiteMurmur.twin LiteMurmur.fixedSalt x a) = fastHash x := LiteMurmur.hash_twin _ x hx a
  refine ⟨?_, ?_, LiteMurmur.twin_length _ x hx a, ?_, ?_⟩
  · simp [LiteMurmur.twin, LiteMurmur.leBytes_length, List.take_append]
  · simp [LiteMurmur.twin, LiteMurmur.leBytes_length, List.drop_append]
  · rw [← hc]
    unfold contain
    rw [hh]
  · unfold delete
    rw [hh]

/-- The hypotheses are met: the new filter for 100 elements after the insertion of a key of 16 bytes. -/
example (rnd : Nat → Nat) : ∃ f, run fastHash (new 100 false) [.insert (List.replicate 16 7) rnd] = some (f, [true]) ∧
    contain fastHash f (List.replicate 16 7) = some true := by
  obtain ⟨f, oks, h1, h2, h3⟩ := cuckoo_no_false_negatives fastHash 100 false (by decide) [(List.replicate 16 7, rnd)]
  have h1' := h1
  simp only [List.map_cons, List.map_nil, run, step, Option.bind_eq_bind, Option.bind_some, Option.bind_eq_some_iff] at h1
  obtain ⟨⟨f1, ok⟩, hi, h⟩ := h1
  cases h
  have : ok = true := by
    cases ok with
    | true => rfl
    | false =>
      have := (cuckoo_insert_failure fastHash rnd (new_wf 100 false (by decide)) _ hi).2
      exact absurd (new_victim 100 false) this
  subst this
  exact ⟨f1, h1', h3 0 _ rnd rfl rfl⟩

/-- The slots that hold a tag. -/
def occupied (f : Filter) : Finset (Nat × Nat) :=
  ((Finset.range f.bucketNum) ×ˢ (Finset.range 4)).filter (fun p => readTag f.table p.1 p.2 ≠ some 0)

/-- Hash values that meet the tag `t` stored in bucket `B`. -/
def meets (n : Nat) (B t : Nat) : Finset Nat :=
  (Finset.range (2 ^ 32)).filter (fun h => computeTag (UInt32.ofNat h) = t ∧
    (bucketIndex n (UInt32.ofNat h) = B ∨ another n (bucketIndex n (UInt32.ofNat h)) t = B))

theorem meets_card (e B t : Nat) : (meets (2 ^ e) B t).card ≤ 4 * 2 ^ (16 - e) := by
  have hcard : ((Finset.univ : Finset Bool) ×ˢ ((Finset.univ : Finset Bool) ×ˢ Finset.range (2 ^ (16 - e)))).card = 4 * 2 ^ (16 - e) := by
    simp only [Finset.card_product, Finset.card_univ, Fintype.card_bool, Finset.card_range]
    omega
  rw [← hcard]
  have hlo : ∀ h, h % 65536 / 2 ^ e < 2 ^ (16 - e) := by
    intro h
    rw [Nat.div_lt_iff_lt_mul (by positivity), ← pow_add]
    have : (2 : Nat) ^ 16 ≤ 2 ^ (16 - e + e) := Nat.pow_le_pow_right (by norm_num) (by omega)
    have := Nat.mod_lt h (show 65536 > 0 by norm_num)
    omega
  refine Finset.card_le_card_of_injOn
    (fun h => (decide (bucketIndex (2 ^ e) (UInt32.ofNat h) = B), decide (h / 65536 = 0), h % 65536 / 2 ^ e)) ?_ ?_
  · intro h _
    simp only [Finset.coe_product, Set.mem_prod, Finset.coe_univ, Set.mem_univ, Finset.coe_range, Set.mem_Iio, true_and]
    exact hlo h
  · intro h hh h' hh' heq
    simp only [meets, Finset.coe_filter, Finset.mem_range, Set.mem_setOf_eq] at hh hh'
    obtain ⟨l1, t1, b1⟩ := hh
    obtain ⟨l2, t2, b2⟩ := hh'
    simp only [Prod.mk.injEq] at heq
    obtain ⟨q1, q2, q3⟩ := heq
    have n1 : (UInt32.ofNat h).toNat = h := UInt32.toNat_ofNat_of_lt' (by simpa [UInt32.size] using l1)
    have n2 : (UInt32.ofNat h').toNat = h' := UInt32.toNat_ofNat_of_lt' (by simpa [UInt32.size] using l2)
    have bi : bucketIndex (2 ^ e) (UInt32.ofNat h) = bucketIndex (2 ^ e) (UInt32.ofNat h') := by
      have i1 := bucketIndex_lt (n := 2 ^ e) ⟨e, rfl⟩ (UInt32.ofNat h)
      have i2 := bucketIndex_lt (n := 2 ^ e) ⟨e, rfl⟩ (UInt32.ofNat h')
      by_cases hB : bucketIndex (2 ^ e) (UInt32.ofNat h) = B
      · rw [hB]
        exact (by simpa [hB] using q1 : bucketIndex (2 ^ e) (UInt32.ofNat h') = B).symm
      · have hB' : ¬ bucketIndex (2 ^ e) (UInt32.ofNat h') = B := by simpa [hB] using q1
        have e1 := b1.resolve_left hB
        have e2 := b2.resolve_left hB'
        rw [← another_another' (tag := t) ⟨e, rfl⟩ i1, ← another_another' (tag := t) ⟨e, rfl⟩ i2, e1, e2]
    unfold bucketIndex at bi
    rw [n1, n2, Nat.and_two_pow_sub_one_eq_mod, Nat.and_two_pow_sub_one_eq_mod] at bi
    unfold computeTag at t1 t2
    simp only [n1, n2, Nat.shiftRight_eq_div_pow] at t1 t2
    have hhi : h / 65536 = h' / 65536 := by
      simp only [decide_eq_decide] at q2
      norm_num at t1 t2
      split at t1 <;> split at t2 <;> omega
    have hlow : h % 65536 = h' % 65536 := by
      by_cases he : e ≤ 16
      · have d1 : (2 : Nat) ^ e ∣ 65536 := ⟨2 ^ (16 - e), by rw [← pow_add, show e + (16 - e) = 16 by omega]; norm_num⟩
        have m1 : h % 65536 % 2 ^ e = h' % 65536 % 2 ^ e := by rw [Nat.mod_mod_of_dvd _ d1, Nat.mod_mod_of_dvd _ d1, bi]
        rw [← Nat.div_add_mod (h % 65536) (2 ^ e), ← Nat.div_add_mod (h' % 65536) (2 ^ e), q3, m1]
      · have d1 : 65536 ∣ (2 : Nat) ^ e := ⟨2 ^ (e - 16), by rw [show (65536 : Nat) = 2 ^ 16 by norm_num, ← pow_add, show 16 + (e - 16) = e by omega]⟩
        rw [← Nat.mod_mod_of_dvd h d1, ← Nat.mod_mod_of_dvd h' d1, bi]
    omega

/-- Number of last words for which the filter reports the key `p ++ last word`. -/
def reported (f : Filter) (p : Bytes) : Nat :=
  ((Finset.range (2 ^ 32)).filter (fun w => contain fastHash f (p ++ leBytes 4 w) = some true)).card

/-- **C110** (partial) For every prefix and every filter state: among the `2^32` keys that continue the prefix by four bytes, the filter reports at
most `4 * 2^(16-e)` per stored tag, where `2^e` is the number of buckets. Missing from C110: keys that are not drawn at random are reported
at will (`cuckoo_false_positives`), and the bound does not depend on the error probability given to the constructor. -/
theorem cuckoo_false_positive_rate_partial {f : Filter} (w : WF f) {e : Nat} (he : f.bucketNum = 2 ^ e) (p : Bytes) (hp : p.length % 4 = 0) :
    reported f p ≤ ((occupied f).card + 1) * (4 * 2 ^ (16 - e)) := by
  let tagOf : Nat × Nat → Nat := fun q => (readTag f.table q.1 q.2).getD 0
  let U : Finset Nat := (occupied f).biUnion (fun q => meets f.bucketNum q.1 (tagOf q)) ∪ meets f.bucketNum f.victim.bucketIndex f.victim.tag
  have hU : U.card ≤ ((occupied f).card + 1) * (4 * 2 ^ (16 - e)) := by
    refine (Finset.card_union_le _ _).trans ?_
    rw [Nat.add_mul, Nat.one_mul]
    refine Nat.add_le_add ?_ (by rw [he]; exact meets_card e _ _)
    exact Finset.card_biUnion_le_card_mul _ _ _ (fun q _ => by rw [he]; exact meets_card e _ _)
  refine le_trans ?_ hU
  have hlt : ∀ w, w < 2 ^ 32 → w < 256 ^ 4 := fun w hw => by norm_num at hw ⊢; omega
  refine Finset.card_le_card_of_injOn (fun v => (fastHash (p ++ leBytes 4 v)).toNat) ?_ ?_
  · intro v hv
    simp only [Finset.coe_filter, Finset.mem_range, Set.mem_setOf_eq] at hv
    obtain ⟨r, hr, hiff⟩ := contain_spec fastHash w (p ++ leBytes 4 v)
    rw [hr] at hv
    have hpres := hiff.mp (by simpa using hv.2)
    have hlt' : (fastHash (p ++ leBytes 4 v)).toNat < 2 ^ 32 := UInt32.toNat_lt _
    show (fastHash (p ++ leBytes 4 v)).toNat ∈ U
    generalize hg : fastHash (p ++ leBytes 4 v) = g at *
    have hof : UInt32.ofNat g.toNat = g := by simp
    have ht := computeTag_range g
    have slot : ∀ B, B < f.bucketNum → Has f.table B (computeTag g) →
        (bucketIndex f.bucketNum g = B ∨ another f.bucketNum (bucketIndex f.bucketNum g) (computeTag g) = B) → g.toNat ∈ U := by
      intro B hB ⟨j, hj, hrd⟩ hb
      apply Finset.mem_union_left
      rw [Finset.mem_biUnion]
      refine ⟨(B, j), ?_, ?_⟩
      · simp only [occupied, Finset.mem_filter, Finset.mem_product, Finset.mem_range]
        refine ⟨⟨hB, hj⟩, ?_⟩
        rw [hrd]
        intro h
        have := Option.some.inj h
        omega
      · simp only [meets, Finset.mem_filter, Finset.mem_range, tagOf, hrd, Option.getD_some, hof]
        exact ⟨hlt', trivial, hb⟩
    rcases hpres with (h | h) | ⟨_, h⟩
    · exact slot _ (bucketIndex_lt w.pow g) h (Or.inl rfl)
    · exact slot _ (another_lt w.pow _ _) h (Or.inr rfl)
    · apply Finset.mem_union_right
      simp only [InHand] at h
      simp only [meets, Finset.mem_filter, Finset.mem_range, hof]
      refine ⟨hlt', h.1.symm, ?_⟩
      rw [h.1]
      exact h.2.imp Eq.symm Eq.symm
  · intro v hv v' hv' heq
    simp only [Finset.coe_filter, Finset.mem_range, Set.mem_setOf_eq] at hv hv'
    have := LiteMurmur.last_word_inj LiteMurmur.fixedSalt p hp (LiteMurmur.leBytes_length 4 v) (LiteMurmur.leBytes_length 4 v')
      (UInt32.toNat_inj.mp heq)
    exact leBytes_inj (hlt v hv.1) (hlt v' hv'.1) this

/-- **C110** (partial) After any history of calls on a new filter with at most `2^16` buckets (`2^18` slots), fewer than one in 2^11 of
the keys with a given prefix are reported, whatever was inserted. -/
theorem cuckoo_small_rate_partial (projected : Nat) (dbl : Bool) (hp : projected / 4 ≤ 2 ^ 31) (hn : (new projected dbl).bucketNum ≤ 2 ^ 16)
    (ops : List Op) (p : Bytes) (h4 : p.length % 4 = 0) :
    ∃ f oks, run fastHash (new projected dbl) ops = some (f, oks) ∧ 2 ^ 11 * reported f p < 2 ^ 32 := by
  obtain ⟨f, oks, h1, _, w, hb, _⟩ := run_spec fastHash ops (new_wf projected dbl hp)
  refine ⟨f, oks, h1, ?_⟩
  obtain ⟨e, he⟩ := w.pow
  have h16 : e ≤ 16 := by
    rw [← hb, he] at hn
    exact (Nat.pow_le_pow_iff_right (by norm_num)).mp hn
  have hr := cuckoo_false_positive_rate_partial w he p h4
  have ho : (occupied f).card ≤ 2 ^ e * 4 := by
    refine (Finset.card_filter_le _ _).trans ?_
    rw [Finset.card_product, Finset.card_range, Finset.card_range, he]
  have hmul : ((occupied f).card + 1) * (4 * 2 ^ (16 - e)) ≤ 5 * 2 ^ e * (4 * 2 ^ (16 - e)) :=
    Nat.mul_le_mul_right _ (by have : 1 ≤ 2 ^ e := Nat.one_le_two_pow; omega)
  have hfin : 5 * 2 ^ e * (4 * 2 ^ (16 - e)) = 20 * 2 ^ 16 := by
    rw [show 5 * 2 ^ e * (4 * 2 ^ (16 - e)) = 20 * (2 ^ e * 2 ^ (16 - e)) by ring, ← pow_add, show e + (16 - e) = 16 by omega]
  have : reported f p ≤ 20 * 2 ^ 16 := hr.trans (hmul.trans_eq hfin)
  omega

end Kunlun.Cuckoo

namespace Kunlun.Bloom

open Kunlun

/-- A string of 4200 bytes that takes all salts of `GenUniqueSaltVector` to one state (`LiteMurmur.merge`). -/
def mergeKey : Bytes := LiteMurmur.blocksBytes LiteMurmur.merge

/-- The common state. -/
def mergeSalt : UInt32 := UInt32.ofNat LiteMurmur.merged

theorem new_salts {rnd : List UInt32} {maxElem n : Nat} {raw : UInt32} {f0 : Filter} (h : new rnd maxElem n raw = some f0) :
    genUniqueSaltVector rnd n constructorSeed = some f0.vecSalt ∧ f0.hashNum = n := by
  unfold new at h
  simp only [Option.bind_eq_bind, Option.bind_eq_some_iff, Option.pure_def, Option.some.injEq] at h
  obtain ⟨v, hv, rfl⟩ := h
  exact ⟨hv, rfl⟩

theorem hash_mergeKey {rnd : List UInt32} {maxElem n : Nat} {raw : UInt32} {f0 : Filter} (h : new rnd maxElem n raw = some f0) (hn : n ≤ 128)
    {s : UInt32} (hs : s ∈ f0.vecSalt) (z : Bytes) : LiteMurmur.hash s (mergeKey ++ z) = LiteMurmur.hash mergeSalt z := by
  unfold mergeKey mergeSalt
  rw [LiteMurmur.hash_blocks _ LiteMurmur.merge_lt, LiteMurmur.merge_salts hn (new_salts h).1 s hs]

/-- **C110** (violation) There is one fixed string such that in every constructed filter, for every number of hash functions from 1 to 128 and every
table size, a key that starts with this string has a single position: all hash functions agree. Whatever has been inserted, such a key is
reported as soon as this one bit of the table is set by any key, so such keys are reported with the fraction of set bits (about one half by
design) instead of its `n`-th power. -/
theorem bloom_one_position {rnd : List UInt32} {maxElem n : Nat} {raw : UInt32} {f0 : Filter}
    (hnew : new rnd maxElem n raw = some f0) (hraw : 0 < raw.toNat ∧ raw.toNat ≤ 2 ^ 32 - 8) (h1 : 1 ≤ n) (hn : n ≤ 128)
    (ops : List Op) (hv : ValidOps n ops) :
    ∃ f, run LiteMurmur.hash f0 ops = some f ∧
      ∀ (z : Bytes) (sched : List (Nat × Bool)), (sched.map (·.1)).Perm (List.range n) →
        ∃ b, containSched LiteMurmur.hash f (mergeKey ++ z) sched = some b ∧
          (b = true ↔ ∃ k ∈ live ops, ∃ s ∈ f0.vecSalt,
            (LiteMurmur.hash s k).toNat % f0.tableSize = (LiteMurmur.hash mergeSalt z).toNat % f0.tableSize) := by
  obtain ⟨f, hr, hc⟩ := bloom_contain_iff LiteMurmur.hash hnew hraw ops hv
  refine ⟨f, hr, fun z sched hs => ?_⟩
  obtain ⟨b, hb, hiff⟩ := hc (mergeKey ++ z) sched hs
  refine ⟨b, hb, hiff.trans ⟨fun h => ?_, fun h s hs => ?_⟩⟩
  · have hl : f0.vecSalt.length = n := genSalts_length (new_salts hnew).1
    obtain ⟨s, hs⟩ : ∃ s, s ∈ f0.vecSalt := List.exists_mem_of_length_pos (by omega)
    obtain ⟨k, hk, s', hs', e⟩ := h s hs
    rw [hash_mergeKey hnew hn hs] at e
    exact ⟨k, hk, s', hs', e⟩
  · rw [hash_mergeKey hnew hn hs]
    exact h

/-- **C110** (violation) Inserting one key that starts with the string and has at least eight more bytes makes every constructed filter with 1 to
128 hash functions report `2^32 - 1` other keys of the same length, one for every choice of the four bytes after the string, under every
execution order of the parallel loops and whatever else is inserted. -/
theorem bloom_false_positives {rnd : List UInt32} {maxElem n : Nat} {raw : UInt32} {f0 : Filter}
    (hnew : new rnd maxElem n raw = some f0) (hraw : 0 < raw.toNat ∧ raw.toNat ≤ 2 ^ 32 - 8) (hn : n ≤ 128)
    (ops : List Op) (hv : ValidOps n ops) (z : Bytes) (hz : 8 ≤ z.length) (hlive : mergeKey ++ z ∈ live ops) :
    ∃ f, run LiteMurmur.hash f0 ops = some f ∧
      ∃ other : UInt32 → Bytes, Function.Injective other ∧ (∃ a, other a = z) ∧
        ∀ a, (other a).take 4 = leBytes 4 a.toNat ∧ (other a).length = z.length ∧
          ∀ sched : List (Nat × Bool), (sched.map (·.1)).Perm (List.range n) →
            containSched LiteMurmur.hash f (mergeKey ++ other a) sched = some true := by
  obtain ⟨f, hr, hc⟩ := bloom_contain_iff LiteMurmur.hash hnew hraw ops hv
  refine ⟨f, hr, LiteMurmur.twin mergeSalt z, LiteMurmur.twin_inj _ _, ⟨_, LiteMurmur.twin_self _ z hz⟩, fun a => ⟨?_, LiteMurmur.twin_length _ z hz a, ?_⟩⟩
  · simp [LiteMurmur.twin, LiteMurmur.leBytes_length, List.take_append]
  · intro sched hs
    obtain ⟨b, hb, hiff⟩ := hc (mergeKey ++ LiteMurmur.twin mergeSalt z a) sched hs
    rw [hb, hiff.mpr (fun s hs => ⟨_, hlive, s, hs, ?_⟩)]
    rw [hash_mergeKey hnew hn hs, hash_mergeKey hnew hn hs, LiteMurmur.hash_twin _ z hz]

/-- The hypotheses are met: a filter with 40 hash functions for 1000 elements and one insertion. -/
example (z : Bytes) : ∃ f0, new [] 1000 40 57600 = some f0 ∧ (0 < (57600 : UInt32).toNat ∧ (57600 : UInt32).toNat ≤ 2 ^ 32 - 8) ∧
    ValidOps 40 [.insert (mergeKey ++ z) (List.range 40)] ∧ mergeKey ++ z ∈ live [.insert (mergeKey ++ z) (List.range 40)] := by
  have := new_isSome [] 1000 40 57600 (by norm_num)
  obtain ⟨f0, h0⟩ := Option.isSome_iff_exists.mp this
  refine ⟨f0, h0, by decide, ?_, by simp [live, liveStep]⟩
  intro op hop
  simp only [List.mem_singleton] at hop
  subst hop
  exact List.Perm.refl _

/-- Number of last words for which the filter reports the key `p ++ last word`. -/
def reported (f : Filter) (p : Bytes) (sched : List (Nat × Bool)) : Nat :=
  ((Finset.range (2 ^ 32)).filter (fun w => containSched LiteMurmur.hash f (p ++ leBytes 4 w) sched = some true)).card

/-- **C110** (partial) For every prefix, every history and every execution order: among the `2^32` keys that continue the prefix by four bytes, the
filter reports at most `2^32 / size + 1` for each of the at most `n` bits of each live key. Missing from C110: the `n`-th power of this
fraction, which is what the `n` hash functions are there for (`bloom_one_position` refutes it for one prefix). -/
theorem bloom_false_positive_rate_partial {rnd : List UInt32} {maxElem n : Nat} {raw : UInt32} {f0 : Filter}
    (hnew : new rnd maxElem n raw = some f0) (hraw : 0 < raw.toNat ∧ raw.toNat ≤ 2 ^ 32 - 8) (h1 : 1 ≤ n)
    (ops : List Op) (hv : ValidOps n ops) (p : Bytes) (hp : p.length % 4 = 0) :
    ∃ f, run LiteMurmur.hash f0 ops = some f ∧
      ∀ sched : List (Nat × Bool), (sched.map (·.1)).Perm (List.range n) →
        reported f p sched ≤ (live ops).length * n * (2 ^ 32 / f0.tableSize + 1) := by
  obtain ⟨f, hr, hc⟩ := bloom_contain_iff LiteMurmur.hash hnew hraw ops hv
  refine ⟨f, hr, fun sched hs => ?_⟩
  obtain ⟨g0, _⟩ := new_good (H := LiteMurmur.hash) hnew hraw.1 hraw.2
  have hl : f0.vecSalt.length = n := genSalts_length (new_salts hnew).1
  obtain ⟨s0, hs0⟩ : ∃ s, s ∈ f0.vecSalt := List.exists_mem_of_length_pos (by omega)
  let pairs : Finset (Bytes × UInt32) := (live ops).toFinset ×ˢ f0.vecSalt.toFinset
  let fib : Nat → Finset Nat := fun r => (Finset.range (2 ^ 32)).filter (fun h => h % f0.tableSize = r)
  have hfib : ∀ r, (fib r).card ≤ 2 ^ 32 / f0.tableSize + 1 := by
    intro r
    have : (Finset.range (2 ^ 32 / f0.tableSize + 1)).card = 2 ^ 32 / f0.tableSize + 1 := Finset.card_range _
    rw [← this]
    refine Finset.card_le_card_of_injOn (fun h => h / f0.tableSize) ?_ ?_
    · intro h hh
      simp only [fib, Finset.coe_filter, Finset.mem_range, Set.mem_setOf_eq] at hh
      simp only [Finset.coe_range, Set.mem_Iio]
      exact Nat.lt_succ_of_le (Nat.div_le_div_right hh.1.le)
    · intro h hh h' hh' e
      simp only [fib, Finset.coe_filter, Finset.mem_range, Set.mem_setOf_eq] at hh hh'
      have e' : h / f0.tableSize = h' / f0.tableSize := e
      rw [← Nat.div_add_mod h f0.tableSize, ← Nat.div_add_mod h' f0.tableSize, e', hh.2, hh'.2]
  let U : Finset Nat := pairs.biUnion (fun q => fib ((LiteMurmur.hash q.2 q.1).toNat % f0.tableSize))
  have hU : U.card ≤ (live ops).length * n * (2 ^ 32 / f0.tableSize + 1) := by
    refine (Finset.card_biUnion_le_card_mul _ _ _ (fun q _ => hfib _)).trans (Nat.mul_le_mul_right _ ?_)
    rw [Finset.card_product]
    exact Nat.mul_le_mul (List.toFinset_card_le _) ((List.toFinset_card_le _).trans hl.le)
  refine le_trans ?_ hU
  have hlt : ∀ w, w < 2 ^ 32 → w < 256 ^ 4 := fun w hw => by norm_num at hw ⊢; omega
  refine Finset.card_le_card_of_injOn (fun v => (LiteMurmur.hash s0 (p ++ leBytes 4 v)).toNat) ?_ ?_
  · intro v hv
    simp only [Finset.coe_filter, Finset.mem_range, Set.mem_setOf_eq] at hv
    obtain ⟨b, hb, hiff⟩ := hc (p ++ leBytes 4 v) sched hs
    rw [hb] at hv
    obtain ⟨k, hk, s', hs', e⟩ := hiff.mp (by simpa using hv.2) s0 hs0
    show (LiteMurmur.hash s0 (p ++ leBytes 4 v)).toNat ∈ U
    refine Finset.mem_biUnion.mpr ⟨(k, s'), ?_, ?_⟩
    · simp only [pairs, Finset.mem_product, List.mem_toFinset]
      exact ⟨hk, hs'⟩
    · simp only [fib, Finset.mem_filter, Finset.mem_range]
      exact ⟨UInt32.toNat_lt _, e.symm⟩
  · intro v hv v' hv' heq
    simp only [Finset.coe_filter, Finset.mem_range, Set.mem_setOf_eq] at hv hv'
    exact leBytes_inj (hlt v hv.1) (hlt v' hv'.1) (LiteMurmur.last_word_inj s0 p hp (LiteMurmur.leBytes_length 4 v)
      (LiteMurmur.leBytes_length 4 v') (UInt32.toNat_inj.mp heq))

end Kunlun.Bloom

namespace Kunlun.LiteMurmur

open Kunlun

/-- **C110** (violation) Two bytes at the end of a key can be ignored by the hash function of the filters: for every salt and every beginning of `8n` bytes,
the four bytes after it lead to every state exactly once, and for exactly eight of them (the states below 8) the hash does not depend on the two
bytes after them, so 65536 keys have one value; for one of them only the seventh byte counts. -/
theorem lite_ending_ignored (d : UInt32) (p : Bytes) (h : p.length % 8 = 0) :
    ∃ x : UInt32 → Bytes, Function.Injective x ∧ (∀ e, (x e).length = 4) ∧
      (∀ e, (∀ y y' : Bytes, y.length = 2 → y'.length = 2 → hash d (p ++ (x e ++ y)) = hash d (p ++ (x e ++ y'))) ↔ e < 8) ∧
      ∀ a b a' b' c, hash d (p ++ (x 0 ++ [a, b, c])) = hash d (p ++ (x 0 ++ [a', b', c])) := by
  obtain ⟨d', hd⟩ := hash_prefix (p.length / 8) p (by omega) d
  simp only [hd]
  refine ⟨fourth d', fun e e' he => ?_, fun e => leBytes_length _ _, fun e => ⟨fun hy => ?_, fun he y y' hy hy' => ?_⟩, fun a b a' b' c => ?_⟩
  · have h1 := tail_fourth d' e
    rw [show fourth d' e = fourth d' e' from he, tail_fourth] at h1
    exact h1.symm
  · have h1 := hy [0, 0] [1, 0] rfl rfl
    rw [hash_six, hash_six, show word [0, 0] = 0 by decide, show word [1, 0] = 1 by decide, UInt32.zero_mul, UInt32.one_mul, UInt32.xor_zero] at h1
    have h2 : e >>> 3 = 0 := by
      have := congrArg (fun t => (e <<< 7) ^^^ (e ^^^ t)) h1
      simp only [← UInt32.xor_assoc, UInt32.xor_self, UInt32.zero_xor] at this
      have h3 := congrArg (fun t => e ^^^ t) h1
      simp only [← UInt32.xor_assoc, UInt32.xor_self, UInt32.zero_xor] at h3
      have h4 := congrArg (fun t => (e <<< 7) ^^^ t) h3
      simp only [← UInt32.xor_assoc, UInt32.xor_self, UInt32.zero_xor] at h4
      exact h4.symm
    have h3 := congrArg UInt32.toNat h2
    simp only [UInt32.toNat_shiftRight, UInt32.toNat_ofNat, Nat.shiftRight_eq_div_pow] at h3
    rw [UInt32.lt_iff_toNat_lt]
    simp at h3 ⊢
    omega
  · have h2 : e >>> 3 = 0 := by
      rw [UInt32.lt_iff_toNat_lt] at he
      apply UInt32.toNat_inj.mp
      simp only [UInt32.toNat_shiftRight, UInt32.toNat_ofNat, Nat.shiftRight_eq_div_pow]
      simp at he ⊢
      omega
    match y, hy, y', hy' with
    | [a, b], _, [a', b'], _ => rw [hash_six, hash_six, h2, UInt32.mul_zero, UInt32.mul_zero]
  · rw [hash_seven, hash_seven]

end Kunlun.LiteMurmur
