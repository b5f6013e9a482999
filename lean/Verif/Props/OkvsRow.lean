import Verif.Model.OkvsRow
import Verif.Props.FastDiv
import Verif.Props.Gf128
import Mathlib.Algebra.Field.ZMod
/-!
C56: the sparse positions of a row (`set_sparse_1`, `set_sparse_32`) are `sparse_weight` distinct columns, for every hash value,
and the vector code gives the same positions as the scalar code.
-/

namespace Kunlun.OKVS

open Kunlun.FastDiv

theorem mapM_some_of {α β : Type} (f : α → Option β) (l : List α) (h : ∀ x ∈ l, ∃ y, f x = some y) :
    ∃ r, l.mapM f = some r ∧ r.length = l.length ∧ ∀ i (hi : i < l.length), f l[i] = r[i]? := by
  induction l with
  | nil => exact ⟨[], rfl, rfl, by simp⟩
  | cons a l ih =>
    obtain ⟨y, hy⟩ := h a (List.mem_cons_self ..)
    obtain ⟨r, hr, hl, hi⟩ := ih fun x hx => h x (List.mem_cons_of_mem _ hx)
    refine ⟨y :: r, by simp [List.mapM_cons, hy, hr], by simp [hl], ?_⟩
    intro i hi'
    cases i with
    | zero => simpa using hy
    | succ i => simpa using hi i (by simpa using hi')

/-- The dividers of the constructor exist exactly when there are at least as many sparse columns as the weight. -/
theorem okvs_dividers (w s : Nat) (hs : s < 2 ^ 64) : (∃ dvs, mkDividers w s = some dvs) ↔ w ≤ s := by
  constructor
  · rintro ⟨dvs, h⟩
    by_contra hc
    have hmem : s ∈ List.range w := List.mem_range.2 (by omega)
    have : ∀ (l : List Nat), s ∈ l → l.mapM (mkDivider s) = none := by
      intro l
      induction l with
      | nil => simp
      | cons a l ih =>
        intro hm
        rw [List.mapM_cons]
        rcases List.mem_cons.1 hm with rfl | hm
        · simp [mkDivider]
        · rw [ih hm]
          cases mkDivider s a <;> rfl
    unfold mkDividers at h
    rw [this _ hmem] at h
    exact absurd h (by simp)
  · intro hw
    obtain ⟨r, hr, -⟩ := mapM_some_of (mkDivider s) (List.range w) (by
        intro i hi
        have hi := List.mem_range.1 hi
        rw [mkDivider, if_pos (by omega)]
        obtain ⟨dv, h, -⟩ := fast_division_exact (BitVec.ofNat 64 (s - i)) (by
          intro e
          have := congrArg BitVec.toNat e
          rw [BitVec.toNat_ofNat, Nat.mod_eq_of_lt (by omega)] at this
          simp at this; omega)
        rw [h]
        exact ⟨dv, rfl⟩)
    exact ⟨r, hr⟩

/-- Each stored divider divides by its modulus. -/
theorem dividers_get (w s : Nat) (hs : s < 2 ^ 64) (dvs : List Divider) (h : mkDividers w s = some dvs) :
    dvs.length = w ∧ ∀ i (hi : i < dvs.length), genDivider (BitVec.ofNat 64 (s - i)) = .ok dvs[i] := by
  have hw : w ≤ s := (okvs_dividers w s hs).1 ⟨dvs, h⟩
  obtain ⟨r, hr, hl, hi⟩ := mapM_some_of (mkDivider s) (List.range w) (by
        intro i hi
        have hi := List.mem_range.1 hi
        rw [mkDivider, if_pos (by omega)]
        obtain ⟨dv, h, -⟩ := fast_division_exact (BitVec.ofNat 64 (s - i)) (by
          intro e
          have := congrArg BitVec.toNat e
          rw [BitVec.toNat_ofNat, Nat.mod_eq_of_lt (by omega)] at this
          simp at this; omega)
        rw [h]
        exact ⟨dv, rfl⟩)
  have e : dvs = r := by
    unfold mkDividers at h
    rw [hr] at h
    exact (Option.some.inj h).symm
  subst e
  rw [List.length_range] at hl
  refine ⟨hl, fun i hlt => ?_⟩
  have := hi i (by rw [List.length_range]; omega)
  rw [List.getElem_range, mkDivider, if_pos (by omega), List.getElem?_eq_getElem hlt] at this
  cases hg : genDivider (BitVec.ofNat 64 (s - i)) with
  | ok d => rw [hg] at this; rw [Option.some.inj this]
  | thrown => rw [hg] at this; exact absurd this (by simp)
  | fault => rw [hg] at this; exact absurd this (by simp)

theorem ofNat_ne_zero (m : Nat) (h0 : 0 < m) (h : m < 2 ^ 64) : BitVec.ofNat 64 m ≠ 0#64 := by
  intro e
  have := congrArg BitVec.toNat e
  rw [BitVec.toNat_ofNat, Nat.mod_eq_of_lt h] at this
  simp at this; omega

/-- With weight 3 the scalar code reduces the three words modulo `s`, `s-1`, `s-2` and makes them distinct. -/
theorem sparse1_three (t : Idx) (s : Nat) (f : Fits t 3 s) (dvs : List Divider) (hd : mkDividers 3 s = some dvs) (d : Block) :
    sparse1 t 3 s dvs d = some (adjust3 t ((win d 0).toNat % s) ((win d 1).toNat % (s - 1)) ((win d 2).toNat % (s - 2))) := by
  have hs := f.hs
  have hw := f.hw
  have hp := t.pow_le
  obtain ⟨hl, hg⟩ := dividers_get 3 s (by omega) dvs hd
  match dvs, hl, hg with
  | [d0, d1, d2], _, hg =>
    have div : ∀ i (hi : i < 3) (x : BitVec 64), divideU64 x [d0, d1, d2][i] = some (x / BitVec.ofNat 64 (s - i)) := by
      intro i hi x
      have e := hg i (by simpa using hi)
      obtain ⟨dv, h, hq⟩ := fast_division_exact (BitVec.ofNat 64 (s - i)) (ofNat_ne_zero _ (by omega) (by omega))
      rw [e] at h
      cases h
      exact hq x
    unfold sparse1
    rw [if_pos rfl]
    simp only
    rw [modIdx_spec t (win d 0) d0 s (by omega) (by omega) (fun h => f.h16 h rfl) (div 0 (by omega) (win d 0)),
      modIdx_spec t (win d 1) d1 (s - 1) (by omega) (by omega) (fun h => by have := f.h16 h rfl; omega) (div 1 (by omega) (win d 1)),
      modIdx_spec t (win d 2) d2 (s - 2) (by omega) (by omega) (fun h => by have := f.h16 h rfl; omega) (div 2 (by omega) (win d 2))]

/-- **C56.** For every weight, every sparse size that fits the index type and every hash value, the row has exactly `sparse_weight`
positions, all different and all below the sparse size. -/
theorem okvs_row_distinct (t : Idx) (w s : Nat) (f : Fits t w s) (dvs : List Divider) (hd : mkDividers w s = some dvs) (d : Block) :
    ∃ r, sparse1 t w s dvs d = some r ∧ r.length = w ∧ r.Nodup ∧ ∀ c ∈ r, c < s := by
  have hs := f.hs
  have hw := f.hw
  by_cases h3 : w = 3
  · subst h3
    rw [sparse1_three t s f dvs hd d]
    obtain ⟨a, b, c, e, ha, hb, hc, hab, hac, hbc, -⟩ := adjust3_spec t s ((win d 0).toNat % s) ((win d 1).toNat % (s - 1))
      ((win d 2).toNat % (s - 2)) (Nat.mod_lt _ (by omega)) (Nat.mod_lt _ (by omega)) (Nat.mod_lt _ (by omega)) hs
    rw [e]
    exact ⟨_, rfl, rfl, by simp [hab, hac, hbc], by simp [ha, hb, hc]⟩
  · obtain ⟨h1, h2, h3'⟩ := rowLoop_spec t s hs d w hw
    refine ⟨rowLoop t s d w, by unfold sparse1; rw [if_neg h3], h3', ?_, h2⟩
    exact h1.imp (fun h => Nat.ne_of_lt h)

theorem lanes_eq (t : Idx) (s : Nat) (h3 : 3 ≤ s) (hs : s < 2 ^ t.bits) (hs63 : s < 2 ^ 63) (ds : List Block) :
    lanes t (ds.map fun d => win d 0 % BitVec.ofNat 64 s) (ds.map fun d => win d 1 % BitVec.ofNat 64 (s - 1))
        (ds.map fun d => win d 2 % BitVec.ofNat 64 (s - 2)) =
      ds.map fun d => adjust3 t ((win d 0).toNat % s) ((win d 1).toNat % (s - 1)) ((win d 2).toNat % (s - 2)) := by
  have em : ∀ (x : BitVec 64) (m : Nat), m < 2 ^ 64 → (x % BitVec.ofNat 64 m).toNat = x.toNat % m := by
    intro x m hm
    rw [BitVec.toNat_umod, BitVec.toNat_ofNat, Nat.mod_eq_of_lt hm]
  induction ds with
  | nil => rfl
  | cons d ds ih =>
    simp only [List.map_cons, lanes]
    rw [ih, lane_eq t s _ _ _ (by rw [em _ _ (by omega)]; exact Nat.mod_lt _ (by omega))
      (by rw [em _ _ (by omega)]; exact Nat.mod_lt _ (by omega)) (by rw [em _ _ (by omega)]; exact Nat.mod_lt _ (by omega)) hs hs63,
      em _ _ (by omega), em _ _ (by omega), em _ _ (by omega)]

theorem mapM_eq_map {α β : Type} (f : α → Option β) (g : α → β) (l : List α) (h : ∀ x ∈ l, f x = some (g x)) :
    l.mapM f = some (l.map g) := by
  induction l with
  | nil => rfl
  | cons a l ih =>
    rw [List.mapM_cons, h a (List.mem_cons_self ..), ih fun x hx => h x (List.mem_cons_of_mem _ hx)]
    rfl

/-- **C56.** The vector code fills 32 rows exactly as 32 calls of the scalar code do. -/
theorem okvs_rows_32 (t : Idx) (w s : Nat) (f : Fits t w s) (hs63 : s < 2 ^ 63) (dvs : List Divider) (hd : mkDividers w s = some dvs)
    (ds : List Block) (hl : ds.length = 32) : sparse32 t w s dvs ds = ds.mapM (sparse1 t w s dvs) := by
  have hs := f.hs
  have hw := f.hw
  have hp := t.pow_le
  unfold sparse32
  rw [if_neg (by omega)]
  by_cases h3 : w = 3
  · subst h3
    rw [if_pos rfl, mapM_eq_map _ _ ds (fun d _ => sparse1_three t s f dvs hd d)]
    obtain ⟨hlen, hg⟩ := dividers_get 3 s (by omega) dvs hd
    match dvs, hlen, hg with
    | [d0, d1, d2], _, hg =>
      have md : ∀ i (hi : i < 3), doMod32 (ds.map fun d => win d i) [d0, d1, d2][i] (BitVec.ofNat 64 (s - i)) =
          some (ds.map fun d => win d i % BitVec.ofNat 64 (s - i)) := by
        intro i hi
        have e := hg i (by simpa using hi)
        rw [doMod32_exact _ (ofNat_ne_zero _ (by omega) (by omega)) _ e _ (by simp [hl])]
        rw [List.take_of_length_le (by simp [hl]), List.drop_eq_nil_of_le (by simp [hl])]
        simp
      have m0 := md 0 (by omega)
      have m1 := md 1 (by omega)
      have m2 := md 2 (by omega)
      simp only [List.getElem_cons_zero, List.getElem_cons_succ, Nat.sub_zero] at m0 m1 m2
      simp only [m0, m1, m2]
      rw [lanes_eq t s hw hs hs63]
  · rw [if_neg h3]

/-- The rows of any number of keys are the rows of the single keys, whatever the grouping. -/
theorem okvs_rows_all (t : Idx) (w s : Nat) (f : Fits t w s) (hs63 : s < 2 ^ 63) (dvs : List Divider) (hd : mkDividers w s = some dvs)
    (fuel : Nat) (ds : List Block) : sparseAll t w s dvs fuel ds = ds.mapM (sparse1 t w s dvs) := by
  induction fuel generalizing ds with
  | zero => rfl
  | succ n ih =>
    unfold sparseAll
    split
    · rename_i h
      rw [okvs_rows_32 t w s f hs63 dvs hd _ (by simp [h]), ih]
      conv_rhs => rw [← List.take_append_drop 32 ds, List.mapM_append]
      cases (ds.take 32).mapM (sparse1 t w s dvs) <;> cases (ds.drop 32).mapM (sparse1 t w s dvs) <;> rfl
    · rfl

/-- The hypotheses are met by real sizes, for three columns and for five. -/
example : ∃ dvs, mkDividers 3 1000 = some dvs ∧ Fits .u16 3 1000 ∧ (1000 : Nat) < 2 ^ 63 := by
  obtain ⟨d, h⟩ := (okvs_dividers 3 1000 (by norm_num)).2 (by norm_num)
  exact ⟨d, h, ⟨by norm_num, by norm_num [Idx.bits], fun _ _ => by norm_num⟩, by norm_num⟩

example : ∃ dvs, mkDividers 5 200 = some dvs ∧ Fits .u8 5 200 :=
  have ⟨d, h⟩ := (okvs_dividers 5 200 (by norm_num)).2 (by norm_num)
  ⟨d, h, ⟨by norm_num, by norm_num [Idx.bits], fun h => absurd h (by decide)⟩⟩

example : ∃ dvs, mkDividers 3 5 = some dvs ∧ sparse1 .u8 3 5 dvs 7#128 = some [2, 0, 1] := by
  refine ⟨_, rfl, ?_⟩
  decide +kernel

/-! ### The words behind the positions -/

theorem block_of_words (d d' : Block) (h0 : win d 0 = win d' 0) (h2 : win d 2 = win d' 2) : d = d' := by
  have e0 := congrArg BitVec.toNat h0
  have e2 := congrArg BitVec.toNat h2
  simp only [win, BitVec.toNat_setWidth, BitVec.toNat_ushiftRight, Nat.shiftRight_eq_div_pow, Nat.mul_zero, pow_zero, Nat.div_one] at e0 e2
  have l := d.isLt
  have l' := d'.isLt
  apply BitVec.eq_of_toNat_eq
  omega

/-- After `k` squarings the block is the power with exponent `2^k` in the field. -/
theorem toF_squared (d : Block) (k : Nat) : GF.toF (squared d k) = GF.toF d ^ 2 ^ k := by
  induction k with
  | zero => simp [squared]
  | succ k ih => rw [squared, GF.toF_mul, ih, pow_succ 2 k, pow_mul, sq]

theorem word_group (d : Block) (k i : Nat) (hi : i < 3) : word d (3 * k + i) = win (squared d k) i := by
  unfold word
  rw [show (3 * k + i) / 3 = k by omega, show (3 * k + i) % 3 = i by omega]

/-- **C56** The words from which positions are computed: in every group of three positions the first and the third word together determine the hash value, so that keys
with different hash values get different words in every group; and a group has the words of the next one only for the hash values 0 and 1. -/
theorem okvs_row_words (d d' : Block) (k : Nat) :
    (word d (3 * k) = word d' (3 * k) → word d (3 * k + 2) = word d' (3 * k + 2) → d = d') ∧
    (word d (3 * k) = word d (3 * (k + 1)) → word d (3 * k + 2) = word d (3 * (k + 1) + 2) → d = 0#128 ∨ d = 1#128) := by
  have w0 : ∀ d k, word d (3 * k) = win (squared d k) 0 := fun d k => word_group d k 0 (by omega)
  have frob : Function.Injective fun x : GF.F => x ^ 2 ^ k := by
    haveI : CharP GF.F 2 := by
      have : (2 : GF.F) = 0 := by
        have h1 := GF.toF_xor 1#128 1#128
        rw [BitVec.xor_self, GF.toF_zero, GF.toF_one] at h1
        rw [← one_add_one_eq_two, ← h1]
      exact CharTwo.of_one_ne_zero_of_two_eq_zero one_ne_zero this
    haveI : Fact (Nat.Prime 2) := ⟨Nat.prime_two⟩
    exact iterateFrobenius_inj GF.F 2 k
  constructor
  · intro h0 h2
    rw [w0, w0] at h0
    rw [word_group d k 2 (by omega), word_group d' k 2 (by omega)] at h2
    have h := congrArg GF.toF (block_of_words _ _ h0 h2)
    rw [toF_squared, toF_squared] at h
    exact GF.toF_inj (frob h)
  · intro h0 h2
    rw [w0, w0] at h0
    rw [word_group d k 2 (by omega), word_group d (k + 1) 2 (by omega)] at h2
    have h := congrArg GF.toF (block_of_words _ _ h0 h2)
    rw [toF_squared, toF_squared, pow_succ 2 k, mul_comm, pow_mul] at h
    have h1 : GF.toF d = GF.toF d ^ 2 := frob h
    have h3 : GF.toF d * (GF.toF d - 1) = 0 := by linear_combination -h1
    rcases mul_eq_zero.1 h3 with h4 | h4
    · exact Or.inl (GF.toF_inj (by rw [h4, GF.toF_zero]))
    · exact Or.inr (GF.toF_inj (by rw [sub_eq_zero.1 h4, GF.toF_one]))

/-- Different words exist. -/
example : word 5#128 0 ≠ word 5#128 3 ∧ word 5#128 2 ≠ word (5#128 <<< 64) 2 := by decide +kernel

/-- **Finding.** With 16-bit indexes and more than 2^15 sparse columns (a bin of about 26000 to 52000 items) the product
`Row[0] * mModVals[0]` is a signed multiplication that overflows: undefined behaviour for some hash values, at each such size. -/
theorem okvs_row_u16_overflow (s : Nat) (h1 : 2 ^ 15 < s) (h2 : s < 2 ^ 16) : ∃ dvs d, mkDividers 3 s = some dvs ∧ sparse1 .u16 3 s dvs d = none := by
  obtain ⟨dvs, h⟩ := (okvs_dividers 3 s (by omega)).2 (by omega)
  refine ⟨dvs, BitVec.ofNat 128 (65535 * s), h, ?_⟩
  obtain ⟨hl, hg⟩ := dividers_get 3 s (by omega) dvs h
  match dvs, hl, hg with
  | [d0, d1, d2], _, hg =>
    have e := hg 0 (by simp)
    obtain ⟨dv, h', hq⟩ := fast_division_exact (BitVec.ofNat 64 s) (ofNat_ne_zero _ (by omega) (by omega))
    simp only [List.getElem_cons_zero, Nat.sub_zero] at e
    rw [e] at h'
    cases h'
    have hn : modIdx .u16 (win (BitVec.ofNat 128 (65535 * s)) 0) d0 s = none := by
      unfold modIdx
      rw [hq]
      have hv : (win (BitVec.ofNat 128 (65535 * s)) 0 / BitVec.ofNat 64 s).toNat = 65535 := by
        have hw : (win (BitVec.ofNat 128 (65535 * s)) 0).toNat = 65535 * s := by
          simp only [win, Nat.mul_zero, BitVec.ushiftRight_zero, BitVec.toNat_setWidth, BitVec.toNat_ofNat]
          omega
        rw [BitVec.toNat_udiv, hw, BitVec.toNat_ofNat, Nat.mod_eq_of_lt (by omega : s < 2 ^ 64)]
        exact Nat.mul_div_cancel _ (by omega)
      simp only [hv, Idx.mul, Idx.bits]
      rw [if_neg (by omega)]
    unfold sparse1
    rw [if_pos rfl]
    simp only [hn]

example : (2 : Nat) ^ 15 < 41070 ∧ 41070 < 2 ^ 16 := by norm_num

end Kunlun.OKVS
