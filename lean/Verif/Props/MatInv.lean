import Verif.Model.MatInvLemmas
import Verif.Props.Gf128
/-!
C59: `check_invert` decides invertibility over GF(2) and produces the inverse; `check_invert_gf128` never produces a wrong
inverse, never accepts a singular matrix, accepts every matrix whose upper left corners are invertible, but rejects some
invertible matrices because it only exchanges rows for a pivot equal to one.
-/

namespace Kunlun.MatInv

open Kunlun Matrix

/-! ### check_invert over GF(2) -/

/-- Every entry is 0 or 1, the representation of GF(2) used by the callers. -/
def Bits (n : Nat) (m : List (List UInt8)) : Prop := ∀ r < n, ∀ c < n, ent 0 m r c = 0 ∨ ent 0 m r c = 1

/-- The element of GF(2) of a byte. -/
def bit (x : UInt8) : ZMod 2 := if x = 0 then 0 else 1

/-- The matrix over GF(2) held in the vectors. -/
abbrev mat2 (n : Nat) (m : List (List UInt8)) : Matrix (Fin n) (Fin n) (ZMod 2) := toMat bit 0 n m

theorem bit_xor (x y : UInt8) (hx : x = 0 ∨ x = 1) (hy : y = 0 ∨ y = 1) : bit (x ^^^ y) = bit x - bit y := by
  rcases hx with rfl | rfl <;> rcases hy with rfl | rfl <;> decide

theorem bits_xor (x y : UInt8) (hx : x = 0 ∨ x = 1) (hy : y = 0 ∨ y = 1) : x ^^^ y = 0 ∨ x ^^^ y = 1 := by
  rcases hx with rfl | rfl <;> rcases hy with rfl | rfl <;> decide

/-- One elimination pass on column `i`. -/
theorem elim2_spec {n : Nat} (s : State UInt8) (h1 : Square n s.1) (h2 : Square n s.2) (i : Nat) (hi : i < n) :
    ∃ t, loopN (elim2 n i) n s = some t ∧ Square n t.1 ∧ Square n t.2 ∧
      (∀ r < n, ∀ c < n, ent 0 t.1 r c = if r ≠ i ∧ ent 0 s.1 r i ≠ 0 then ent 0 s.1 r c ^^^ ent 0 s.1 i c else ent 0 s.1 r c) ∧
      (∀ r < n, ∀ c < n, ent 0 t.2 r c = if r ≠ i ∧ ent 0 s.1 r i ≠ 0 then ent 0 s.2 r c ^^^ ent 0 s.2 i c else ent 0 s.2 r c) := by
  have hA : ∀ j, ∃ new : List UInt8, j < n → rowLoop (fun _ p q => p ^^^ q) n (s.1.getD j []) (s.1.getD i []) = some new ∧ new.length = n ∧
      ∀ k < n, new.getD k 0 = (s.1.getD j []).getD k 0 ^^^ (s.1.getD i []).getD k 0 := by
    intro j
    by_cases hj : j < n
    · obtain ⟨new, e1, e2, e3⟩ := rowLoop_spec (fun _ p q => p ^^^ q) n _ _ (0 : UInt8) (h1.2 j hj) (h1.2 i hi)
      exact ⟨new, fun _ => ⟨e1, e2, e3⟩⟩
    · exact ⟨[], fun h => absurd h hj⟩
  have hB : ∀ j, ∃ new : List UInt8, j < n → rowLoop (fun _ p q => p ^^^ q) n (s.2.getD j []) (s.2.getD i []) = some new ∧ new.length = n ∧
      ∀ k < n, new.getD k 0 = (s.2.getD j []).getD k 0 ^^^ (s.2.getD i []).getD k 0 := by
    intro j
    by_cases hj : j < n
    · obtain ⟨new, e1, e2, e3⟩ := rowLoop_spec (fun _ p q => p ^^^ q) n _ _ (0 : UInt8) (h2.2 j hj) (h2.2 i hi)
      exact ⟨new, fun _ => ⟨e1, e2, e3⟩⟩
    · exact ⟨[], fun h => absurd h hj⟩
  choose A hA using hA
  choose B hB using hB
  obtain ⟨t, ht, q1, q2, ra, rb⟩ := loop_rows (elim2 n i) i s hi
    (fun j => if j ≠ i ∧ ent 0 s.1 j i ≠ 0 then A j else s.1.getD j [])
    (fun j => if j ≠ i ∧ ent 0 s.1 j i ≠ 0 then B j else s.2.getD j [])
    (by intro j hj; split
        · exact (hA j hj).2.1
        · exact h1.2 j hj)
    (by intro j hj; split
        · exact (hB j hj).2.1
        · exact h2.2 j hj)
    (by simp) (by simp) h1 h2
    (by
      intro j hj u u1 u2 ei1 ei2 ej1 ej2
      have hent : ent 0 u.1 j i = ent 0 s.1 j i := by unfold ent; rw [ej1]
      have e0 : elim2 n i j u = if j ≠ i ∧ ent 0 s.1 j i ≠ 0 then some (u.1.set j (A j), u.2.set j (B j)) else some u := by
        unfold elim2
        rw [u1.row hj, u2.row hj, u1.row hi, u2.row hi]
        simp only [Option.bind_eq_bind, Option.bind_some]
        rw [u1.entry 0 hj hi, hent, ej1, ej2, ei1, ei2, (hA j hj).1, (hB j hj).1]
        rfl
      rw [e0]
      by_cases hc : j ≠ i ∧ ent 0 s.1 j i ≠ 0
      · simp only [if_pos hc]
        refine ⟨_, rfl, u1.set hj (hA j hj).2.1, u2.set hj (hB j hj).2.1, ?_, ?_⟩
        · intro r _; exact getD_set _ _ _ _ (by rw [u1.1]; exact hj)
        · intro r _; exact getD_set _ _ _ _ (by rw [u2.1]; exact hj)
      · simp only [if_neg hc]
        refine ⟨u, rfl, u1, u2, ?_, ?_⟩
        · intro r _; split
          · rename_i h; subst h; exact ej1
          · rfl
        · intro r _; split
          · rename_i h; subst h; exact ej2
          · rfl)
  refine ⟨t, ht, q1, q2, ?_, ?_⟩
  · intro r hr c hc
    rw [ent, ra r hr]
    split
    · exact (hA r hr).2.2 c hc
    · rfl
  · intro r hr c hc
    rw [ent, rb r hr]
    split
    · exact (hB r hr).2.2 c hc
    · rfl

theorem main2_spec {n : Nat} (M : Matrix (Fin n) (Fin n) (ZMod 2)) (fuel i : Nat) (hn : i + fuel = n) (s : State UInt8)
    (h1 : Square n s.1) (h2 : Square n s.2) (b1 : Bits n s.1) (b2 : Bits n s.2) (hred : Red i M (mat2 n s.1) (mat2 n s.2)) :
    ∃ ok m', main2 n fuel i s = some (ok, m') ∧ Square n m' ∧ Bits n m' ∧
      (ok = true → mat2 n m' * M = 1 ∧ M * mat2 n m' = 1) ∧ (ok = false → M.det = 0) := by
  induction fuel generalizing i s with
  | zero =>
    refine ⟨true, s.2, rfl, h2, b2, fun _ => ?_, fun h => absurd h (by simp)⟩
    have : i = n := by omega
    subst this
    exact hred.done
  | succ fuel ih =>
    have hi : i < n := by omega
    -- the state after the row exchange
    have hp : ∃ t : State UInt8, pivot (· == 0) (· == 1) n i s = some t ∧ Square n t.1 ∧ Square n t.2 ∧ Bits n t.1 ∧ Bits n t.2 ∧
        Red i M (mat2 n t.1) (mat2 n t.2) ∧ (ent 0 t.1 i i = 0 → ∀ r : Fin n, i ≤ r.val → mat2 n t.1 r ⟨i, hi⟩ = 0) := by
      rcases pivot_spec (· == (0 : UInt8)) (· == 1) s h1 h2 0 i hi with ⟨hs, hall⟩ | ⟨j, t, hij, hj, hz, hu, hs, t1, t2, ra, rb⟩
      · refine ⟨s, hs, h1, h2, b1, b2, hred, ?_⟩
        intro h0 r hr
        have hr0 : ent 0 s.1 r i = 0 := by
          rcases Nat.lt_or_ge i r.val with h | h
          · have := hall (by simp [h0]) r h r.isLt
            rcases b1 r r.isLt i hi with hb | hb
            · exact hb
            · simp [hb] at this
          · rw [show r.val = i by omega]; exact h0
        simp [toMat, hr0, bit]
      · have hidx : ∀ r, r < n → (if r = i then j else if r = j then i else r) < n := by
          intro r hr; split
          · exact hj
          · split <;> omega
        refine ⟨t, hs, t1, t2, ?_, ?_, ?_, ?_⟩
        · intro r hr c hc; rw [ent, ra r hr]; exact b1 _ (hidx r hr) c hc
        · intro r hr c hc; rw [ent, rb r hr]; exact b2 _ (hidx r hr) c hc
        · rw [mat2, mat2, toMat_swap bit 0 s.1 t.1 i j hi hj ra, toMat_swap bit 0 s.2 t.2 i j hi hj rb]
          exact hred.swap ⟨i, hi⟩ ⟨j, hj⟩ (le_refl i) (by simp; omega)
        · intro h0
          exfalso
          rw [ent, ra i hi, if_pos rfl] at h0
          have hu' : ent 0 s.1 j i = 1 := by simpa using! hu
          rw [ent] at hu'
          rw [hu'] at h0
          exact absurd h0 (by decide)
    obtain ⟨t, hpt, t1, t2, c1, c2, hr, hz⟩ := hp
    have e0 : main2 n (fuel + 1) i s = if ent 0 t.1 i i = 0 then some (false, t.1)
        else (loopN (elim2 n i) n t).bind (main2 n fuel (i + 1)) := by
      rw [main2, hpt]
      simp only [Option.bind_eq_bind, Option.bind_some]
      rw [t1.row hi]
      simp only [Option.bind_some]
      rw [t1.entry 0 hi hi]
      rfl
    rw [e0]
    by_cases h0 : ent 0 t.1 i i = 0
    · rw [if_pos h0]
      exact ⟨false, t.1, rfl, t1, c1, fun h => absurd h (by simp), fun _ => hr.stuck ⟨i, hi⟩ rfl (hz h0)⟩
    · rw [if_neg h0]
      obtain ⟨u, hu, u1, u2, ea, eb⟩ := elim2_spec t t1 t2 i hi
      rw [hu]
      have one : ent 0 t.1 i i = 1 := (c1 i hi i hi).resolve_left h0
      have hsel : ∀ r < n, ent 0 t.1 r i = 0 ∨ ent 0 t.1 r i = 1 := fun r hr => c1 r hr i hi
      refine ih (i + 1) (by omega) u u1 u2 ?_ ?_ ?_
      · intro r hr c hc
        rw [ea r hr c hc]; split
        · exact bits_xor _ _ (c1 r hr c hc) (c1 i hi c hc)
        · exact c1 r hr c hc
      · intro r hr c hc
        rw [eb r hr c hc]; split
        · exact bits_xor _ _ (c2 r hr c hc) (c2 i hi c hc)
        · exact c2 r hr c hc
      · have he := hr.elim ⟨i, hi⟩ rfl (by simp [toMat, one, bit])
        have ea' : mat2 n u.1 = of fun r c => if r = ⟨i, hi⟩ then mat2 n t.1 ⟨i, hi⟩ c else mat2 n t.1 r c - mat2 n t.1 ⟨i, hi⟩ c * mat2 n t.1 r ⟨i, hi⟩ := by
          ext r c
          simp only [toMat, of_apply, Fin.ext_iff]
          rw [ea r r.isLt c c.isLt]
          by_cases hri : r.val = i
          · simp [hri]
          · rcases hsel r r.isLt with h | h
            · simp [hri, h, bit]
            · have h10 : (1 : UInt8) ≠ 0 := by decide
              simp only [hri, h, ne_eq, not_false_eq_true, h10, and_self, if_true, if_false]
              rw [bit_xor _ _ (c1 r r.isLt c c.isLt) (c1 i hi c c.isLt)]
              simp [bit]
        have eb' : mat2 n u.2 = of fun r c => if r = ⟨i, hi⟩ then mat2 n t.2 ⟨i, hi⟩ c else mat2 n t.2 r c - mat2 n t.2 ⟨i, hi⟩ c * mat2 n t.1 r ⟨i, hi⟩ := by
          ext r c
          simp only [toMat, of_apply, Fin.ext_iff]
          rw [eb r r.isLt c c.isLt]
          by_cases hri : r.val = i
          · simp [hri]
          · rcases hsel r r.isLt with h | h
            · simp [hri, h, bit]
            · have h10 : (1 : UInt8) ≠ 0 := by decide
              simp only [hri, h, ne_eq, not_false_eq_true, h10, and_self, if_true, if_false]
              rw [bit_xor _ _ (c2 r r.isLt c c.isLt) (c2 i hi c c.isLt)]
              simp [bit]
        rw [ea', eb']
        exact he

/-- `check_invert` on any square matrix of zeros and ones runs without leaving its vectors, returns true exactly when the
matrix is invertible over GF(2), and then leaves the two-sided inverse (again zeros and ones) in its argument. -/
theorem check_invert_correct (n : Nat) (m : List (List UInt8)) (h : Square n m) (hb : Bits n m) :
    ∃ ok m', checkInvert m = some (ok, m') ∧ (ok = true ↔ (mat2 n m).det ≠ 0) ∧
      (ok = true → Square n m' ∧ Bits n m' ∧ mat2 n m' * mat2 n m = 1 ∧ mat2 n m * mat2 n m' = 1) := by
  have hid : mat2 n (identity 0 1 n) = 1 := by
    ext r c
    simp only [toMat, of_apply, ent_identity _ _ n r c r.isLt c.isLt, one_apply, Fin.ext_iff]
    split <;> simp [bit]
  obtain ⟨ok, m', e, q, qb, ht, hf⟩ := main2_spec (mat2 n m) n 0 (by omega) (m, identity 0 1 n) h (identity_square _ _ n) hb
    (by intro r hr c hc
        simp only [ent_identity _ _ n r c hr hc]
        split
        · right; rfl
        · left; rfl)
    (by show Red 0 _ (mat2 n m) (mat2 n (identity 0 1 n)); rw [hid]; exact red_start _)
  refine ⟨ok, m', by rw [checkInvert, h.1]; exact e, ?_, fun h => ⟨q, qb, ht h⟩⟩
  constructor
  · intro hok hdet
    have := congrArg det (ht hok).1
    rw [det_mul, hdet, mul_zero, det_one] at this
    exact zero_ne_one this
  · intro hdet
    cases ok with
    | true => rfl
    | false => exact absurd (hf rfl) hdet

/-- With other byte values the result is wrong: the entry 2 is taken for a unit and the "inverse" of (2) is (1). -/
theorem check_invert_non_bits : checkInvert [[2]] = some (true, [[1]]) ∧ checkInvert [[0, 1], [2, 0]] = some (false, [[0, 1], [2, 0]]) := by
  decide +kernel

/-- A matrix with a row shorter than the number of rows is read outside the row. -/
theorem check_invert_ragged : checkInvert [[1, 0], [1]] = none := by decide +kernel

/-! ### check_invert_gf128 -/

/-- The matrix over the field with 2^128 elements held in the vectors. -/
noncomputable abbrev matG (n : Nat) (m : List (List Block)) : Matrix (Fin n) (Fin n) GF.F := toMat GF.toF 0#128 n m

theorem one_eq : oneBlock = 1#128 := by decide

theorem compare_zero (x : Block) : Block.compare x 0#128 = true ↔ x = 0#128 := by
  simp [Block.compare]

theorem scaleG_spec {n : Nat} (s : State Block) (h1 : Square n s.1) (h2 : Square n s.2) (i : Nat) (hi : i < n) (c : Block) :
    ∃ t, scaleG n i c s = some t ∧ Square n t.1 ∧ Square n t.2 ∧
      (∀ r < n, ∀ k < n, ent 0#128 t.1 r k = if r = i then (if i = k then oneBlock else GF.mul (ent 0#128 s.1 i k) c) else ent 0#128 s.1 r k) ∧
      (∀ r < n, ∀ k < n, ent 0#128 t.2 r k = if r = i then GF.mul (ent 0#128 s.2 i k) c else ent 0#128 s.2 r k) := by
  obtain ⟨a, ea, la, ka⟩ := rowLoop_spec (fun k p _ => if i = k then oneBlock else GF.mul p c) n _ _ (0#128) (h1.2 i hi) (h1.2 i hi)
  obtain ⟨b, eb, lb, kb⟩ := rowLoop_spec (fun _ p _ => GF.mul p c) n _ _ (0#128) (h2.2 i hi) (h2.2 i hi)
  refine ⟨(s.1.set i a, s.2.set i b), ?_, h1.set hi la, h2.set hi lb, ?_, ?_⟩
  · unfold scaleG
    rw [h1.row hi, h2.row hi]
    simp only [Option.bind_eq_bind, Option.bind_some]
    rw [ea, eb]; rfl
  · intro r hr k hk
    rw [ent_set h1 hi]
    split
    · rw [ka k hk]; rfl
    · rfl
  · intro r hr k hk
    rw [ent_set h2 hi]
    split
    · rw [kb k hk]; rfl
    · rfl

theorem elimG_spec {n : Nat} (s : State Block) (h1 : Square n s.1) (h2 : Square n s.2) (i : Nat) (hi : i < n) :
    ∃ t, loopN (elimG n i) n s = some t ∧ Square n t.1 ∧ Square n t.2 ∧
      (∀ r < n, ∀ c < n, ent 0#128 t.1 r c = if r ≠ i then ent 0#128 s.1 r c ^^^ GF.mul (ent 0#128 s.1 i c) (ent 0#128 s.1 r i) else ent 0#128 s.1 r c) ∧
      (∀ r < n, ∀ c < n, ent 0#128 t.2 r c = if r ≠ i then ent 0#128 s.2 r c ^^^ GF.mul (ent 0#128 s.2 i c) (ent 0#128 s.1 r i) else ent 0#128 s.2 r c) := by
  have hA : ∀ j, ∃ new : List Block, j < n → rowLoop (fun _ p q => p ^^^ GF.mul q (ent 0#128 s.1 j i)) n (s.1.getD j []) (s.1.getD i []) = some new ∧ new.length = n ∧
      ∀ k < n, new.getD k 0#128 = (s.1.getD j []).getD k 0#128 ^^^ GF.mul ((s.1.getD i []).getD k 0#128) (ent 0#128 s.1 j i) := by
    intro j
    by_cases hj : j < n
    · obtain ⟨new, e1, e2, e3⟩ := rowLoop_spec (fun _ p q => p ^^^ GF.mul q (ent 0#128 s.1 j i)) n _ _ (0#128) (h1.2 j hj) (h1.2 i hi)
      exact ⟨new, fun _ => ⟨e1, e2, e3⟩⟩
    · exact ⟨[], fun h => absurd h hj⟩
  have hB : ∀ j, ∃ new : List Block, j < n → rowLoop (fun _ p q => p ^^^ GF.mul q (ent 0#128 s.1 j i)) n (s.2.getD j []) (s.2.getD i []) = some new ∧ new.length = n ∧
      ∀ k < n, new.getD k 0#128 = (s.2.getD j []).getD k 0#128 ^^^ GF.mul ((s.2.getD i []).getD k 0#128) (ent 0#128 s.1 j i) := by
    intro j
    by_cases hj : j < n
    · obtain ⟨new, e1, e2, e3⟩ := rowLoop_spec (fun _ p q => p ^^^ GF.mul q (ent 0#128 s.1 j i)) n _ _ (0#128) (h2.2 j hj) (h2.2 i hi)
      exact ⟨new, fun _ => ⟨e1, e2, e3⟩⟩
    · exact ⟨[], fun h => absurd h hj⟩
  choose A hA using hA
  choose B hB using hB
  obtain ⟨t, ht, q1, q2, ra, rb⟩ := loop_rows (elimG n i) i s hi
    (fun j => if j ≠ i then A j else s.1.getD j [])
    (fun j => if j ≠ i then B j else s.2.getD j [])
    (by intro j hj; split
        · exact (hA j hj).2.1
        · exact h1.2 j hj)
    (by intro j hj; split
        · exact (hB j hj).2.1
        · exact h2.2 j hj)
    (by simp) (by simp) h1 h2
    (by
      intro j hj u u1 u2 ei1 ei2 ej1 ej2
      have hent : ent 0#128 u.1 j i = ent 0#128 s.1 j i := by unfold ent; rw [ej1]
      have e0 : elimG n i j u = if j ≠ i then some (u.1.set j (A j), u.2.set j (B j)) else some u := by
        unfold elimG
        rw [u1.row hj, u2.row hj, u1.row hi, u2.row hi]
        simp only [Option.bind_eq_bind, Option.bind_some]
        rw [u1.entry 0#128 hj hi, hent, ej1, ej2, ei1, ei2]
        simp only [Option.bind_some]
        rw [(hA j hj).1, (hB j hj).1]
        rfl
      rw [e0]
      by_cases hc : j ≠ i
      · simp only [if_pos hc]
        refine ⟨_, rfl, u1.set hj (hA j hj).2.1, u2.set hj (hB j hj).2.1, ?_, ?_⟩
        · intro r _; exact getD_set _ _ _ _ (by rw [u1.1]; exact hj)
        · intro r _; exact getD_set _ _ _ _ (by rw [u2.1]; exact hj)
      · simp only [if_neg hc]
        refine ⟨u, rfl, u1, u2, ?_, ?_⟩
        · intro r _; split
          · rename_i h; subst h; exact ej1
          · rfl
        · intro r _; split
          · rename_i h; subst h; exact ej2
          · rfl)
  refine ⟨t, ht, q1, q2, ?_, ?_⟩
  · intro r hr c hc
    rw [ent, ra r hr]
    split
    · exact (hA r hr).2.2 c hc
    · rfl
  · intro r hr c hc
    rw [ent, rb r hr]
    split
    · exact (hB r hr).2.2 c hc
    · rfl

/-- The invertible upper left corners. -/
def GoodCorners {n : Nat} (M : Matrix (Fin n) (Fin n) GF.F) : Prop := ∀ (k : Nat) (hk : k ≤ n), (corner M k hk).det ≠ 0

theorem mainG_spec {n : Nat} (M : Matrix (Fin n) (Fin n) GF.F) (fuel i : Nat) (hn : i + fuel = n) (s : State Block)
    (h1 : Square n s.1) (h2 : Square n s.2) (hred : Red i M (matG n s.1) (matG n s.2)) :
    ∃ ok m', mainG n fuel i s = some (ok, m') ∧ Square n m' ∧
      (ok = true → matG n m' * M = 1 ∧ M * matG n m' = 1) ∧ (GoodCorners M → Lower i (matG n s.2) → ok = true) := by
  induction fuel generalizing i s with
  | zero =>
    refine ⟨true, s.2, rfl, h2, fun _ => ?_, fun _ _ => rfl⟩
    have : i = n := by omega
    subst this
    exact hred.done
  | succ fuel ih =>
    have hi : i < n := by omega
    have hp : ∃ t : State Block, pivot (Block.compare · 0#128) (Block.compare · oneBlock) n i s = some t ∧ Square n t.1 ∧ Square n t.2 ∧
        Red i M (matG n t.1) (matG n t.2) ∧
        (GoodCorners M → Lower i (matG n s.2) → t = s ∧ ent 0#128 t.1 i i ≠ 0#128) := by
      have hgood : GoodCorners M → Lower i (matG n s.2) → ent 0#128 s.1 i i ≠ 0#128 := by
        intro hg hl h0
        exact hg (i + 1) (by omega) (hred.corner_singular hl ⟨i, hi⟩ rfl (by simp [toMat, h0, GF.toF_zero]))
      rcases pivot_spec (Block.compare · 0#128) (Block.compare · oneBlock) s h1 h2 0#128 i hi with ⟨hs, _⟩ | ⟨j, t, hij, hj, hz, hu, hs, t1, t2, ra, rb⟩
      · exact ⟨s, hs, h1, h2, hred, fun hg hl => ⟨rfl, hgood hg hl⟩⟩
      · refine ⟨t, hs, t1, t2, ?_, ?_⟩
        · rw [matG, matG, toMat_swap GF.toF 0#128 s.1 t.1 i j hi hj ra, toMat_swap GF.toF 0#128 s.2 t.2 i j hi hj rb]
          exact hred.swap ⟨i, hi⟩ ⟨j, hj⟩ (le_refl i) (by simp; omega)
        · intro hg hl
          exact absurd ((compare_zero _).1 hz) (hgood hg hl)
    obtain ⟨t, hpt, t1, t2, hr, hz⟩ := hp
    have e0 : mainG n (fuel + 1) i s = if Block.compare (ent 0#128 t.1 i i) 0#128 then some (false, t.1)
        else (scaleG n i (GF.inv (ent 0#128 t.1 i i)) t).bind fun s => (loopN (elimG n i) n s).bind (mainG n fuel (i + 1)) := by
      rw [mainG, hpt]
      simp only [Option.bind_eq_bind, Option.bind_some]
      rw [t1.row hi]
      simp only [Option.bind_some]
      rw [t1.entry 0#128 hi hi]
      rfl
    rw [e0]
    by_cases h0 : ent 0#128 t.1 i i = 0#128
    · rw [if_pos ((compare_zero _).2 h0)]
      exact ⟨false, t.1, rfl, t1, fun h => absurd h (by simp), fun hg hl => absurd h0 (hz hg hl).2⟩
    · rw [if_neg (fun h => h0 ((compare_zero _).1 h))]
      obtain ⟨v, hv, v1, v2, va, vb⟩ := scaleG_spec t t1 t2 i hi (GF.inv (ent 0#128 t.1 i i))
      obtain ⟨u, hu, u1, u2, ea, eb⟩ := elimG_spec v v1 v2 i hi
      rw [hv]
      simp only [Option.bind_some]
      rw [hu]
      have hinv : GF.toF (ent 0#128 t.1 i i) * GF.toF (GF.inv (ent 0#128 t.1 i i)) = 1 := by
        rw [← GF.toF_mul, GF.gf_mul_inv _ h0]
        exact GF.toF_one
      generalize hd : GF.inv (ent 0#128 t.1 i i) = d at *
      have hd0 : GF.toF d ≠ 0 := by
        intro h; rw [h, mul_zero] at hinv; exact zero_ne_one hinv
      have hsc := hr.scale ⟨i, hi⟩ rfl (GF.toF d) hd0
      have va' : matG n v.1 = of fun r c => if r = ⟨i, hi⟩ then GF.toF d * matG n t.1 ⟨i, hi⟩ c else matG n t.1 r c := by
        ext r c
        simp only [toMat, of_apply, Fin.ext_iff]
        rw [va r r.isLt c c.isLt]
        by_cases hri : r.val = i
        · simp only [hri, if_true]
          by_cases hic : i = c.val
          · rw [if_pos hic, one_eq, GF.toF_one, ← hic, mul_comm, hinv]
          · rw [if_neg hic, GF.toF_mul, mul_comm]
        · simp only [hri, if_false]
      have vb' : matG n v.2 = of fun r c => if r = ⟨i, hi⟩ then GF.toF d * matG n t.2 ⟨i, hi⟩ c else matG n t.2 r c := by
        ext r c
        simp only [toMat, of_apply, Fin.ext_iff]
        rw [vb r r.isLt c c.isLt]
        by_cases hri : r.val = i
        · simp only [hri, if_true]
          rw [GF.toF_mul, mul_comm]
        · simp only [hri, if_false]
      rw [← va', ← vb'] at hsc
      have hone : matG n v.1 ⟨i, hi⟩ ⟨i, hi⟩ = 1 := by
        rw [va']
        simp only [of_apply, if_true, toMat]
        rw [mul_comm]; exact hinv
      have he := hsc.elim ⟨i, hi⟩ rfl hone
      have hsub : ∀ a b : GF.F, a - b = a + b := fun a b => CharTwo.sub_eq_add a b
      have ea' : matG n u.1 = of fun r c => if r = ⟨i, hi⟩ then matG n v.1 ⟨i, hi⟩ c else matG n v.1 r c - matG n v.1 ⟨i, hi⟩ c * matG n v.1 r ⟨i, hi⟩ := by
        ext r c
        simp only [toMat, of_apply, Fin.ext_iff]
        rw [ea r r.isLt c c.isLt, hsub]
        by_cases hri : r.val = i
        · simp only [hri, if_true, ne_eq, not_true_eq_false, if_false]
        · simp only [hri, ne_eq, not_false_eq_true, if_true, if_false]
          rw [GF.toF_xor, GF.toF_mul]
      have eb' : matG n u.2 = of fun r c => if r = ⟨i, hi⟩ then matG n v.2 ⟨i, hi⟩ c else matG n v.2 r c - matG n v.2 ⟨i, hi⟩ c * matG n v.1 r ⟨i, hi⟩ := by
        ext r c
        simp only [toMat, of_apply, Fin.ext_iff]
        rw [eb r r.isLt c c.isLt, hsub]
        by_cases hri : r.val = i
        · simp only [hri, if_true, ne_eq, not_true_eq_false, if_false]
        · simp only [hri, ne_eq, not_false_eq_true, if_true, if_false]
          rw [GF.toF_xor, GF.toF_mul]
      obtain ⟨ok, m', em, q, ht, hg⟩ := ih (i + 1) (by omega) u u1 u2 (by rw [ea', eb']; exact he)
      refine ⟨ok, m', em, q, ht, ?_⟩
      intro hc hl
      refine hg hc ?_
      obtain ⟨rfl, _⟩ := hz hc hl
      have hnext := hl.next ⟨i, hi⟩ rfl (GF.toF d) (fun r => matG n v.1 r ⟨i, hi⟩)
      have : matG n u.2 = of fun r c => if r = ⟨i, hi⟩ then GF.toF d * matG n t.2 ⟨i, hi⟩ c else matG n t.2 r c - (GF.toF d * matG n t.2 ⟨i, hi⟩ c) * matG n v.1 r ⟨i, hi⟩ := by
        rw [eb', vb']
        ext r c
        simp only [of_apply, if_true]
        by_cases hri : r = ⟨i, hi⟩
        · simp only [hri, if_true]
        · simp only [hri, if_false]
      rw [this]
      exact hnext

theorem checkG {n : Nat} (m : List (List Block)) (h : Square n m) :
    ∃ ok m', checkInvertGF m = some (ok, m') ∧ Square n m' ∧
      (ok = true → matG n m' * matG n m = 1 ∧ matG n m * matG n m' = 1) ∧ (GoodCorners (matG n m) → ok = true) := by
  have hid : matG n (identity 0#128 oneBlock n) = 1 := by
    ext r c
    simp only [toMat, of_apply, ent_identity _ _ n r c r.isLt c.isLt, one_apply, Fin.ext_iff]
    split
    · rw [one_eq]; exact GF.toF_one
    · exact GF.toF_zero
  obtain ⟨ok, m', e, q, ht, hg⟩ := mainG_spec (matG n m) n 0 (by omega) (m, identity 0#128 oneBlock n) h (identity_square _ _ n)
    (by show Red 0 _ (matG n m) (matG n (identity 0#128 oneBlock n)); rw [hid]; exact red_start _)
  refine ⟨ok, m', by rw [checkInvertGF, h.1]; exact e, q, ht, fun hc => hg hc ?_⟩
  show Lower 0 (matG n (identity 0#128 oneBlock n))
  rw [hid]; exact lower_start

/-- What holds of `check_invert_gf128`: it never leaves its vectors on a square matrix; when it returns true the argument
holds the two-sided inverse, so a singular matrix is always refused; and it returns true for every matrix all of whose
upper left corners are invertible. -/
theorem check_invert_gf128_sound_partial (n : Nat) (m : List (List Block)) (h : Square n m) :
    ∃ ok m', checkInvertGF m = some (ok, m') ∧
      (ok = true → (matG n m).det ≠ 0 ∧ Square n m' ∧ matG n m' * matG n m = 1 ∧ matG n m * matG n m' = 1) ∧
      ((∀ (k : Nat) (hk : k ≤ n), ((matG n m).submatrix (Fin.castLE hk) (Fin.castLE hk)).det ≠ 0) → ok = true) := by
  obtain ⟨ok, m', e, q, ht, hg⟩ := checkG m h
  refine ⟨ok, m', e, fun hok => ⟨?_, q, ht hok⟩, fun hc => hg hc⟩
  intro hdet
  have := congrArg det (ht hok).1
  rw [det_mul, hdet, mul_zero, det_one] at this
  exact zero_ne_one this

/-- The full claim fails: the exchange of rows only looks for a pivot equal to one, so the invertible matrix with zero
diagonal and 2 elsewhere is rejected. -/
theorem check_invert_gf128_rejects_invertible :
    (∃ m', checkInvertGF [[0#128, 2#128], [2#128, 0#128]] = some (false, m')) ∧
      (matG 2 [[0#128, 2#128], [2#128, 0#128]]).det ≠ 0 := by
  refine ⟨⟨[[0#128, 2#128], [2#128, 0#128]], by decide +kernel⟩, ?_⟩
  rw [det_fin_two]
  simp only [toMat, of_apply]
  have h2 : GF.toF 2#128 ≠ 0 := fun h => absurd (GF.toF_eq_zero.1 h) (by decide)
  simp only [ent, Fin.val_zero, Fin.val_one, List.getD_cons_zero, List.getD_cons_succ, GF.toF_zero]
  rw [zero_mul, zero_sub]
  exact neg_ne_zero.2 (mul_ne_zero h2 h2)

/-! Non-trivial cases -/

example : Square 3 [[(0 : UInt8), 1, 1], [1, 0, 1], [1, 1, 1]] ∧ Bits 3 [[0, 1, 1], [1, 0, 1], [1, 1, 1]] := by
  refine ⟨⟨rfl, by decide⟩, ?_⟩
  unfold Bits
  decide
example : checkInvert [[0, 1, 1], [1, 0, 1], [1, 1, 1]] = some (true, [[1, 0, 1], [0, 1, 1], [1, 1, 1]]) := by decide +kernel
example : checkInvert [[1, 1], [1, 1]] = some (false, [[1, 1], [0, 0]]) := by decide +kernel
example : Square 2 [[1#128, 2#128], [3#128, 4#128]] := ⟨rfl, by decide⟩
example : (checkInvertGF [[1#128, 2#128], [3#128, 4#128]]).map (·.1) = some true := by decide +kernel

end Kunlun.MatInv
