import Verif.Model.InnerProduct
import Verif.Props.Pke
import Mathlib.Algebra.BigOperators.Fin
/-!
Property C118: the vector helpers for points.
-/

namespace Kunlun

variable {G : Type} [AddCommGroup G]

/-- ec_point.hpp:379-383 `ECPointVectorMul` on a range of indices; `none`: iterators outside the vectors (undefined). -/
def vecMulRange (A : List G) (a : List ℤ) (s e : Nat) : Option G :=
  if s ≤ e ∧ e ≤ A.length ∧ e ≤ a.length then vecMul ((A.take e).drop s) ((a.take e).drop s) else none

theorem msm_eq_sum_range : ∀ (A : List G) (a : List ℤ), A.length = a.length →
    msm A a = ∑ i ∈ Finset.range A.length, a.getD i 0 • A.getD i 0
  | [], [], _ => by simp [msm]
  | [], _ :: _, h => by simp at h
  | _ :: _, [], h => by simp at h
  | P :: A, x :: a, h => by
    have ih := msm_eq_sum_range A a (by simpa using h)
    rw [List.length_cons, Finset.sum_range_succ']
    simp only [List.getD_cons_succ, List.getD_cons_zero]
    rw [← ih]
    simp only [msm, List.zipWith_cons_cons, List.sum_cons]
    rw [add_comm]

/-- **C118** `ECPointVectorMul` computes `a[0]*A[0] + ... + a[n-1]*A[n-1]` for vectors of one length and ends the program for others. -/
theorem vecMul_spec (A : List G) (a : List ℤ) (r : G) :
    vecMul A a = some r ↔ A.length = a.length ∧ r = ∑ i ∈ Finset.range A.length, a.getD i 0 • A.getD i 0 := by
  unfold vecMul
  by_cases h : A.length = a.length
  · rw [if_neg (not_not.2 h), msm_eq_sum_range A a h, Option.some.injEq]
    exact ⟨fun e => ⟨h, e.symm⟩, fun e => e.2.symm⟩
  · rw [if_pos h]
    exact ⟨fun e => (by cases e), fun e => absurd e.1 h⟩

/-- **C118** Multiplying the parts of the vectors and adding gives the product of the whole vectors, wherever they are cut. -/
theorem vecMulRange_split (A : List G) (a : List ℤ) (h : A.length = a.length) (m : Nat) (hm : m ≤ A.length) :
    ∃ p q, vecMulRange A a 0 m = some p ∧ vecMulRange A a m A.length = some q ∧ vecMul A a = some (p + q) := by
  refine ⟨msm (A.take m) (a.take m), msm (A.drop m) (a.drop m), ?_, ?_, ?_⟩
  · unfold vecMulRange vecMul
    rw [if_pos (by omega), List.drop_zero, List.drop_zero, if_neg (by simp [h])]
  · unfold vecMulRange vecMul
    rw [if_pos (by omega), List.take_length]
    rw [show a.take A.length = a by rw [h, List.take_length], if_neg (by simp [h])]
  · unfold vecMul
    rw [if_neg (by omega)]
    congr 1
    simp only [msm]
    conv_lhs => rw [← List.take_append_drop m A, ← List.take_append_drop m a]
    rw [List.zipWith_append (by simp [h]), List.sum_append]

/-- **C118** `ECPointVectorMul` is additive in the scalars and in the points. -/
theorem vecMul_add (A B : List G) (a b : List ℤ) (hB : B.length = A.length) (ha : a.length = A.length) (hb : b.length = A.length) :
    (∃ p q, vecMul A a = some p ∧ vecMul A b = some q ∧ vecMul A (List.zipWith (· + ·) a b) = some (p + q)) ∧
      ∃ p q S, vecMul A a = some p ∧ vecMul B a = some q ∧ ecVecAdd A B = some S ∧ vecMul S a = some (p + q) := by
  constructor
  · refine ⟨_, _, (vecMul_spec _ _ _).2 ⟨ha.symm, rfl⟩, (vecMul_spec _ _ _).2 ⟨hb.symm, rfl⟩, (vecMul_spec _ _ _).2 ⟨by simp [ha, hb], ?_⟩⟩
    rw [← Finset.sum_add_distrib]
    refine Finset.sum_congr rfl fun i hi => ?_
    have hi := Finset.mem_range.1 hi
    rw [← add_smul]
    congr 1
    simp [List.getD, List.getElem?_zipWith, List.getElem?_eq_getElem (show i < a.length by omega), List.getElem?_eq_getElem (show i < b.length by omega)]
  · refine ⟨_, _, List.zipWith (· + ·) A B, (vecMul_spec _ _ _).2 ⟨ha.symm, rfl⟩, (vecMul_spec _ _ _).2 ⟨by omega, rfl⟩,
      by rw [ecVecAdd, if_neg (by omega)], (vecMul_spec _ _ _).2 ⟨by simp [hB, ha], ?_⟩⟩
    rw [hB, ← Finset.sum_add_distrib]
    have hl : (List.zipWith (· + ·) A B).length = A.length := by simp [hB]
    rw [hl]
    refine Finset.sum_congr rfl fun i hi => ?_
    have hi := Finset.mem_range.1 hi
    rw [← smul_add]
    congr 1
    simp [List.getD, List.getElem?_zipWith, List.getElem?_eq_getElem (show i < A.length by omega), List.getElem?_eq_getElem (show i < B.length by omega)]

/-- **C118** The element-wise helpers: entry `i` of the results, and the ends on different lengths. -/
theorem ecVec_spec (A B S : List G) (a : List ℤ) (x : ℤ) :
    (ecVecAdd A B = some S ↔ A.length = B.length ∧ S.length = A.length ∧ ∀ i < A.length, S[i]? = some (A.getD i 0 + B.getD i 0)) ∧
      (ecVecProduct A a = some S ↔ A.length = a.length ∧ S.length = A.length ∧ ∀ i < A.length, S[i]? = some (a.getD i 0 • A.getD i 0)) ∧
      (ecVecScalar A x).length = A.length ∧ ∀ i < A.length, (ecVecScalar A x)[i]? = some (x • A.getD i 0) := by
  refine ⟨?_, ?_, by simp [ecVecScalar], ?_⟩
  · unfold ecVecAdd
    by_cases h : A.length = B.length
    · rw [if_neg (not_not.2 h), Option.some.injEq]
      constructor
      · rintro rfl
        refine ⟨h, by simp [h], fun i hi => ?_⟩
        simp [List.getD, List.getElem?_zipWith, List.getElem?_eq_getElem hi, List.getElem?_eq_getElem (show i < B.length by omega)]
      · rintro ⟨_, hl, hs⟩
        refine List.ext_getElem? fun i => ?_
        rcases Nat.lt_or_ge i A.length with hi | hi
        · rw [hs i hi]
          simp [List.getD, List.getElem?_zipWith, List.getElem?_eq_getElem hi, List.getElem?_eq_getElem (show i < B.length by omega)]
        · rw [List.getElem?_eq_none (by simp; omega), List.getElem?_eq_none (by omega)]
    · rw [if_pos h]
      exact ⟨fun e => (by cases e), fun e => absurd e.1 h⟩
  · unfold ecVecProduct
    by_cases h : A.length = a.length
    · rw [if_neg (not_not.2 h), Option.some.injEq]
      constructor
      · rintro rfl
        refine ⟨h, by simp [h], fun i hi => ?_⟩
        simp [List.getD, List.getElem?_zipWith, List.getElem?_eq_getElem hi, List.getElem?_eq_getElem (show i < a.length by omega)]
      · rintro ⟨_, hl, hs⟩
        refine List.ext_getElem? fun i => ?_
        rcases Nat.lt_or_ge i A.length with hi | hi
        · rw [hs i hi]
          simp [List.getD, List.getElem?_zipWith, List.getElem?_eq_getElem hi, List.getElem?_eq_getElem (show i < a.length by omega)]
        · rw [List.getElem?_eq_none (by simp; omega), List.getElem?_eq_none (by omega)]
    · rw [if_pos h]
      exact ⟨fun e => (by cases e), fun e => absurd e.1 h⟩
  · intro i hi
    simp [ecVecScalar, List.getD, List.getElem?_eq_getElem hi]

/-- Vectors of three points and scalars, cut after the first. -/
example : vecMul [(1 : ZMod 7), 2, 3] [4, 5, 6] = some 4 ∧ vecMulRange [(1 : ZMod 7), 2, 3] [4, 5, 6] 0 1 = some 4 ∧
    vecMulRange [(1 : ZMod 7), 2, 3] [4, 5, 6] 1 3 = some 0 ∧ vecMul [(1 : ZMod 7), 2, 3] [4] = none := by decide

end Kunlun
