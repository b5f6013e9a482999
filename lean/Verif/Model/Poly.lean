import Verif.Model.Group
import Mathlib.Algebra.Polynomial.Eval.Defs
import Mathlib.Algebra.Polynomial.Eval.Coeff
/-!
Model of `utility/polymul.hpp`: polynomials as coefficient vectors (constant term first) modulo the group order `q`.
-/

namespace Kunlun.Poly

open Kunlun

/-- polymul.hpp:16-17, the inner loop over `j` for one term `a = A[i]`. -/
def mulRow (q a : ℤ) (i : Nat) : List ℤ → Nat → List ℤ → List ℤ
  | [], _, C => C
  | b :: B, j, C => mulRow q a i B (j + 1) (C.set (i + j) (BigInt.mod ((C[i + j]?).getD 0 + a * b) q))

/-- polymul.hpp:13-18, the outer loop over `i`. -/
def mulRows (q : ℤ) (B : List ℤ) : List ℤ → Nat → List ℤ → List ℤ
  | [], _, C => C
  | a :: A, i, C => mulRows q B A (i + 1) (mulRow q a i B 0 C)

/-- polymul.hpp:6-21 `PolyMul(A, B)`. `none`: for two empty vectors the size `0 + 0 - 1` wraps and the constructor throws. -/
def polyMul (q : ℤ) (A B : List ℤ) : Option (List ℤ) :=
  if A.length + B.length = 0 then none
  else some (mulRows q B A 0 (List.replicate (A.length + B.length - 1) 0))

/-- The loop of polymul.hpp:27-29. -/
def polyProdFrom (q : ℤ) : List (List ℤ) → List ℤ → Option (List ℤ)
  | [], acc => some acc
  | P :: Ps, acc => (polyMul q acc P).bind (polyProdFrom q Ps)

/-- polymul.hpp:24-31 `PolyMul(P)`: the product of all polynomials of the vector. -/
def polyProd (q : ℤ) (Ps : List (List ℤ)) : Option (List ℤ) := polyProdFrom q Ps [1]

/-- The loop of polymul.hpp:48-51. -/
def evalLoop (q x : ℤ) : List ℤ → ℤ → ℤ → ℤ
  | [], _, result => result
  | p :: P, carry, result => evalLoop q x P (carry * x) (result + BigInt.mod (p * carry) q)

/-- polymul.hpp:44-53 `EvalPoly`. -/
def evalPoly (q : ℤ) (P : List ℤ) (x : ℤ) : ℤ := BigInt.mod (evalLoop q x P 1 0) q

/-! ### The polynomial a coefficient vector stands for -/

open Polynomial

/-- The polynomial with the given coefficients modulo `q`. -/
noncomputable def toPoly (q : ℕ) (A : List ℤ) : (ZMod q)[X] :=
  ∑ i ∈ Finset.range A.length, C (((A[i]?).getD 0 : ℤ) : ZMod q) * X ^ i

theorem toPoly_nil (q : ℕ) : toPoly q [] = 0 := by simp [toPoly]

theorem toPoly_cons (q : ℕ) (a : ℤ) (A : List ℤ) : toPoly q (a :: A) = C (a : ZMod q) + X * toPoly q A := by
  unfold toPoly
  rw [List.length_cons, Finset.sum_range_succ']
  simp only [List.getElem?_cons_succ, List.getElem?_cons_zero, Option.getD_some, pow_zero, mul_one]
  rw [add_comm, Finset.mul_sum]
  congr 1
  apply Finset.sum_congr rfl
  intro i _
  ring

theorem toPoly_replicate (q n : ℕ) : toPoly q (List.replicate n 0) = 0 := by
  induction n with
  | zero => exact toPoly_nil q
  | succ n ih => rw [List.replicate_succ, toPoly_cons, ih]; simp

theorem toPoly_coeff (q : ℕ) (A : List ℤ) (k : ℕ) : (toPoly q A).coeff k = (((A[k]?).getD 0 : ℤ) : ZMod q) := by
  induction A generalizing k with
  | nil => simp [toPoly_nil]
  | cons a A ih =>
    rw [toPoly_cons]
    cases k with
    | zero => simp
    | succ k =>
      rw [coeff_add, coeff_X_mul, ih, coeff_C_succ, zero_add]
      simp

theorem toPoly_set (q : ℕ) (A : List ℤ) (k : Nat) (hk : k < A.length) (v w : ℤ)
    (hw : (w : ZMod q) = (((A[k]?).getD 0 + v : ℤ) : ZMod q)) :
    toPoly q (A.set k w) = toPoly q A + C (v : ZMod q) * X ^ k := by
  induction A generalizing k with
  | nil => simp at hk
  | cons a A ih =>
    cases k with
    | zero =>
      rw [List.set_cons_zero, toPoly_cons, toPoly_cons, hw]
      simp
      ring
    | succ k =>
      rw [List.set_cons_succ, toPoly_cons, toPoly_cons, ih k (by simpa using hk) (by simpa using hw)]
      ring

end Kunlun.Poly
