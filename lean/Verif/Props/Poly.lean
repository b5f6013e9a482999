import Verif.Model.Poly
import Verif.Props.BigInt
/-!
C69: the polynomial helpers.
-/

namespace Kunlun.Poly

open Kunlun Polynomial

variable (q : ℕ)

theorem cast_mod (hq : q ≠ 0) (x : ℤ) : ((BigInt.mod x q : ℤ) : ZMod q) = (x : ZMod q) := by
  unfold BigInt.mod BigInt.bnNNMod BigInt.checked
  rw [if_neg (by exact_mod_cast hq)]
  simp

theorem mulRow_length (q a : ℤ) (i : Nat) (B : List ℤ) (j : Nat) (C : List ℤ) : (mulRow q a i B j C).length = C.length := by
  induction B generalizing j C with
  | nil => rfl
  | cons b B ih => rw [mulRow, ih, List.length_set]

theorem mulRows_length (q : ℤ) (B A : List ℤ) (i : Nat) (C : List ℤ) : (mulRows q B A i C).length = C.length := by
  induction A generalizing i C with
  | nil => rfl
  | cons a A ih => rw [mulRows, ih, mulRow_length]

theorem mulRow_poly (hq : q ≠ 0) (a : ℤ) (i : Nat) (B : List ℤ) (j : Nat) (D : List ℤ) (h : i + j + B.length ≤ D.length) :
    toPoly q (mulRow q a i B j D) = toPoly q D + C (a : ZMod q) * X ^ (i + j) * toPoly q B := by
  induction B generalizing j D with
  | nil => simp [mulRow, toPoly_nil]
  | cons b B ih =>
    rw [List.length_cons] at h
    rw [mulRow, ih _ _ (by rw [List.length_set]; omega),
      toPoly_set q D (i + j) (by omega) (a * b) _ (cast_mod q hq _), toPoly_cons]
    push_cast
    rw [C_mul]
    ring

theorem mulRows_poly (hq : q ≠ 0) (B A : List ℤ) (i : Nat) (D : List ℤ) (h : A = [] ∨ i + A.length + B.length ≤ D.length + 1) :
    toPoly q (mulRows q B A i D) = toPoly q D + X ^ i * toPoly q A * toPoly q B := by
  induction A generalizing i D with
  | nil => simp [mulRows, toPoly_nil]
  | cons a A ih =>
    have h : i + (A.length + 1) + B.length ≤ D.length + 1 := by simpa using h
    rw [mulRows, ih _ _ (by rw [mulRow_length]; right; omega), mulRow_poly q hq a i B 0 D (by omega), toPoly_cons]
    ring

/-- C69: `PolyMul` returns exactly the coefficients of the product: the right polynomial modulo the order, the right number of
coefficients. -/
theorem polyMul_exact (hq : q ≠ 0) (A B : List ℤ) (hA : A ≠ []) (hB : B ≠ []) :
    ∃ R, polyMul q A B = some R ∧ R.length + 1 = A.length + B.length ∧ toPoly q R = toPoly q A * toPoly q B := by
  have hA' := List.length_pos_iff.2 hA
  have hB' := List.length_pos_iff.2 hB
  refine ⟨_, by rw [polyMul, if_neg (by omega)], ?_, ?_⟩
  · rw [mulRows_length, List.length_replicate]; omega
  · rw [mulRows_poly q hq _ _ _ _ (by rw [List.length_replicate]; right; omega), toPoly_replicate]
    simp

/-- C69, in terms of coefficients: entry `k` of the result is congruent to the convolution. -/
theorem polyMul_coeff (hq : q ≠ 0) (A B R : List ℤ) (hA : A ≠ []) (hB : B ≠ []) (h : polyMul q A B = some R) (k : Nat) :
    ((((R[k]?).getD 0 : ℤ)) : ZMod q) =
      ∑ p ∈ Finset.antidiagonal k, (((A[p.1]?).getD 0 : ℤ) : ZMod q) * (((B[p.2]?).getD 0 : ℤ) : ZMod q) := by
  obtain ⟨R', h', _, e⟩ := polyMul_exact q hq A B hA hB
  rw [h] at h'
  cases h'
  rw [← toPoly_coeff, e, coeff_mul]
  simp only [toPoly_coeff]

/-- C69: the result is reduced modulo the order. -/
theorem polyMul_reduced (hq : 0 < q) (A B R : List ℤ) (hA : A ≠ []) (hB : B ≠ []) (h : polyMul q A B = some R) :
    ∀ c ∈ R, 0 ≤ c ∧ c < q := by
  have hr : ∀ x : ℤ, 0 ≤ BigInt.mod x q ∧ BigInt.mod x q < q := by
    intro x
    unfold BigInt.mod BigInt.bnNNMod BigInt.checked
    rw [if_neg (by omega)]
    exact ⟨Int.emod_nonneg _ (by omega), Int.emod_lt_of_pos _ (by omega)⟩
  have row : ∀ (B : List ℤ) (a : ℤ) (i j : Nat) (D : List ℤ), (∀ c ∈ D, 0 ≤ c ∧ c < (q : ℤ)) →
      ∀ c ∈ mulRow q a i B j D, 0 ≤ c ∧ c < (q : ℤ) := by
    intro B a i
    induction B with
    | nil => intro j D h; exact h
    | cons b B ih =>
      intro j D h
      rw [mulRow]
      apply ih
      intro c hc
      rcases List.mem_or_eq_of_mem_set hc with hc | hc
      · exact h c hc
      · rw [hc]; exact hr _
  have rows : ∀ (A : List ℤ) (i : Nat) (D : List ℤ), (∀ c ∈ D, 0 ≤ c ∧ c < (q : ℤ)) →
      ∀ c ∈ mulRows q B A i D, 0 ≤ c ∧ c < (q : ℤ) := by
    intro A
    induction A with
    | nil => intro i D h; exact h
    | cons a A ih =>
      intro i D h
      rw [mulRows]
      exact ih _ _ (row _ _ _ _ _ h)
  unfold polyMul at h
  split at h
  · cases h
  · simp only [Option.some.injEq] at h
    rw [← h]
    apply rows
    intro c hc
    rw [List.mem_replicate] at hc
    rw [hc.2]
    omega

theorem polyProdFrom_exact (hq : q ≠ 0) (Ps : List (List ℤ)) (hP : ∀ P ∈ Ps, P ≠ []) (acc : List ℤ) (ha : acc ≠ []) :
    ∃ R, polyProdFrom q Ps acc = some R ∧ toPoly q R = toPoly q acc * (Ps.map (toPoly q)).prod ∧
      R.length + Ps.length = acc.length + (Ps.map List.length).sum := by
  induction Ps generalizing acc with
  | nil => exact ⟨acc, rfl, by simp, by simp⟩
  | cons P Ps ih =>
    obtain ⟨R1, h1, l1, e1⟩ := polyMul_exact q hq acc P ha (hP P List.mem_cons_self)
    have hP1 := List.length_pos_iff.2 (hP P List.mem_cons_self)
    have ha1 := List.length_pos_iff.2 ha
    have hR1 : R1 ≠ [] := List.length_pos_iff.1 (by omega)
    obtain ⟨R, h, e, l⟩ := ih (fun P' h' => hP P' (List.mem_cons_of_mem _ h')) R1 hR1
    refine ⟨R, by rw [polyProdFrom, h1]; exact h, ?_, ?_⟩
    · rw [e, e1, List.map_cons, List.prod_cons]; ring
    · simp only [List.map_cons, List.sum_cons, List.length_cons]; omega

/-- C69: the product of a whole vector of polynomials. -/
theorem polyProd_exact (hq : q ≠ 0) (Ps : List (List ℤ)) (hP : ∀ P ∈ Ps, P ≠ []) :
    ∃ R, polyProd q Ps = some R ∧ toPoly q R = (Ps.map (toPoly q)).prod ∧
      R.length + Ps.length = 1 + (Ps.map List.length).sum := by
  obtain ⟨R, h, e, l⟩ := polyProdFrom_exact q hq Ps hP [1] (by simp)
  refine ⟨R, h, ?_, by simpa using l⟩
  rw [e, toPoly_cons, toPoly_nil]
  simp

theorem evalLoop_spec (hq : q ≠ 0) (x : ℤ) (P : List ℤ) (carry result : ℤ) :
    ((evalLoop q x P carry result : ℤ) : ZMod q) = (result : ZMod q) + (carry : ZMod q) * (toPoly q P).eval (x : ZMod q) := by
  induction P generalizing carry result with
  | nil => simp [evalLoop, toPoly_nil]
  | cons p P ih =>
    rw [evalLoop, ih, toPoly_cons]
    push_cast
    rw [cast_mod q hq]
    simp only [eval_add, eval_C, eval_mul, eval_X]
    push_cast
    ring

/-- C69: `EvalPoly` returns the reduced value at the point. -/
theorem evalPoly_exact (hq : 0 < q) (P : List ℤ) (x : ℤ) :
    ((evalPoly q P x : ℤ) : ZMod q) = (toPoly q P).eval (x : ZMod q) ∧ 0 ≤ evalPoly q P x ∧ evalPoly q P x < q := by
  refine ⟨?_, ?_⟩
  · rw [evalPoly, cast_mod q (by omega), evalLoop_spec q (by omega)]
    simp
  · unfold evalPoly BigInt.mod BigInt.bnNNMod BigInt.checked
    rw [if_neg (by omega)]
    exact ⟨Int.emod_nonneg _ (by omega), Int.emod_lt_of_pos _ (by omega)⟩

/-- C69: evaluation of a product is the product of the evaluations. -/
theorem evalPoly_polyMul (hq : 0 < q) (A B R : List ℤ) (hA : A ≠ []) (hB : B ≠ []) (h : polyMul q A B = some R) (x : ℤ) :
    evalPoly q R x = BigInt.mod (evalPoly q A x * evalPoly q B x) q := by
  obtain ⟨R', h', _, e⟩ := polyMul_exact q (by omega) A B hA hB
  rw [h] at h'; cases h'
  have hc : ((evalPoly q R x : ℤ) : ZMod q) = ((evalPoly q A x * evalPoly q B x : ℤ) : ZMod q) := by
    push_cast
    rw [(evalPoly_exact q hq R x).1, (evalPoly_exact q hq A x).1, (evalPoly_exact q hq B x).1, e, eval_mul]
  rw [ZMod.intCast_eq_intCast_iff'] at hc
  have hr := (evalPoly_exact q hq R x).2
  rw [Int.emod_eq_of_lt hr.1 hr.2] at hc
  unfold BigInt.mod BigInt.bnNNMod BigInt.checked
  rw [if_neg (by omega)]
  exact hc

/-- Boundary of C69: two empty polynomials make the size computation wrap. -/
theorem polyMul_empty_undefined (q : ℤ) : polyMul q [] [] = none := rfl

example : polyMul 7 [1, 2] [3, 0, 5] = some [3, 6, 5, 3] ∧ evalPoly 7 [3, 6, 5, 3] 2 = 3 := by decide

end Kunlun.Poly
