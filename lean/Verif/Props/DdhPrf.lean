import Verif.Props.PkeHiding
import Mathlib.Algebra.BigOperators.Pi
import Mathlib.Algebra.BigOperators.Field
import Mathlib.Data.Fintype.BigOperators
import Mathlib.Tactic.FieldSimp
import Mathlib.Tactic.Ring
import Mathlib.Tactic.LinearCombination
/-!
Property C114: the function `x ↦ k·H(x)` on which the Diffie-Hellman based protocols rest cannot be told from a random function by whoever cannot
tell Diffie-Hellman values from random points.

The hash to the curve is a uniformly chosen function from an arbitrary finite set of items (for the library: the 2^128 blocks) to the group.
A test is given the full tables of the hash and of the function.
-/

namespace Kunlun.Hiding

open Kunlun Finset

section scalars

variable {E ι : Type} [Field E] [Fintype E] [Fintype ι] [DecidableEq ι] [DecidableEq E]

/-- The tests of `k`, with hash exponents `h`. -/
theorem scalar_dh (D : (ι → E) → (ι → E) → ℝ) (a b : E) :
    ∑ u : ι → E, ∑ v : ι → E, D (fun x => u x + v x * b) (fun x => u x * a + v x * (a * b)) =
      (Fintype.card E : ℝ) ^ Fintype.card ι * ∑ h : ι → E, D h (fun x => a * h x) := by
  rw [sum_comm]
  have e : ∀ v : ι → E, ∑ u : ι → E, D (fun x => u x + v x * b) (fun x => u x * a + v x * (a * b)) = ∑ h : ι → E, D h (fun x => a * h x) := by
    intro v
    refine (Equiv.sum_comp (Equiv.addRight (fun x => v x * b)) fun h : ι → E => D h (fun x => a * h x)).symm.trans ?_ |>.symm
    refine sum_congr rfl fun u _ => ?_
    congr 1
    funext x
    simp only [Equiv.coe_addRight, Pi.add_apply]
    ring
  simp only [e, sum_const, card_univ, Fintype.card_fun, nsmul_eq_mul, Nat.cast_pow]

theorem scalar_random (D : (ι → E) → (ι → E) → ℝ) (a b c : E) (hc : c ≠ a * b) :
    ∑ u : ι → E, ∑ v : ι → E, D (fun x => u x + v x * b) (fun x => u x * a + v x * c) = ∑ h : ι → E, ∑ f : ι → E, D h f := by
  have hd : c - a * b ≠ 0 := sub_ne_zero.2 hc
  rw [← sum_product', ← sum_product']
  refine sum_nbij' (fun p => (fun x => p.1 x + p.2 x * b, fun x => p.1 x * a + p.2 x * c))
    (fun p => (fun x => p.1 x - (p.2 x - a * p.1 x) / (c - a * b) * b, fun x => (p.2 x - a * p.1 x) / (c - a * b)))
    (fun _ _ => by simp) (fun _ _ => by simp) ?_ ?_ (fun _ _ => rfl)
  · intro p _
    have e : ∀ x, (p.1 x * a + p.2 x * c - a * (p.1 x + p.2 x * b)) / (c - a * b) = p.2 x := fun x => by
      rw [div_eq_iff hd]
      ring
    ext x
    · simp only [e]
      ring
    · simp only [e]
  · intro p _
    have e : ∀ x, (p.2 x - a * p.1 x) / (c - a * b) * (c - a * b) = p.2 x - a * p.1 x := fun x => div_mul_cancel₀ _ hd
    ext x
    · simp only
      ring
    · simp only
      linear_combination e x

end scalars

section group

variable {G ι : Type} [AddCommGroup G] [Fintype G] [Fintype ι] [DecidableEq ι]

/-- The average outcome of a test of the tables of `H` and of `k·H`, for a random hash `H` and a random key `k`. -/
noncomputable def prfReal (cv : Curve G) (D : (ι → G) → (ι → G) → ℝ) : ℝ :=
  (∑ k ∈ range cv.order, ∑ H : ι → G, D H (fun x => (k : ℤ) • H x)) / (cv.order * Fintype.card (ι → G))

/-- The average outcome of the test when the second table is an independent random function. -/
noncomputable def prfIdeal (D : (ι → G) → (ι → G) → ℝ) : ℝ :=
  (∑ H : ι → G, ∑ F : ι → G, D H F) / (Fintype.card (ι → G) : ℝ) ^ 2

/-- The test of Diffie-Hellman triples that runs `D` once, on tables made from the triple and random numbers `u`, `v`. -/
noncomputable def prfTest (cv : Curve G) (g : G) (D : (ι → G) → (ι → G) → ℝ) (A B C : G) : ℝ :=
  (∑ u : ι → Fin cv.order, ∑ v : ι → Fin cv.order,
    D (fun x => (u x : ℤ) • g + (v x : ℤ) • B) (fun x => (u x : ℤ) • A + (v x : ℤ) • C)) / ((cv.order : ℝ) ^ Fintype.card ι) ^ 2

/-- The numbers below the order are the residues. -/
def finZMod (q : ℕ) [NeZero q] : Fin q ≃ ZMod q where
  toFun i := (i.val : ZMod q)
  invFun z := ⟨z.val, z.val_lt⟩
  left_inv i := by simp [ZMod.val_cast_of_lt i.isLt]
  right_inv z := by simp

omit [Fintype G] in
theorem Generates.ne_zero (cv : Curve G) {g : G} (hg : Generates g) : g ≠ 0 := by
  rintro rfl
  obtain ⟨x, hx⟩ := hg cv.gen
  exact cv.gen_ne (by rw [hx, smul_zero])

/-- Residues are points, by their multiple of `g`. -/
noncomputable def zmodPoint (cv : Curve G) {g : G} (hg : Generates g) : ZMod cv.order ≃ G :=
  letI := cv.toModule
  haveI := cv.fact
  Equiv.ofBijective (fun z => z • g) ⟨fun a b h => by
      by_contra hab
      have hz : (a - b) • g = 0 := by rw [sub_smul, sub_eq_zero]; exact h
      refine hg.ne_zero cv ?_
      calc g = ((a - b)⁻¹ * (a - b)) • g := by rw [inv_mul_cancel₀ (sub_ne_zero.2 hab), one_smul]
        _ = 0 := by rw [mul_smul, hz, smul_zero],
    fun P => by
      obtain ⟨x, rfl⟩ := hg P
      exact ⟨x, (cv.cast_smul x g).symm⟩⟩

theorem zmodPoint_int (cv : Curve G) {g : G} (hg : Generates g) (x : ℤ) : zmodPoint cv hg (x : ZMod cv.order) = x • g :=
  (cv.cast_smul x g).symm

theorem zmodPoint_smul (cv : Curve G) {g : G} (hg : Generates g) (k : ℕ) (z : ZMod cv.order) :
    zmodPoint cv hg (k * z) = (k : ℤ) • zmodPoint cv hg z := by
  letI := cv.toModule
  rw [cv.cast_smul]
  show ((k : ZMod cv.order) * z) • g = _ • z • g
  rw [mul_smul, Int.cast_natCast]

theorem card_point (cv : Curve G) {g : G} (hg : Generates g) : Fintype.card G = cv.order := by
  haveI := cv.fact
  rw [← Fintype.card_congr (zmodPoint cv hg), ZMod.card]

/-- **C114** Telling `x ↦ k·H(x)` from a random function is exactly as hard as telling Diffie-Hellman values from random points: each test of the function
gives a test of Diffie-Hellman triples whose advantage is smaller by the factor `1 - 1/order` only. -/
theorem ddh_prf (cv : Curve G) (g : G) (hg : Generates g) (D : (ι → G) → (ι → G) → ℝ) :
    ddhAdv cv g (prfTest cv g D) = (1 - 1 / (cv.order : ℝ)) * |prfReal cv D - prfIdeal D| := by
  haveI := cv.fact
  haveI : NeZero cv.order := ⟨cv.prime.ne_zero⟩
  letI := cv.toModule
  set q := cv.order with hq
  set P := zmodPoint cv hg with hP
  set N : ℝ := (q : ℝ) ^ Fintype.card ι with hN
  set D' : (ι → ZMod q) → (ι → ZMod q) → ℝ := fun h f => D (fun x => P (h x)) (fun x => P (f x)) with hD
  have q0 : (q : ℝ) ≠ 0 := Nat.cast_ne_zero.2 cv.prime.ne_zero
  have N0 : N ≠ 0 := pow_ne_zero _ q0
  -- sums over tables of points are sums over tables of residues
  have tab : ∀ f : (ι → G) → ℝ, ∑ H : ι → G, f H = ∑ h : ι → ZMod q, f (fun x => P (h x)) := fun f =>
    ((Equiv.arrowCongr (Equiv.refl ι) P).sum_comp f).symm
  have num : ∀ f : (ι → ZMod q) → ℝ, ∑ h : ι → ZMod q, f h = ∑ u : ι → Fin q, f (fun x => ((u x).val : ZMod q)) := fun f =>
    ((Equiv.arrowCongr (Equiv.refl ι) (finZMod q)).sum_comp f).symm
  have one : ∀ f : ZMod q → ℝ, ∑ k ∈ range q, f (k : ZMod q) = ∑ a : ZMod q, f a := fun f => by
    rw [← Fin.sum_univ_eq_sum_range (fun k => f (k : ZMod q)), ← (finZMod q).sum_comp f]
    rfl
  have cardG : (Fintype.card (ι → G) : ℝ) = N := by
    rw [Fintype.card_fun, card_point cv hg, Nat.cast_pow]
  have real : prfReal cv D = (∑ a : ZMod q, ∑ h : ι → ZMod q, D' h (fun x => a * h x)) / (q * N) := by
    unfold prfReal
    rw [cardG, ← one]
    congr 1
    refine sum_congr rfl fun k _ => ?_
    rw [tab]
    refine sum_congr rfl fun h _ => ?_
    simp only [hD]
    congr 1
    funext x
    exact (zmodPoint_smul cv hg k (h x)).symm
  have ideal : prfIdeal D = (∑ h : ι → ZMod q, ∑ f : ι → ZMod q, D' h f) / N ^ 2 := by
    unfold prfIdeal
    rw [cardG, tab]
    congr 1
    exact sum_congr rfl fun h _ => tab _
  have test : ∀ a b c : ℕ, prfTest cv g D ((a : ℤ) • g) ((b : ℤ) • g) ((c : ℤ) • g) =
      (∑ u : ι → ZMod q, ∑ v : ι → ZMod q, D' (fun x => u x + v x * (b : ZMod q)) (fun x => u x * (a : ZMod q) + v x * (c : ZMod q))) / N ^ 2 := by
    intro a b c
    unfold prfTest
    rw [num]
    congr 1
    refine sum_congr rfl fun u _ => ?_
    rw [num]
    refine sum_congr rfl fun v _ => ?_
    simp only [hD]
    have lin : ∀ (s t x y : ℕ), P ((s : ZMod q) * (x : ZMod q) + (t : ZMod q) * (y : ZMod q)) = (s : ℤ) • (x : ℤ) • g + (t : ℤ) • (y : ℤ) • g := by
      intro s t x y
      rw [smul_smul, smul_smul, ← add_smul, ← zmodPoint_int cv hg]
      push_cast
      rfl
    congr 1
    · funext x
      have := lin (u x) (v x) 1 b
      rw [Nat.cast_one, mul_one, Nat.cast_one, one_smul] at this
      rw [this]
    · funext x
      rw [lin]
  set R := ∑ a : ZMod q, ∑ h : ι → ZMod q, D' h (fun x => a * h x) with hR
  set I := ∑ h : ι → ZMod q, ∑ f : ι → ZMod q, D' h f with hI
  have s2 : (∑ a ∈ range q, ∑ b ∈ range q, prfTest cv g D ((a : ℤ) • g) ((b : ℤ) • g) (((a : ℤ) * b) • g)) = q * R / N := by
    have : ∀ a b : ℕ, prfTest cv g D ((a : ℤ) • g) ((b : ℤ) • g) (((a : ℤ) * b) • g) =
        (N * ∑ h : ι → ZMod q, D' h (fun x => (a : ZMod q) * h x)) / N ^ 2 := by
      intro a b
      have h := test a b (a * b)
      rw [Nat.cast_mul, Nat.cast_mul, scalar_dh, ZMod.card] at h
      exact h
    simp only [this, sum_const, card_range, nsmul_eq_mul]
    rw [one fun a => (q : ℝ) * ((N * ∑ h : ι → ZMod q, D' h (fun x => a * h x)) / N ^ 2), ← mul_sum, ← sum_div, ← mul_sum, ← hR]
    field_simp
  have s3 : (∑ a ∈ range q, ∑ b ∈ range q, ∑ c ∈ range q, prfTest cv g D ((a : ℤ) • g) ((b : ℤ) • g) ((c : ℤ) • g)) =
      q * R / N + q ^ 2 * (q - 1) * I / N ^ 2 := by
    have inner : ∀ a b : ℕ, ∑ c ∈ range q, prfTest cv g D ((a : ℤ) • g) ((b : ℤ) • g) ((c : ℤ) • g) =
        (N * ∑ h : ι → ZMod q, D' h (fun x => (a : ZMod q) * h x)) / N ^ 2 + (q - 1) * (I / N ^ 2) := by
      intro a b
      simp only [test]
      rw [one fun c => (∑ u : ι → ZMod q, ∑ v : ι → ZMod q, D' (fun x => u x + v x * (b : ZMod q)) (fun x => u x * (a : ZMod q) + v x * c)) / N ^ 2,
        ← add_sum_erase _ _ (mem_univ ((a : ZMod q) * b)), scalar_dh, ZMod.card]
      congr 1
      rw [sum_congr rfl fun c hc => by rw [scalar_random D' (a : ZMod q) b c (ne_of_mem_erase hc)], sum_const, card_erase_of_mem (mem_univ _), card_univ,
        ZMod.card, nsmul_eq_mul, Nat.cast_sub cv.prime.one_lt.le, Nat.cast_one]
    simp only [inner, sum_const, card_range, nsmul_eq_mul]
    rw [one fun a => (q : ℝ) * ((N * ∑ h : ι → ZMod q, D' h (fun x => a * h x)) / N ^ 2 + (q - 1) * (I / N ^ 2)), ← mul_sum, sum_add_distrib, ← sum_div,
      ← mul_sum, sum_const, card_univ, ZMod.card, nsmul_eq_mul, ← hR]
    field_simp
  have p0 : (0 : ℝ) ≤ 1 - 1 / q := by
    have : (1 : ℝ) ≤ q := by exact_mod_cast cv.prime.one_lt.le
    have h1 : 1 / (q : ℝ) ≤ 1 := by rw [div_le_one (by linarith)]; exact this
    linarith
  unfold ddhAdv
  rw [← hq, s2, s3, real, ideal, ← abs_of_nonneg p0, ← abs_mul]
  congr 1
  field_simp
  ring

/-- **C114** Two ways of using the function that cannot be told apart for a random function are told apart, for `k·H`, only as far as Diffie-Hellman values are told from
random points. -/
theorem ddh_views (cv : Curve G) (g : G) (hg : Generates g) (D0 D1 : (ι → G) → (ι → G) → ℝ) (h : prfIdeal D0 = prfIdeal D1) :
    (1 - 1 / (cv.order : ℝ)) * |prfReal cv D0 - prfReal cv D1| ≤ ddhAdv cv g (prfTest cv g D0) + ddhAdv cv g (prfTest cv g D1) := by
  have p0 : (0 : ℝ) ≤ 1 - 1 / cv.order := by
    have : (1 : ℝ) ≤ cv.order := by exact_mod_cast cv.prime.one_lt.le
    have h1 : 1 / (cv.order : ℝ) ≤ 1 := by rw [div_le_one (by linarith)]; exact this
    linarith
  rw [ddh_prf cv g hg, ddh_prf cv g hg, ← mul_add, ← h, abs_sub_comm (prfReal cv D1)]
  exact mul_le_mul_of_nonneg_left (abs_sub_le _ _ _) p0

/-- Renaming the arguments of a random function gives a random function. -/
theorem prfIdeal_rename (ρ : Equiv.Perm ι) (D : (ι → G) → (ι → G) → ℝ) : prfIdeal (fun H F => D H (F ∘ ρ)) = prfIdeal D := by
  unfold prfIdeal
  congr 1
  refine sum_congr rfl fun H _ => ?_
  exact (Equiv.arrowCongr ρ.symm (Equiv.refl G)).sum_comp fun F => D H F

/-- **C114** The multiples of a point other than infinity by a random number are distributed like random points, whatever the point. -/
theorem masked_uniform (cv : Curve G) (g : G) (hg : Generates g) (P : G) (hP : P ≠ 0) (f : G → ℝ) :
    ∑ r ∈ range cv.order, f ((r : ℤ) • P) = ∑ Q : G, f Q := by
  haveI := cv.fact
  haveI : NeZero cv.order := ⟨cv.prime.ne_zero⟩
  letI := cv.toModule
  have hg' : Generates P := by
    intro Q
    obtain ⟨x, rfl⟩ := hg P
    obtain ⟨y, rfl⟩ := hg Q
    have hx : (x : ZMod cv.order) ≠ 0 := by
      intro h
      apply hP
      rw [cv.cast_smul, h, zero_smul]
    refine ⟨((y : ZMod cv.order) * (x : ZMod cv.order)⁻¹).val, ?_⟩
    rw [smul_smul, cv.cast_smul, cv.cast_smul]
    push_cast
    rw [ZMod.natCast_zmod_val, mul_assoc, inv_mul_cancel₀ hx, mul_one]
  rw [← (zmodPoint cv hg').sum_comp f, ← (finZMod cv.order).sum_comp, ← Fin.sum_univ_eq_sum_range (fun r => f ((r : ℤ) • P))]
  refine sum_congr rfl fun r _ => ?_
  have := zmodPoint_int cv hg' ((r : ℕ) : ℤ)
  rw [Int.cast_natCast] at this
  exact congrArg f this.symm

end group

end Kunlun.Hiding
