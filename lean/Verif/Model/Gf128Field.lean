import Verif.Model.Gf128
/-!
The modulus `X^128 + X^7 + X^2 + X + 1` is irreducible over GF(2) (Rabin's test, evaluated with the model of `gf128_mul`
itself), and blocks with `gf128_mul` and xor are a copy of the field it defines.
-/

namespace Kunlun.GF

open Kunlun Polynomial

/-- `X^n + X^7 + X^2 + X + 1`. -/
@[irreducible] noncomputable def form (n : ℕ) : (ZMod 2)[X] := X ^ n + (X ^ 7 + X ^ 2 + X + 1)

/-- The modulus of the code as a polynomial over GF(2). -/
@[irreducible] noncomputable def P : (ZMod 2)[X] := form 128

theorem low_degree (n : ℕ) (h : 7 < n) : (X ^ 7 + X ^ 2 + X + 1 : (ZMod 2)[X]).degree < n := by
  refine lt_of_le_of_lt (b := ((7 : ℕ) : WithBot ℕ)) ?_ (by exact_mod_cast h)
  compute_degree
  all_goals norm_num

theorem form_monic (n : ℕ) (h : 7 < n) : (form n).Monic :=
  by unfold form; exact monic_X_pow_add (low_degree n h)

theorem form_natDegree (n : ℕ) (h : 7 < n) : (form n).natDegree = n := by
  unfold form
  rw [natDegree_add_eq_left_of_degree_lt, natDegree_X_pow]
  rw [degree_X_pow]; exact low_degree n h

theorem P_eq : P = form 128 := by unfold P; rfl

theorem P_monic : P.Monic := by
  unfold P
  exact form_monic 128 (by omega)

theorem P_natDegree : P.natDegree = 128 := by
  unfold P
  exact form_natDegree 128 (by omega)

theorem form_root (n : ℕ) (Q : (ZMod 2)[X]) [CharP (AdjoinRoot Q) 2] (h : Q ∣ form n) :
    AdjoinRoot.root Q ^ n = AdjoinRoot.root Q ^ 7 + AdjoinRoot.root Q ^ 2 + AdjoinRoot.root Q + 1 := by
  have h0 : aeval (AdjoinRoot.root Q) (form n) = 0 := by
    rw [AdjoinRoot.aeval_eq, AdjoinRoot.mk_eq_zero]; exact h
  simp only [form, map_add, map_pow, aeval_X, map_one] at h0
  exact CharTwo.add_eq_zero.1 h0

theorem P_ne_one : P ≠ 1 := by
  intro h
  have := P_natDegree
  rw [h] at this
  simp at this

theorem squares_pow {R : Type*} [CommRing R] [CharP R 2] (α : R) (hα : α ^ 128 = α ^ 7 + α ^ 2 + α + 1) (k : Nat) (b : Block) :
    ev α (squares k b) = ev α b ^ 2 ^ k := by
  induction k generalizing b with
  | zero => simp [squares]
  | succ k ih => rw [squares, ih, ev_mul α hα, ← pow_two, ← pow_mul, pow_succ, mul_comm]

/-- The block of the polynomial `X`. -/
def two : Block := 2#128

theorem ev_two {R : Type*} [CommRing R] [CharP R 2] (α : R) : ev α two = α := by
  unfold ev
  rw [Finset.sum_eq_single 1]
  · have : two.getLsbD 1 = true := by decide +kernel
    simp [this]
  · intro i hi h
    have : ∀ i < 128, i ≠ 1 → two.getLsbD i = false := by decide +kernel
    simp at hi
    simp [this i hi h]
  · simp

theorem ev_one {R : Type*} [CommRing R] [CharP R 2] (α : R) : ev α (1#128) = 1 := by
  unfold ev
  rw [Finset.sum_eq_single 0]
  · simp
  · intro i hi h
    have : ∀ i < 128, i ≠ 0 → (1#128).getLsbD i = false := by decide +kernel
    simp at hi
    simp only [this i hi h]; rfl
  · simp

theorem frob_all : squares 128 two = two := by decide +kernel

/-- The inverse of `X^(2^64) - X` modulo the modulus. -/
def bez : Block := 0x9e4af928ddbc838a41a8cafd2c95b018#128

theorem frob_half : mul bez (squares 64 two ^^^ two) = 1#128 := by decide +kernel

theorem P_irreducible : Irreducible P := by
  obtain ⟨Q, hQm, hQ, hdvd⟩ := exists_monic_irreducible_factor P (not_isUnit_of_natDegree_pos P (by rw [P_natDegree]; norm_num))
  haveI : Fact (Irreducible Q) := ⟨hQ⟩
  haveI := hQm.finite_adjoinRoot
  haveI : Finite (AdjoinRoot Q) := Module.finite_of_finite (ZMod 2)
  haveI : CharP (AdjoinRoot Q) 2 := charP_of_injective_algebraMap (algebraMap (ZMod 2) (AdjoinRoot Q)).injective 2
  let β := AdjoinRoot.root Q
  have hβ : β ^ 128 = β ^ 7 + β ^ 2 + β + 1 := by
    rw [P_eq] at hdvd
    exact form_root 128 Q hdvd
  have h128 : β ^ 2 ^ 128 = β := by
    have := congrArg (ev β) frob_all
    rwa [squares_pow β hβ, ev_two] at this
  have h64 : β ^ 2 ^ 64 ≠ β := by
    intro h
    have := congrArg (ev β) frob_half
    rw [ev_mul β hβ, ev_xor, squares_pow β hβ, ev_two, h, CharTwo.add_self_eq_zero, mul_zero, ev_one] at this
    exact zero_ne_one this
  let pB := AdjoinRoot.powerBasis hQ.ne_zero
  have hdim : Module.finrank (ZMod 2) (AdjoinRoot Q) = Q.natDegree := by
    rw [pB.finrank]; exact AdjoinRoot.powerBasis_dim hQ.ne_zero
  have hord := FiniteField.orderOf_frobeniusAlgHom (ZMod 2) (AdjoinRoot Q)
  have hpow : ∀ k x, (FiniteField.frobeniusAlgHom (ZMod 2) (AdjoinRoot Q) ^ k) x = x ^ 2 ^ k := by
    intro k x
    rw [AlgHom.coe_pow, FiniteField.coe_frobeniusAlgHom, pow_iterate, ZMod.card]
  have hd : Q.natDegree ∣ 128 := by
    rw [← hdim, ← hord]
    refine orderOf_dvd_of_pow_eq_one (pB.algHom_ext ?_)
    rw [hpow]
    exact h128
  have hn : ¬ Q.natDegree ∣ 64 := by
    have hg : ∀ m, orderOf (FiniteField.frobeniusAlgHom (ZMod 2) (AdjoinRoot Q)) ∣ m → β ^ 2 ^ m = β := by
      intro m h
      rw [← hpow, orderOf_dvd_iff_pow_eq_one.1 h]
      rfl
    rw [← hdim, ← hord]
    exact fun h => h64 (hg 64 h)
  have hdeg : Q.natDegree = 128 := by
    obtain ⟨k, hk, hk2⟩ := (Nat.dvd_prime_pow Nat.prime_two (m := 7)).1 hd
    rw [hk2] at hn ⊢
    rcases Nat.lt_or_ge k 7 with h | h
    · exact absurd (by simpa using! pow_dvd_pow 2 (show k ≤ 6 by omega)) hn
    · rw [show k = 7 by omega]; norm_num
  have : P = Q := by
    refine (Polynomial.eq_of_monic_of_dvd_of_natDegree_le hQm P_monic hdvd ?_)
    rw [hdeg, P_natDegree]
  rw [this]; exact hQ

instance : Fact (Irreducible P) := ⟨P_irreducible⟩

/-- The field with 2^128 elements defined by the modulus. -/
abbrev F := AdjoinRoot P

noncomputable instance : Field F := inferInstance

instance : CharP F 2 := charP_of_injective_algebraMap (algebraMap (ZMod 2) F).injective 2

/-- The class of `X`. -/
noncomputable abbrev α : F := AdjoinRoot.root P

theorem α_root : α ^ 128 = α ^ 7 + α ^ 2 + α + 1 := by
  exact form_root 128 P P_eq.dvd

/-- The polynomial over GF(2) whose coefficients are the bits of a block. -/
noncomputable def poly (v : Block) : (ZMod 2)[X] := ∑ i ∈ Finset.range 128, if v.getLsbD i then X ^ i else 0

theorem poly_coeff (v : Block) (i : Nat) : (poly v).coeff i = if v.getLsbD i then 1 else 0 := by
  unfold poly
  rw [finset_sum_coeff]
  rcases Nat.lt_or_ge i 128 with h | h
  · rw [Finset.sum_eq_single i]
    · split <;> simp
    · intro j _ hj
      split <;> simp [coeff_X_pow, Ne.symm hj]
    · simp; omega
  · rw [BitVec.getLsbD_of_ge v i h]
    refine Finset.sum_eq_zero fun j hj => ?_
    simp at hj
    split <;> simp [coeff_X_pow]
    omega

theorem poly_degree (v : Block) : (poly v).degree < ((128 : ℕ) : WithBot ℕ) := by
  rw [degree_lt_iff_coeff_zero]
  intro i hi
  rw [poly_coeff, BitVec.getLsbD_of_ge v i hi]; rfl

theorem poly_inj {v w : Block} (h : poly v = poly w) : v = w := by
  apply BitVec.eq_of_getLsbD_eq
  intro i _
  have := congrArg (fun p => p.coeff i) h
  simp only [poly_coeff] at this
  cases hv : v.getLsbD i <;> cases hw : w.getLsbD i <;> simp_all

theorem ev_eq_mk (v : Block) : ev α v = AdjoinRoot.mk P (poly v) := by
  unfold ev poly
  rw [map_sum]
  refine Finset.sum_congr rfl fun i _ => ?_
  split <;> simp [α]

/-- Blocks as elements of the field. -/
noncomputable def toF (v : Block) : F := ev α v

theorem toF_inj {v w : Block} (h : toF v = toF w) : v = w := by
  unfold toF at h
  rw [ev_eq_mk, ev_eq_mk, AdjoinRoot.mk_eq_mk] at h
  have hd : (poly v - poly w).degree < P.degree := by
    have hP : P.degree = ((128 : ℕ) : WithBot ℕ) := by rw [degree_eq_natDegree P_monic.ne_zero, P_natDegree]
    have hv := poly_degree v
    have hw := poly_degree w
    rw [← hP] at hv hw
    clear h
    generalize poly v = p at *
    generalize poly w = q at *
    exact lt_of_le_of_lt (degree_sub_le _ _) (max_lt hv hw)
  have hz := eq_zero_of_dvd_of_degree_lt h hd
  exact poly_inj (sub_eq_zero.1 hz)

theorem toF_xor (v w : Block) : toF (v ^^^ w) = toF v + toF w := ev_xor _ _ _
theorem toF_mul (v w : Block) : toF (mul v w) = toF v * toF w := ev_mul _ α_root _ _
theorem toF_zero : toF 0#128 = 0 := ev_zero _
theorem toF_one : toF 1#128 = 1 := ev_one _

theorem toF_eq_zero {v : Block} : toF v = 0 ↔ v = 0#128 := by
  constructor
  · intro h; exact toF_inj (h.trans toF_zero.symm)
  · rintro rfl; exact toF_zero

theorem card_F : Nat.card F = 2 ^ 128 := by
  haveI := P_monic.finite_adjoinRoot
  rw [Module.natCard_eq_pow_finrank (K := ZMod 2), (AdjoinRoot.powerBasis P_monic.ne_zero).finrank,
    AdjoinRoot.powerBasis_dim, P_natDegree]
  simp

theorem toF_surjective : Function.Surjective toF := by
  haveI := P_monic.finite_adjoinRoot
  haveI : Finite F := Module.finite_of_finite (ZMod 2)
  haveI := Fintype.ofFinite F
  have hinj : Function.Injective toF := fun _ _ h => toF_inj h
  have hc : Nat.card Block = Nat.card F := by
    rw [card_F]
    have := Nat.card_congr (α := Block) (β := Fin (2 ^ 128)) ⟨BitVec.toFin, BitVec.ofFin, fun _ => rfl, fun _ => rfl⟩
    rw [this, Nat.card_eq_fintype_card, Fintype.card_fin]
  exact ((Nat.bijective_iff_injective_and_card toF).2 ⟨hinj, hc⟩).2

theorem pow_card_F (x : F) : x ^ 2 ^ 128 = x := by
  haveI := P_monic.finite_adjoinRoot
  haveI : Finite F := Module.finite_of_finite (ZMod 2)
  haveI := Fintype.ofFinite F
  have := FiniteField.pow_card x
  rwa [← Nat.card_eq_fintype_card, card_F] at this

theorem toF_squares (k : Nat) (b : Block) : toF (squares k b) = toF b ^ 2 ^ k := squares_pow _ α_root k b

theorem toF_invLoop (t : F) (fuel i : Nat) (a r : Block) (hi : i ≠ 0) (ha : toF a = t ^ (2 ^ 2 ^ i - 1))
    (hr : toF r = t ^ (2 ^ 2 ^ i - 2)) : toF (invLoop fuel i a r) = t ^ (2 ^ 2 ^ (i + fuel) - 2) := by
  induction fuel generalizing i a r with
  | zero => simpa [invLoop] using! hr
  | succ f ih =>
    rw [invLoop, if_neg hi, Nat.one_shiftLeft, show i + (f + 1) = (i + 1) + f by omega]
    have hN : 2 ^ 2 ^ (i + 1) = 2 ^ 2 ^ i * 2 ^ 2 ^ i := by rw [pow_succ 2 i, pow_mul, pow_two]
    have h2 : 2 ≤ 2 ^ 2 ^ i := Nat.le_self_pow (by positivity) 2
    refine ih (i + 1) _ _ (by omega) ?_ ?_
    · rw [toF_mul, toF_squares, ha, ← pow_mul, ← pow_add, hN]
      congr 1
      generalize 2 ^ 2 ^ i = N at *
      obtain ⟨M, rfl⟩ : ∃ M, N = M + 2 := ⟨N - 2, by omega⟩
      simp only [show M + 2 - 1 = M + 1 by omega]
      symm; rw [Nat.sub_eq_iff_eq_add (by nlinarith)]
      ring
    · rw [toF_mul, toF_squares, ha, hr, ← pow_mul, ← pow_add, hN]
      congr 1
      generalize 2 ^ 2 ^ i = N at *
      obtain ⟨M, rfl⟩ : ∃ M, N = M + 2 := ⟨N - 2, by omega⟩
      simp only [show M + 2 - 1 = M + 1 by omega, show M + 2 - 2 = M by omega]
      symm; rw [Nat.sub_eq_iff_eq_add (by nlinarith)]
      ring

/-- `gf128_inv` raises to the power `2^128 - 2`. -/
theorem toF_inv (x : Block) : toF (inv x) = toF x ^ (2 ^ 128 - 2) := by
  have h := toF_invLoop (toF x) 6 1 (mul x (squares (1 <<< 0) x)) (squares (1 <<< 0) x) (by omega) ?_ ?_
  · exact h
  · rw [toF_mul, toF_squares, Nat.one_shiftLeft]; norm_num; ring
  · rw [toF_squares, Nat.one_shiftLeft]; norm_num

end Kunlun.GF
