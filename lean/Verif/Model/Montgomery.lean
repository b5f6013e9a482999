import Mathlib.AlgebraicGeometry.EllipticCurve.Affine.Point
import Mathlib.Tactic.FieldSimp
/-!
Curves `y² = x³ + A x² + x` and arithmetic with first coordinates only, as the multiplication on Curve25519 does it.  Used for
`x25519_scalar_mulx` (crypto/ec_25519.hpp:13-16) in `X25519`.
-/

namespace Kunlun.Mont

open WeierstrassCurve.Affine

variable {K : Type*} [Field K]

/-- The curve `y² = x³ + A x² + x`. -/
def E (A : K) : WeierstrassCurve.Affine K := ⟨0, A, 0, 1, 0⟩

variable {A : K}

theorem equation_iff (x y : K) : (E A).Equation x y ↔ y ^ 2 = x ^ 3 + A * x ^ 2 + x := by
  rw [WeierstrassCurve.Affine.equation_iff]
  simp only [E]
  constructor <;> intro h <;> linear_combination h

theorem negY_eq (x y : K) : (E A).negY x y = -y := by simp [WeierstrassCurve.Affine.negY, E]

theorem nonsingular_iff (h2 : (2 : K) ≠ 0) (hA : A ^ 2 ≠ 4) (x y : K) : (E A).Nonsingular x y ↔ y ^ 2 = x ^ 3 + A * x ^ 2 + x := by
  rw [← equation_iff]
  constructor
  · exact fun h => h.1
  · intro h
    rw [WeierstrassCurve.Affine.nonsingular_iff]
    refine ⟨h, ?_⟩
    rw [equation_iff] at h
    by_contra hc
    push Not at hc
    obtain ⟨hx, hy⟩ := hc
    simp only [E] at hx hy
    have hy0 : y = 0 := by
      have : (2 : K) * y = 0 := by linear_combination hy
      exact (mul_eq_zero.1 this).resolve_left h2
    subst hy0
    have hx0 : x ≠ 0 := by
      rintro rfl
      simp at hx
    have e1 : x ^ 2 + A * x + 1 = 0 := by
      have : x * (x ^ 2 + A * x + 1) = 0 := by linear_combination -h
      exact (mul_eq_zero.1 this).resolve_left hx0
    have e2 : A * x + 2 = 0 := by linear_combination 3 * e1 + hx
    have e3 : A ^ 2 - 4 = 0 := by linear_combination -(A ^ 2) * e1 + (A * x - 2 + A ^ 2) * e2
    exact hA (by linear_combination e3)

/-- The first coordinate of a point; zero for the point at infinity, as in the byte format. -/
def xc : (E A).Point → K
  | 0 => 0
  | .some x _ _ => x

/-- `(X : Z)` are projective coordinates of the first coordinate of `Q`. -/
def Rep : (E A).Point → K → K → Prop
  | 0, X, Z => X ≠ 0 ∧ Z = 0
  | .some x _ _, X, Z => Z ≠ 0 ∧ X = x * Z

theorem rep_zero (X Z : K) : Rep (0 : (E A).Point) X Z ↔ X ≠ 0 ∧ Z = 0 := Iff.rfl
theorem rep_some (x y : K) (h) (X Z : K) : Rep (.some x y h : (E A).Point) X Z ↔ Z ≠ 0 ∧ X = x * Z := Iff.rfl
theorem xc_zero : xc (0 : (E A).Point) = 0 := rfl
theorem xc_some (x y : K) (h) : xc (.some x y h : (E A).Point) = x := rfl

theorem rep_xc (Q : (E A).Point) (X Z : K) (h : Rep Q X Z) : X * Z⁻¹ = xc Q := by
  cases Q with
  | zero => rw [← Point.zero_def, rep_zero] at h; rw [← Point.zero_def, xc_zero, h.2, inv_zero, mul_zero]
  | some x y hn => rw [rep_some] at h; rw [xc_some, h.2, mul_assoc, mul_inv_cancel₀ h.1, mul_one]

variable [DecidableEq K]

theorem neg_some (x y : K) (h) : ∃ h', -(.some x y h : (E A).Point) = .some x (-y) h' := by
  refine ⟨by have := (nonsingular_neg x y).2 h; rwa [negY_eq] at this, ?_⟩
  rw [Point.neg_some]
  simp only [negY_eq]

theorem xc_neg (Q : (E A).Point) : xc (-Q) = xc Q := by
  cases Q with
  | zero => rfl
  | some x y h => obtain ⟨h', e⟩ := neg_some x y h; rw [e]; rfl

theorem add_some' {x1 y1 x2 y2 : K} (h1 h2) (hne : ¬(x1 = x2 ∧ y1 = -y2)) :
    ∃ y h, (.some x1 y1 h1 + .some x2 y2 h2 : (E A).Point) = .some ((E A).slope x1 x2 y1 y2 ^ 2 - A - x1 - x2) y h := by
  have hx : (E A).addX x1 x2 ((E A).slope x1 x2 y1 y2) = (E A).slope x1 x2 y1 y2 ^ 2 - A - x1 - x2 := by
    simp [WeierstrassCurve.Affine.addX, E]
  have hns := nonsingular_add h1 h2 (by rwa [negY_eq])
  rw [hx] at hns
  refine ⟨_, hns, ?_⟩
  rw [Point.add_some (by rwa [negY_eq])]
  simp only [hx]

/-- Two points with the same first coordinate are equal or opposite. -/
theorem same_x (P Q : (E A).Point) (hP : P ≠ 0) (hQ : Q ≠ 0) (h : xc P = xc Q) : P = Q ∨ P = -Q := by
  cases P with
  | zero => exact absurd rfl hP
  | some x y hx =>
    cases Q with
    | zero => exact absurd rfl hQ
    | some x' y' hx' =>
      rw [xc_some, xc_some] at h
      subst h
      have e1 := (equation_iff _ _).1 hx.1
      have e2 := (equation_iff _ _).1 hx'.1
      have : (y - y') * (y + y') = 0 := by linear_combination e1 - e2
      rcases mul_eq_zero.1 this with h | h
      · left
        have : y = y' := sub_eq_zero.1 h
        subst this
        rfl
      · right
        obtain ⟨h', e⟩ := neg_some x y' hx'
        rw [e]
        have : y = -y' := eq_neg_of_add_eq_zero_left h
        subst this
        rfl

omit [DecidableEq K] in
theorem tangent (h2 : (2 : K) ≠ 0) {x y n : K} (hy : y ≠ 0) (he : y ^ 2 = x ^ 3 + A * x ^ 2 + x) (hn : n = 3 * x ^ 2 + 2 * A * x + 1) :
    ((n / (2 * y)) ^ 2 - A - x - x) * (4 * y ^ 2) = (x ^ 2 - 1) ^ 2 := by
  have h : (n / (2 * y)) ^ 2 * (4 * y ^ 2) = n ^ 2 := by
    rw [div_pow, mul_pow]
    have : (2 : K) ^ 2 * y ^ 2 = 4 * y ^ 2 := by norm_num
    rw [this]
    refine div_mul_cancel₀ _ ?_
    rw [← this]
    exact mul_ne_zero (pow_ne_zero 2 h2) (pow_ne_zero 2 hy)
  rw [hn] at h ⊢
  linear_combination h - 4 * (A + 2 * x) * he

/-- Doubling. -/
theorem rep_dbl (h2 : (2 : K) ≠ 0) (hA : A ^ 2 ≠ 4) (Q : (E A).Point) (X Z : K) (h : Rep Q X Z) :
    Rep (Q + Q) ((X ^ 2 - Z ^ 2) ^ 2) (4 * X * Z * (X ^ 2 + A * X * Z + Z ^ 2)) := by
  have h4 : (4 : K) ≠ 0 := by
    have : (4 : K) = 2 * 2 := by norm_num
    rw [this]; exact mul_ne_zero h2 h2
  cases Q with
  | zero =>
    rw [← Point.zero_def] at h ⊢
    rw [add_zero, rep_zero]
    obtain ⟨hX, rfl⟩ := h
    refine ⟨?_, by ring⟩
    simpa using hX
  | some x y hn =>
    obtain ⟨hZ, rfl⟩ := h
    have he := (equation_iff _ _).1 hn.1
    by_cases hy : y = 0
    · subst hy
      have : (.some x 0 hn + .some x 0 hn : (E A).Point) = 0 := Point.add_of_Y_eq rfl (by rw [negY_eq, neg_zero])
      rw [this, rep_zero]
      have hz : x * (x ^ 2 + A * x + 1) = 0 := by linear_combination -he
      refine ⟨?_, by linear_combination (4 * Z ^ 4) * hz⟩
      have : (x * Z) ^ 2 - Z ^ 2 = Z ^ 2 * (x ^ 2 - 1) := by ring
      rw [this]
      refine pow_ne_zero 2 (mul_ne_zero (pow_ne_zero 2 hZ) fun h1 => ?_)
      rcases mul_eq_zero.1 hz with h0 | h0
      · subst h0; simp at h1
      · apply hA
        have hx : x ≠ 0 := by rintro rfl; simp at h1
        have e1 : A * x + 2 = 0 := by linear_combination h0 - h1
        linear_combination (A * x - 2) * e1 - A ^ 2 * h1
    · obtain ⟨y', h', e⟩ := add_some' hn hn (fun h => hy (by
        have : (2 : K) * y = 0 := by linear_combination h.2
        exact (mul_eq_zero.1 this).resolve_left h2))
      rw [e, rep_some]
      have hyy : y ≠ -y := fun h => hy (by
        have : (2 : K) * y = 0 := by linear_combination h
        exact (mul_eq_zero.1 this).resolve_left h2)
      have hne : x ^ 3 + A * x ^ 2 + x ≠ 0 := by rw [← he]; exact pow_ne_zero 2 hy
      have hden : 4 * (x * Z) * Z * ((x * Z) ^ 2 + A * (x * Z) * Z + Z ^ 2) = 4 * Z ^ 4 * y ^ 2 := by rw [he]; ring
      rw [hden]
      refine ⟨mul_ne_zero (mul_ne_zero h4 (pow_ne_zero 4 hZ)) (pow_ne_zero 2 hy), ?_⟩
      rw [WeierstrassCurve.Affine.slope_of_Y_ne rfl (by rwa [negY_eq]), negY_eq]
      simp only [E]
      rw [show y - -y = 2 * y by ring]
      have ht := tangent h2 hy he (n := 3 * x ^ 2 + 2 * A * x + 1 - 0 * y) (by ring)
      linear_combination -(Z ^ 4) * ht

/-- Addition of two points whose difference is known. -/
theorem rep_add (h2 : (2 : K) ≠ 0) (Q R : (E A).Point) (x1 X2 Z2 X3 Z3 : K) (hx1 : x1 ≠ 0) (hP : R - Q ≠ 0) (hx : xc (R - Q) = x1)
    (hQ : Rep Q X2 Z2) (hR : Rep R X3 Z3) :
    Rep (Q + R) (4 * (X2 * X3 - Z2 * Z3) ^ 2) (4 * x1 * (X2 * Z3 - Z2 * X3) ^ 2) := by
  have h4 : (4 : K) ≠ 0 := by
    have : (4 : K) = 2 * 2 := by norm_num
    rw [this]; exact mul_ne_zero h2 h2
  cases Q with
  | zero =>
    rw [← Point.zero_def] at *
    obtain ⟨hX, rfl⟩ := hQ
    rw [sub_zero] at hP hx
    rw [zero_add]
    cases R with
    | zero => exact absurd rfl hP
    | some x3 y3 hn3 =>
      obtain ⟨hZ, rfl⟩ := hR
      rw [xc_some] at hx
      subst hx
      rw [rep_some]
      refine ⟨?_, by ring⟩
      exact mul_ne_zero (mul_ne_zero h4 hx1) (pow_ne_zero 2 (by simpa using ⟨hX, hZ⟩))
  | some x2 y2 hn2 =>
    obtain ⟨hZ2, rfl⟩ := hQ
    cases R with
    | zero =>
      rw [← Point.zero_def] at *
      obtain ⟨hX, rfl⟩ := hR
      rw [zero_sub, xc_neg, xc_some] at hx
      subst hx
      rw [add_zero, rep_some]
      refine ⟨?_, by ring⟩
      exact mul_ne_zero (mul_ne_zero h4 hx1) (pow_ne_zero 2 (by simpa using ⟨hZ2, hX⟩))
    | some x3 y3 hn3 =>
      obtain ⟨hZ3, rfl⟩ := hR
      have e2 := (equation_iff _ _).1 hn2.1
      have e3 := (equation_iff _ _).1 hn3.1
      obtain ⟨hn2', hneg⟩ := neg_some x2 y2 hn2
      rw [sub_eq_add_neg, hneg] at hP hx
      by_cases hxx : x2 = x3
      · subst hxx
        have hyy : y2 = -y3 := by
          have : (y2 - y3) * (y2 + y3) = 0 := by linear_combination e2 - e3
          rcases mul_eq_zero.1 this with h | h
          · exfalso
            apply hP
            exact Point.add_of_Y_eq rfl (by rw [negY_eq, neg_neg]; exact (sub_eq_zero.1 h).symm)
          · exact eq_neg_of_add_eq_zero_left h
        subst hyy
        rw [Point.add_of_Y_eq rfl (by rw [negY_eq]), rep_zero]
        refine ⟨?_, by ring⟩
        have hy3 : y3 ≠ - - -y3 := by
          intro h
          apply hP
          exact Point.add_of_Y_eq rfl (by rw [negY_eq]; exact h)
        obtain ⟨y', h', e⟩ := add_some' hn3 hn2' (fun h => hy3 h.2)
        rw [e, xc_some, WeierstrassCurve.Affine.slope_of_Y_ne rfl (by rw [negY_eq]; exact hy3), negY_eq] at hx
        simp only [E] at hx
        have hy0 : y3 ≠ 0 := by rintro rfl; simp at hy3
        have : x2 ^ 2 - 1 ≠ 0 := by
          intro h0
          rw [show y3 - -y3 = 2 * y3 by ring] at hx
          have ht := tangent h2 hy0 e3 (n := 3 * x2 ^ 2 + 2 * A * x2 + 1 - 0 * y3) (by ring)
          rw [hx, h0] at ht
          exact mul_ne_zero hx1 (mul_ne_zero h4 (pow_ne_zero 2 hy0)) (by rw [ht]; ring)
        have hf : x2 * Z2 * (x2 * Z3) - Z2 * Z3 = Z2 * Z3 * (x2 ^ 2 - 1) := by ring
        rw [hf]
        exact mul_ne_zero h4 (pow_ne_zero 2 (mul_ne_zero (mul_ne_zero hZ2 hZ3) this))
      · obtain ⟨y', h', e⟩ := add_some' hn2 hn3 (fun h => hxx h.1)
        obtain ⟨y'', h'', e'⟩ := add_some' hn3 hn2' (fun h => hxx h.1.symm)
        rw [e', xc_some, WeierstrassCurve.Affine.slope_of_X_ne (Ne.symm hxx)] at hx
        rw [e, rep_some, WeierstrassCurve.Affine.slope_of_X_ne hxx]
        have hd : x2 - x3 ≠ 0 := sub_ne_zero.2 hxx
        have hd' : x3 - x2 ≠ 0 := sub_ne_zero.2 (Ne.symm hxx)
        have hf : x2 * Z2 * Z3 - Z2 * (x3 * Z3) = Z2 * Z3 * (x2 - x3) := by ring
        rw [hf]
        refine ⟨mul_ne_zero (mul_ne_zero h4 hx1) (pow_ne_zero 2 (mul_ne_zero (mul_ne_zero hZ2 hZ3) hd)), ?_⟩
        have hs : x1 * (x2 - x3) ^ 2 = (y3 + y2) ^ 2 - (A + x2 + x3) * (x2 - x3) ^ 2 := by
          rw [← hx]
          field_simp
          ring
        have ht : ((y2 - y3) / (x2 - x3)) ^ 2 * (x2 - x3) ^ 2 = (y2 - y3) ^ 2 := by
          field_simp
        generalize (y2 - y3) / (x2 - x3) = l at ht ⊢
        have hp : x1 * (x2 - x3) ^ 2 * ((l ^ 2 - A - x2 - x3) * (x2 - x3) ^ 2) = (x2 * x3 - 1) ^ 2 * (x2 - x3) ^ 2 := by
          rw [hs, show (l ^ 2 - A - x2 - x3) * (x2 - x3) ^ 2 = (y2 - y3) ^ 2 - (A + x2 + x3) * (x2 - x3) ^ 2 by
            linear_combination ht]
          generalize hc : (A + x2 + x3) * (x2 - x3) ^ 2 = c
          generalize hf2 : x2 ^ 3 + A * x2 ^ 2 + x2 = f2 at e2
          generalize hf3 : x3 ^ 3 + A * x3 ^ 2 + x3 = f3 at e3
          have : ((y3 + y2) ^ 2 - c) * ((y2 - y3) ^ 2 - c) = (f2 + f3 - c) ^ 2 - 4 * f2 * f3 := by
            rw [← e2, ← e3]; ring
          rw [this, ← hc, ← hf2, ← hf3]
          ring
        have hq : x1 * ((l ^ 2 - A - x2 - x3) * (x2 - x3) ^ 2) = (x2 * x3 - 1) ^ 2 := by
          refine mul_right_cancel₀ (pow_ne_zero 2 hd) ?_
          linear_combination hp
        linear_combination -(4 * (Z2 * Z3) ^ 2) * hq

end Kunlun.Mont
