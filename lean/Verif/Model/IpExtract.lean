import Mathlib.Algebra.Module.Prod
import Mathlib.Algebra.Module.Pi
import Mathlib.Algebra.Module.LinearMap.Basic
import Mathlib.Algebra.BigOperators.Intervals
import Mathlib.Algebra.BigOperators.GroupWithZero.Action
import Mathlib.Algebra.Module.BigOperators
import Mathlib.Tactic.LinearCombination
import Mathlib.Tactic.FieldSimp
import Mathlib.Tactic.Ring
import Mathlib.Tactic.Abel
import Mathlib.Tactic.Module
import Mathlib.Tactic.Linarith
/-!
The extractor of the inner-product argument: from four accepting answers to every round challenge it computes a witness, or the list of
relations it computes on the way contains a non-trivial relation between the generators. Everything is an explicit formula in the answers.
-/

namespace Kunlun.IpExtract

/-! ### The tree of answers -/

section
variable {F M : Type}

/-- Answers to all paths of challenges. A path lists which of the four challenges was asked in each round, the first round first:
`L p`, `R p` are the points sent after the path `p`, `x p i` the `i`-th challenge then asked, `a p` and `b p` the final scalars. -/
structure Tree (F M : Type) where
  L : List (Fin 4) → M
  R : List (Fin 4) → M
  x : List (Fin 4) → Fin 4 → F
  a : List (Fin 4) → F
  b : List (Fin 4) → F

/-- The answers after challenge `i` of the first round. -/
def Tree.sub (t : Tree F M) (i : Fin 4) : Tree F M :=
  ⟨fun p => t.L (i :: p), fun p => t.R (i :: p), fun p => t.x (i :: p), fun p => t.a (i :: p), fun p => t.b (i :: p)⟩

/-- The points `L` sent along a path, and `R`, and the challenges asked. -/
def Tree.pathL (t : Tree F M) : List (Fin 4) → List M
  | [] => []
  | i :: p => t.L [] :: (t.sub i).pathL p
def Tree.pathR (t : Tree F M) : List (Fin 4) → List M
  | [] => []
  | i :: p => t.R [] :: (t.sub i).pathR p
def Tree.pathX (t : Tree F M) : List (Fin 4) → List F
  | [] => []
  | i :: p => t.x [] i :: (t.sub i).pathX p

theorem Tree.pathL_length (t : Tree F M) (p : List (Fin 4)) : (t.pathL p).length = p.length := by
  induction p generalizing t with
  | nil => rfl
  | cons i p ih => simp [pathL, ih]

theorem Tree.pathR_length (t : Tree F M) (p : List (Fin 4)) : (t.pathR p).length = p.length := by
  induction p generalizing t with
  | nil => rfl
  | cons i p ih => simp [pathR, ih]

theorem Tree.pathX_length (t : Tree F M) (p : List (Fin 4)) : (t.pathX p).length = p.length := by
  induction p generalizing t with
  | nil => rfl
  | cons i p ih => simp [pathX, ih]

/-- Apply a function to all scalars. -/
def Tree.map {F' : Type} (f : F → F') (t : Tree F M) : Tree F' M :=
  ⟨t.L, t.R, fun p i => f (t.x p i), fun p => f (t.a p), fun p => f (t.b p)⟩

theorem Tree.pathX_map {F' : Type} (f : F → F') (t : Tree F M) (p : List (Fin 4)) : (t.map f).pathX p = (t.pathX p).map f := by
  induction p generalizing t with
  | nil => rfl
  | cons i p ih => simp only [pathX, List.map_cons]; rw [← ih]; rfl

theorem Tree.pathL_map {F' : Type} (f : F → F') (t : Tree F M) (p : List (Fin 4)) : (t.map f).pathL p = t.pathL p := by
  induction p generalizing t with
  | nil => rfl
  | cons i p ih => simp only [pathL]; rw [← ih]; rfl

theorem Tree.pathR_map {F' : Type} (f : F → F') (t : Tree F M) (p : List (Fin 4)) : (t.map f).pathR p = t.pathR p := by
  induction p generalizing t with
  | nil => rfl
  | cons i p ih => simp only [pathR]; rw [← ih]; rfl

end

variable {F : Type} [Field F] {M : Type} [AddCommGroup M] [Module F M]

/-! ### Quadratic interpolation -/

/-- The denominators of the Lagrange polynomials on three points. -/
def den (ξ : Fin 4 → F) (i j k : Fin 4) : F := (ξ i - ξ j) * (ξ i - ξ k)

section interp
variable {V : Type} [AddCommGroup V] [Module F V] (ξ : Fin 4 → F) (v : Fin 4 → V)

/-- Coefficient of `ξ²` of the quadratic polynomial through the first three values. -/
def c2 : V := (den ξ 0 1 2)⁻¹ • v 0 + (den ξ 1 0 2)⁻¹ • v 1 + (den ξ 2 0 1)⁻¹ • v 2

/-- Coefficient of `ξ`. -/
def c1 : V := (-(ξ 1 + ξ 2) * (den ξ 0 1 2)⁻¹) • v 0 + (-(ξ 0 + ξ 2) * (den ξ 1 0 2)⁻¹) • v 1 + (-(ξ 0 + ξ 1) * (den ξ 2 0 1)⁻¹) • v 2

/-- Constant coefficient. -/
def c0 : V := (ξ 1 * ξ 2 * (den ξ 0 1 2)⁻¹) • v 0 + (ξ 0 * ξ 2 * (den ξ 1 0 2)⁻¹) • v 1 + (ξ 0 * ξ 1 * (den ξ 2 0 1)⁻¹) • v 2

section
variable {ξ} (hd : ∀ i j : Fin 4, i < 3 → j < 3 → i ≠ j → ξ i ≠ ξ j)
include hd

/-- The interpolated coefficients of a quadratic are its coefficients. -/
theorem interp_unique (L P R : V) (h : ∀ i : Fin 4, i < 3 → v i = ξ i ^ 2 • L + ξ i • P + R) :
    c2 ξ v = L ∧ c1 ξ v = P ∧ c0 ξ v = R := by
  have h0 := h 0 (by decide)
  have h1 := h 1 (by decide)
  have h2 := h 2 (by decide)
  have a01 := sub_ne_zero.2 (hd 0 1 (by decide) (by decide) (by decide))
  have a02 := sub_ne_zero.2 (hd 0 2 (by decide) (by decide) (by decide))
  have a10 := sub_ne_zero.2 (hd 1 0 (by decide) (by decide) (by decide))
  have a12 := sub_ne_zero.2 (hd 1 2 (by decide) (by decide) (by decide))
  have a20 := sub_ne_zero.2 (hd 2 0 (by decide) (by decide) (by decide))
  have a21 := sub_ne_zero.2 (hd 2 1 (by decide) (by decide) (by decide))
  -- moments of the weights
  have key : ∀ (w0 w1 w2 s2 s1 s0 : F), w0 * ξ 0 ^ 2 + w1 * ξ 1 ^ 2 + w2 * ξ 2 ^ 2 = s2 → w0 * ξ 0 + w1 * ξ 1 + w2 * ξ 2 = s1 →
      w0 + w1 + w2 = s0 → w0 • v 0 + w1 • v 1 + w2 • v 2 = s2 • L + s1 • P + s0 • R := by
    intro w0 w1 w2 s2 s1 s0 e2 e1 e0
    rw [h0, h1, h2, ← e2, ← e1, ← e0]
    module
  refine ⟨?_, ?_, ?_⟩
  · unfold c2
    rw [key _ _ _ 1 0 0]
    · module
    all_goals (unfold den; field_simp; ring)
  · unfold c1
    rw [key _ _ _ 0 1 0]
    · module
    all_goals (unfold den; field_simp; ring)
  · unfold c0
    rw [key _ _ _ 0 0 1]
    · module
    all_goals (unfold den; field_simp; ring)

/-- The interpolated quadratic takes the three values. -/
theorem interp_values (i : Fin 4) (hi : i < 3) : ξ i ^ 2 • c2 ξ v + ξ i • c1 ξ v + c0 ξ v = v i := by
  have a01 := sub_ne_zero.2 (hd 0 1 (by decide) (by decide) (by decide))
  have a02 := sub_ne_zero.2 (hd 0 2 (by decide) (by decide) (by decide))
  have a10 := sub_ne_zero.2 (hd 1 0 (by decide) (by decide) (by decide))
  have a12 := sub_ne_zero.2 (hd 1 2 (by decide) (by decide) (by decide))
  have a20 := sub_ne_zero.2 (hd 2 0 (by decide) (by decide) (by decide))
  have a21 := sub_ne_zero.2 (hd 2 1 (by decide) (by decide) (by decide))
  have key : ∀ (t w0 w1 w2 : F), t ^ 2 * (den ξ 0 1 2)⁻¹ + t * (-(ξ 1 + ξ 2) * (den ξ 0 1 2)⁻¹) + ξ 1 * ξ 2 * (den ξ 0 1 2)⁻¹ = w0 →
      t ^ 2 * (den ξ 1 0 2)⁻¹ + t * (-(ξ 0 + ξ 2) * (den ξ 1 0 2)⁻¹) + ξ 0 * ξ 2 * (den ξ 1 0 2)⁻¹ = w1 →
      t ^ 2 * (den ξ 2 0 1)⁻¹ + t * (-(ξ 0 + ξ 1) * (den ξ 2 0 1)⁻¹) + ξ 0 * ξ 1 * (den ξ 2 0 1)⁻¹ = w2 →
      t ^ 2 • c2 ξ v + t • c1 ξ v + c0 ξ v = w0 • v 0 + w1 • v 1 + w2 • v 2 := by
    intro t w0 w1 w2 e0 e1 e2
    unfold c2 c1 c0
    rw [← e0, ← e1, ← e2]
    module
  have hi' : i = 0 ∨ i = 1 ∨ i = 2 := by
    revert hi i
    decide
  rcases hi' with rfl | rfl | rfl
  · rw [key (ξ 0) 1 0 0]
    · module
    all_goals (unfold den; field_simp; ring)
  · rw [key (ξ 1) 0 1 0]
    · module
    all_goals (unfold den; field_simp; ring)
  · rw [key (ξ 2) 0 0 1]
    · module
    all_goals (unfold den; field_simp; ring)

/-- A quadratic with three zeros vanishes. -/
theorem quad_zero (p2 p1 p0 : F) (h : ∀ i : Fin 4, i < 3 → ξ i ^ 2 * p2 + ξ i * p1 + p0 = 0) : p2 = 0 ∧ p1 = 0 ∧ p0 = 0 := by
  have := interp_unique (V := F) (ξ := ξ) (fun _ => 0) hd p2 p1 p0 (fun i hi => by simp only [smul_eq_mul]; exact (h i hi).symm)
  simpa [c2, c1, c0, eq_comm] using this

end

variable {ξ} (hd : ∀ i j : Fin 4, i ≠ j → ξ i ≠ ξ j)
include hd

/-- A cubic with four zeros vanishes. -/
theorem cubic_zero (p3 p2 p1 p0 : F) (h : ∀ i : Fin 4, ξ i ^ 3 * p3 + ξ i ^ 2 * p2 + ξ i * p1 + p0 = 0) :
    p3 = 0 ∧ p2 = 0 ∧ p1 = 0 ∧ p0 = 0 := by
  have a10 := sub_ne_zero.2 (hd 1 0 (by decide))
  have a20 := sub_ne_zero.2 (hd 2 0 (by decide))
  have a30 := sub_ne_zero.2 (hd 3 0 (by decide))
  have a21 := sub_ne_zero.2 (hd 2 1 (by decide))
  have a31 := sub_ne_zero.2 (hd 3 1 (by decide))
  have a32 := sub_ne_zero.2 (hd 3 2 (by decide))
  have q10 : (ξ 1 ^ 2 + ξ 1 * ξ 0 + ξ 0 ^ 2) * p3 + (ξ 1 + ξ 0) * p2 + p1 = 0 :=
    mul_left_cancel₀ a10 (by linear_combination h 1 - h 0)
  have q20 : (ξ 2 ^ 2 + ξ 2 * ξ 0 + ξ 0 ^ 2) * p3 + (ξ 2 + ξ 0) * p2 + p1 = 0 :=
    mul_left_cancel₀ a20 (by linear_combination h 2 - h 0)
  have q30 : (ξ 3 ^ 2 + ξ 3 * ξ 0 + ξ 0 ^ 2) * p3 + (ξ 3 + ξ 0) * p2 + p1 = 0 :=
    mul_left_cancel₀ a30 (by linear_combination h 3 - h 0)
  have r21 : (ξ 2 + ξ 1 + ξ 0) * p3 + p2 = 0 := mul_left_cancel₀ a21 (by linear_combination q20 - q10)
  have r31 : (ξ 3 + ξ 1 + ξ 0) * p3 + p2 = 0 := mul_left_cancel₀ a31 (by linear_combination q30 - q10)
  have e3 : p3 = 0 := mul_left_cancel₀ a32 (by linear_combination r31 - r21)
  have e2 : p2 = 0 := by linear_combination r21 - (ξ 2 + ξ 1 + ξ 0) * e3
  have e1 : p1 = 0 := by linear_combination q10 - (ξ 1 ^ 2 + ξ 1 * ξ 0 + ξ 0 ^ 2) * e3 - (ξ 1 + ξ 0) * e2
  refine ⟨e3, e2, e1, ?_⟩
  linear_combination h 0 - ξ 0 ^ 3 * e3 - ξ 0 ^ 2 * e2 - ξ 0 * e1

end interp

/-! ### Representations -/

/-- Coefficients of a point with respect to the generators `g`, `h` and `u`. -/
abbrev Rep (F : Type) := (ℕ → F) × (ℕ → F) × F

/-- The point with given coefficients for `n` generators `g`, `n` generators `h`, and `u`. -/
def ev (n : Nat) (g h : ℕ → M) (u : M) (ρ : Rep F) : M :=
  (∑ i ∈ Finset.range n, ρ.1 i • g i) + (∑ i ∈ Finset.range n, ρ.2.1 i • h i) + ρ.2.2 • u

/-- All coefficients that count are zero. -/
def Trivial (n : Nat) (ρ : Rep F) : Prop := (∀ i < n, ρ.1 i = 0) ∧ (∀ i < n, ρ.2.1 i = 0) ∧ ρ.2.2 = 0

theorem ev_add (n : Nat) (g h : ℕ → M) (u : M) (ρ σ : Rep F) : ev n g h u (ρ + σ) = ev n g h u ρ + ev n g h u σ := by
  simp only [ev, Prod.fst_add, Prod.snd_add, Pi.add_apply, add_smul, Finset.sum_add_distrib]
  abel

theorem ev_smul (n : Nat) (g h : ℕ → M) (u : M) (c : F) (ρ : Rep F) : ev n g h u (c • ρ) = c • ev n g h u ρ := by
  simp only [ev, Prod.smul_fst, Prod.smul_snd, Pi.smul_apply, smul_eq_mul, mul_smul, smul_add, Finset.smul_sum]

theorem ev_sub (n : Nat) (g h : ℕ → M) (u : M) (ρ σ : Rep F) : ev n g h u (ρ - σ) = ev n g h u ρ - ev n g h u σ := by
  simp only [ev, Prod.fst_sub, Prod.snd_sub, Pi.sub_apply, sub_smul, Finset.sum_sub_distrib]
  abel

/-- Coefficients with respect to the generators before a round, from those after it: `g'_i = x⁻¹ g_i + x g_{i+n}`,
`h'_i = x h_i + x⁻¹ h_{i+n}`. -/
def liftR (n : Nat) (x : F) (ρ : Rep F) : Rep F :=
  (fun i => if i < n then x⁻¹ * ρ.1 i else x * ρ.1 (i - n), fun i => if i < n then x * ρ.2.1 i else x⁻¹ * ρ.2.1 (i - n), ρ.2.2)

/-- The generators after a round. -/
def foldG (n : Nat) (x : F) (g : ℕ → M) (i : ℕ) : M := x⁻¹ • g i + x • g (n + i)
def foldH (n : Nat) (x : F) (h : ℕ → M) (i : ℕ) : M := x • h i + x⁻¹ • h (n + i)

theorem ev_liftR (n : Nat) (g h : ℕ → M) (u : M) (x : F) (ρ : Rep F) :
    ev (n + n) g h u (liftR n x ρ) = ev n (foldG n x g) (foldH n x h) u ρ := by
  have h1 : ∀ (f : ℕ → M) (p : ℕ → F) (s t : F), (∑ i ∈ Finset.range (n + n), (if i < n then s * p i else t * p (i - n)) • f i) =
      ∑ i ∈ Finset.range n, p i • (s • f i + t • f (n + i)) := by
    intro f p s t
    rw [Finset.sum_range_add, ← Finset.sum_add_distrib]
    apply Finset.sum_congr rfl
    intro i hi
    rw [if_pos (Finset.mem_range.1 hi), if_neg (by omega), Nat.add_sub_cancel_left]
    module
  unfold ev liftR foldG foldH
  simp only
  rw [h1, h1]

theorem trivial_liftR (n : Nat) (x : F) (hx : x ≠ 0) (ρ : Rep F) (h : Trivial (n + n) (liftR n x ρ)) : Trivial n ρ := by
  obtain ⟨h1, h2, h3⟩ := h
  refine ⟨?_, ?_, h3⟩
  · intro i hi
    have := h1 i (by omega)
    simp only [liftR, if_pos hi] at this
    exact (mul_eq_zero.1 this).resolve_left (inv_ne_zero hx)
  · intro i hi
    have := h2 i (by omega)
    simp only [liftR, if_pos hi] at this
    exact (mul_eq_zero.1 this).resolve_left hx

/-! ### Extraction -/

/-- The challenges of a round are not zero and have different squares. -/
structure Tree.Good (k : ℕ) (t : Tree F M) : Prop where
  ne : ∀ p, p.length < k → ∀ i, t.x p i ≠ 0
  sq : ∀ p, p.length < k → ∀ i j, i ≠ j → t.x p i ^ 2 ≠ t.x p j ^ 2

theorem Tree.Good.sub {k : ℕ} {t : Tree F M} (h : t.Good (k + 1)) (i : Fin 4) : (t.sub i).Good k :=
  ⟨fun p hp j => h.ne (i :: p) (by simpa using hp) j, fun p hp => h.sq (i :: p) (by simpa using hp)⟩

/-- All answers are accepted, round by round. -/
def Acc (u : M) : ℕ → (ℕ → M) → (ℕ → M) → M → Tree F M → Prop
  | 0, g, h, P, t => P = t.a [] • g 0 + t.b [] • h 0 + (t.a [] * t.b []) • u
  | k + 1, g, h, P, t => ∀ i, Acc u k (foldG (2 ^ k) (t.x [] i) g) (foldH (2 ^ k) (t.x [] i) h)
      (t.x [] i ^ 2 • t.L [] + P + (t.x [] i)⁻¹ ^ 2 • t.R []) (t.sub i)

/-- Coefficients of the `i`-th folded point, times `x²`. -/
def reps (k : ℕ) (x : Fin 4 → F) (w : Fin 4 → (ℕ → F) × (ℕ → F)) (i : Fin 4) : Rep F :=
  x i ^ 2 • liftR (2 ^ k) (x i) ((w i).1, (w i).2, ∑ j ∈ Finset.range (2 ^ k), (w i).1 j * (w i).2 j)

/-- The extracted vectors: the middle coefficient of the quadratic through the first three answers. -/
def wit : ℕ → Tree F M → (ℕ → F) × (ℕ → F)
  | 0, t => (fun _ => t.a [], fun _ => t.b [])
  | k + 1, t =>
    let ρ := c1 (fun i => t.x [] i ^ 2) (reps k (t.x []) fun i => wit k (t.sub i))
    (ρ.1, ρ.2.1)

/-- The relations between the generators computed on the way: in every round the difference between the interpolated coefficients and
those of the fourth answer. -/
def rels : ℕ → Tree F M → List (Rep F)
  | 0, _ => []
  | k + 1, t =>
    let ξ := fun i => t.x [] i ^ 2
    let r := reps k (t.x []) fun i => wit k (t.sub i)
    (ξ 3 ^ 2 • c2 ξ r + ξ 3 • c1 ξ r + c0 ξ r - r 3) ::
      (List.finRange 4).flatMap fun i => (rels k (t.sub i)).map (liftR (2 ^ k) (t.x [] i))

theorem ev_c {n : Nat} (g h : ℕ → M) (u : M) (ξ : Fin 4 → F) (r : Fin 4 → Rep F) :
    ev n g h u (c2 ξ r) = c2 ξ (fun i => ev n g h u (r i)) ∧ ev n g h u (c1 ξ r) = c1 ξ (fun i => ev n g h u (r i)) ∧
    ev n g h u (c0 ξ r) = c0 ξ (fun i => ev n g h u (r i)) := by
  refine ⟨?_, ?_, ?_⟩ <;> simp only [c2, c1, c0, ev_add, ev_smul]

/-- One round, on the coefficients: if the quadratic through three answers also takes the fourth, the vectors of the middle
coefficient have the inner product that the coefficient of `u` claims. -/
theorem round_coeffs (k : ℕ) (x : Fin 4 → F) (hne : ∀ i, x i ≠ 0) (hsq : ∀ i j, i ≠ j → x i ^ 2 ≠ x j ^ 2)
    (w : Fin 4 → (ℕ → F) × (ℕ → F))
    (h4 : Trivial (2 ^ k + 2 ^ k) ((x 3 ^ 2) ^ 2 • c2 (fun i => x i ^ 2) (reps k x w) + (x 3 ^ 2) • c1 (fun i => x i ^ 2) (reps k x w) +
      c0 (fun i => x i ^ 2) (reps k x w) - reps k x w 3)) :
    (c1 (fun i => x i ^ 2) (reps k x w)).2.2 =
      ∑ j ∈ Finset.range (2 ^ k + 2 ^ k), (c1 (fun i => x i ^ 2) (reps k x w)).1 j * (c1 (fun i => x i ^ 2) (reps k x w)).2.1 j := by
  have hv := fun i hi => interp_values (ξ := fun i => x i ^ 2) (reps k x w) (fun i j _ _ => hsq i j) i hi
  generalize c2 (fun i => x i ^ 2) (reps k x w) = A at h4 hv
  generalize c1 (fun i => x i ^ 2) (reps k x w) = B at h4 hv ⊢
  generalize c0 (fun i => x i ^ 2) (reps k x w) = C at h4 hv
  obtain ⟨t1, t2, t3⟩ := h4
  have lt4 : ∀ i : Fin 4, i < 3 ∨ i = 3 := by decide
  -- the coefficients at all four points
  have e1 : ∀ i, ∀ j < 2 ^ k + 2 ^ k, (x i ^ 2) ^ 2 * A.1 j + x i ^ 2 * B.1 j + C.1 j = (reps k x w i).1 j := by
    intro i j hj
    rcases lt4 i with hi | rfl
    · rw [← hv i hi]; rfl
    · have := t1 j hj
      simp only [Prod.fst_sub, Prod.fst_add, Prod.smul_fst, Pi.sub_apply, Pi.add_apply, Pi.smul_apply, smul_eq_mul] at this
      linear_combination this
  have e2 : ∀ i, ∀ j < 2 ^ k + 2 ^ k, (x i ^ 2) ^ 2 * A.2.1 j + x i ^ 2 * B.2.1 j + C.2.1 j = (reps k x w i).2.1 j := by
    intro i j hj
    rcases lt4 i with hi | rfl
    · rw [← hv i hi]; rfl
    · have := t2 j hj
      simp only [Prod.fst_sub, Prod.fst_add, Prod.smul_fst, Prod.snd_sub, Prod.snd_add, Prod.smul_snd, Pi.sub_apply, Pi.add_apply,
        Pi.smul_apply, smul_eq_mul] at this
      linear_combination this
  have e3 : ∀ i, (x i ^ 2) ^ 2 * A.2.2 + x i ^ 2 * B.2.2 + C.2.2 = (reps k x w i).2.2 := by
    intro i
    rcases lt4 i with hi | rfl
    · rw [← hv i hi]; rfl
    · have := t3
      simp only [Prod.snd_sub, Prod.snd_add, Prod.smul_snd, smul_eq_mul] at this
      linear_combination this
  -- what the coefficients of one answer look like
  have g1 : ∀ i, ∀ j < 2 ^ k, (reps k x w i).1 j = x i * (w i).1 j := by
    intro i j hj
    simp only [reps, liftR, Prod.smul_fst, Pi.smul_apply, smul_eq_mul, if_pos hj]
    have := hne i
    field_simp
  have g2 : ∀ i, ∀ j < 2 ^ k, (reps k x w i).1 (2 ^ k + j) = x i ^ 3 * (w i).1 j := by
    intro i j hj
    simp only [reps, liftR, Prod.smul_fst, Pi.smul_apply, smul_eq_mul, if_neg (show ¬ 2 ^ k + j < 2 ^ k by omega), Nat.add_sub_cancel_left]
    ring
  have g3 : ∀ i, ∀ j < 2 ^ k, (reps k x w i).2.1 j = x i ^ 3 * (w i).2 j := by
    intro i j hj
    simp only [reps, liftR, Prod.smul_snd, Prod.smul_fst, Pi.smul_apply, smul_eq_mul, if_pos hj]
    ring
  have g4 : ∀ i, ∀ j < 2 ^ k, (reps k x w i).2.1 (2 ^ k + j) = x i * (w i).2 j := by
    intro i j hj
    simp only [reps, liftR, Prod.smul_snd, Prod.smul_fst, Pi.smul_apply, smul_eq_mul, if_neg (show ¬ 2 ^ k + j < 2 ^ k by omega),
      Nat.add_sub_cancel_left]
    have := hne i
    field_simp
  have cub := fun p3 p2 p1 p0 h => cubic_zero (ξ := fun i => x i ^ 2) hsq p3 p2 p1 p0 h
  have q1 : ∀ j < 2 ^ k, A.1 j = 0 ∧ C.1 j = B.1 (2 ^ k + j) := by
    intro j hj
    obtain ⟨a, b, c, d⟩ := cub (A.1 j) (B.1 j - A.1 (2 ^ k + j)) (C.1 j - B.1 (2 ^ k + j)) (- C.1 (2 ^ k + j)) (by
      intro i
      have h1 := e1 i j (by omega)
      have h2 := e1 i (2 ^ k + j) (by omega)
      rw [g1 i j hj] at h1
      rw [g2 i j hj] at h2
      linear_combination x i ^ 2 * h1 - h2)
    exact ⟨a, sub_eq_zero.1 c⟩
  have q2 : ∀ j < 2 ^ k, A.2.1 (2 ^ k + j) = 0 ∧ C.2.1 (2 ^ k + j) = B.2.1 j := by
    intro j hj
    obtain ⟨a, b, c, d⟩ := cub (A.2.1 (2 ^ k + j)) (B.2.1 (2 ^ k + j) - A.2.1 j) (C.2.1 (2 ^ k + j) - B.2.1 j) (- C.2.1 j) (by
      intro i
      have h1 := e2 i j (by omega)
      have h2 := e2 i (2 ^ k + j) (by omega)
      rw [g3 i j hj] at h1
      rw [g4 i j hj] at h2
      linear_combination x i ^ 2 * h2 - h1)
    exact ⟨a, sub_eq_zero.1 c⟩
  have w1 : ∀ i, ∀ j < 2 ^ k, x i * (w i).1 j = x i ^ 2 * B.1 j + B.1 (2 ^ k + j) := by
    intro i j hj
    rw [← g1 i j hj, ← e1 i j (by omega), (q1 j hj).1, (q1 j hj).2]
    ring
  have w2 : ∀ i, ∀ j < 2 ^ k, x i * (w i).2 j = x i ^ 2 * B.2.1 (2 ^ k + j) + B.2.1 j := by
    intro i j hj
    rw [← g4 i j hj, ← e2 i _ (by omega), (q2 j hj).1, (q2 j hj).2]
    ring
  have hs : ∀ i, x i ^ 2 * ∑ j ∈ Finset.range (2 ^ k), (w i).1 j * (w i).2 j =
      (x i ^ 2) ^ 2 * (∑ j ∈ Finset.range (2 ^ k), B.1 j * B.2.1 (2 ^ k + j)) +
      x i ^ 2 * (∑ j ∈ Finset.range (2 ^ k + 2 ^ k), B.1 j * B.2.1 j) + ∑ j ∈ Finset.range (2 ^ k), B.1 (2 ^ k + j) * B.2.1 j := by
    intro i
    rw [Finset.sum_range_add, Finset.mul_sum, Finset.mul_sum, mul_add, Finset.mul_sum, Finset.mul_sum, ← Finset.sum_add_distrib,
      ← Finset.sum_add_distrib, ← Finset.sum_add_distrib]
    apply Finset.sum_congr rfl
    intro j hj
    have h1 := w1 i j (Finset.mem_range.1 hj)
    have h2 := w2 i j (Finset.mem_range.1 hj)
    calc x i ^ 2 * ((w i).1 j * (w i).2 j) = (x i * (w i).1 j) * (x i * (w i).2 j) := by ring
      _ = _ := by rw [h1, h2]; ring
  obtain ⟨-, -, c, -⟩ := cub 0 (A.2.2 - ∑ j ∈ Finset.range (2 ^ k), B.1 j * B.2.1 (2 ^ k + j))
    (B.2.2 - ∑ j ∈ Finset.range (2 ^ k + 2 ^ k), B.1 j * B.2.1 j) (C.2.2 - ∑ j ∈ Finset.range (2 ^ k), B.1 (2 ^ k + j) * B.2.1 j) (by
      intro i
      have h1 := e3 i
      have h2 : (reps k x w i).2.2 = x i ^ 2 * ∑ j ∈ Finset.range (2 ^ k), (w i).1 j * (w i).2 j := rfl
      rw [h2, hs i] at h1
      linear_combination h1)
  exact sub_eq_zero.1 c

/-- From accepted answers to all challenges: the extracted vectors open `P`, or one of the computed relations between the generators
holds and is not trivial. -/
theorem extract_spec (u : M) (k : ℕ) (g h : ℕ → M) (P : M) (t : Tree F M) (hg : t.Good k) (ha : Acc u k g h P t) :
    (P = ev (2 ^ k) g h u ((wit k t).1, (wit k t).2, ∑ j ∈ Finset.range (2 ^ k), (wit k t).1 j * (wit k t).2 j)) ∨
    ∃ ρ ∈ rels k t, ¬ Trivial (2 ^ k) ρ ∧ ev (2 ^ k) g h u ρ = 0 := by
  induction k generalizing g h P t with
  | zero =>
    left
    simp only [Acc] at ha
    simp [ev, wit, ha]
  | succ k ih =>
    rw [pow_succ, mul_two]
    have hne := fun i => hg.ne [] (by simp) i
    have hsq := fun i j => hg.sq [] (by simp) i j
    have hm : ∀ i, ∀ ρ ∈ rels k (t.sub i), liftR (2 ^ k) (t.x [] i) ρ ∈ rels (k + 1) t := by
      intro i ρ hρ
      simp only [rels, List.mem_cons, List.mem_flatMap, List.mem_map]
      exact Or.inr ⟨i, List.mem_finRange i, ρ, hρ, rfl⟩
    by_cases hc : ∃ i, ∃ ρ ∈ rels k (t.sub i), ¬ Trivial (2 ^ k) ρ ∧
        ev (2 ^ k) (foldG (2 ^ k) (t.x [] i) g) (foldH (2 ^ k) (t.x [] i) h) u ρ = 0
    · obtain ⟨i, ρ, hρ, h1, h2⟩ := hc
      right
      exact ⟨_, hm i ρ hρ, fun hh => h1 (trivial_liftR _ _ (hne i) _ hh), by rw [ev_liftR, h2]⟩
    · have hw : ∀ i, t.x [] i ^ 2 • t.L [] + P + (t.x [] i)⁻¹ ^ 2 • t.R [] =
          ev (2 ^ k + 2 ^ k) g h u (liftR (2 ^ k) (t.x [] i) ((wit k (t.sub i)).1, (wit k (t.sub i)).2,
            ∑ j ∈ Finset.range (2 ^ k), (wit k (t.sub i)).1 j * (wit k (t.sub i)).2 j)) := by
        intro i
        rw [ev_liftR]
        rcases ih _ _ _ _ (hg.sub i) (ha i) with h1 | h1
        · exact h1
        · exact absurd ⟨i, h1⟩ hc
      have hr : ∀ i, ev (2 ^ k + 2 ^ k) g h u (reps k (t.x []) (fun i => wit k (t.sub i)) i) =
          (t.x [] i ^ 2) ^ 2 • t.L [] + t.x [] i ^ 2 • P + t.R [] := by
        intro i
        rw [reps, ev_smul, ← hw i, smul_add, smul_add, smul_smul, smul_smul,
          show t.x [] i ^ 2 * (t.x [] i)⁻¹ ^ 2 = 1 by rw [← mul_pow, mul_inv_cancel₀ (hne i), one_pow], one_smul, ← pow_two]
      obtain ⟨u2, u1, u0⟩ := interp_unique (ξ := fun i => t.x [] i ^ 2) _ (fun i j _ _ => hsq i j) (t.L []) P (t.R []) (fun i _ => hr i)
      obtain ⟨v2, v1, v0⟩ := ev_c (n := 2 ^ k + 2 ^ k) g h u (fun i => t.x [] i ^ 2) (reps k (t.x []) fun i => wit k (t.sub i))
      rw [u2] at v2
      rw [u1] at v1
      rw [u0] at v0
      have hrel : ev (2 ^ k + 2 ^ k) g h u ((t.x [] 3 ^ 2) ^ 2 • c2 (fun i => t.x [] i ^ 2) (reps k (t.x []) fun i => wit k (t.sub i)) +
          (t.x [] 3 ^ 2) • c1 (fun i => t.x [] i ^ 2) (reps k (t.x []) fun i => wit k (t.sub i)) +
          c0 (fun i => t.x [] i ^ 2) (reps k (t.x []) fun i => wit k (t.sub i)) - reps k (t.x []) (fun i => wit k (t.sub i)) 3) = 0 := by
        rw [ev_sub, ev_add, ev_add, ev_smul, ev_smul, v2, v1, v0, hr 3, sub_self]
      by_cases ht : Trivial (2 ^ k + 2 ^ k) ((t.x [] 3 ^ 2) ^ 2 • c2 (fun i => t.x [] i ^ 2) (reps k (t.x []) fun i => wit k (t.sub i)) +
          (t.x [] 3 ^ 2) • c1 (fun i => t.x [] i ^ 2) (reps k (t.x []) fun i => wit k (t.sub i)) +
          c0 (fun i => t.x [] i ^ 2) (reps k (t.x []) fun i => wit k (t.sub i)) - reps k (t.x []) (fun i => wit k (t.sub i)) 3)
      · left
        have := round_coeffs k (t.x []) hne hsq _ ht
        simp only [wit]
        rw [← this]
        exact v1.symm
      · right
        exact ⟨_, List.mem_cons_self, ht, hrel⟩

end Kunlun.IpExtract
