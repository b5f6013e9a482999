import Mathlib.LinearAlgebra.Vandermonde
import Mathlib.LinearAlgebra.Matrix.NonsingularInverse
import Mathlib.Tactic.LinearCombination
import Verif.Props.EncRelation
/-!
C33, the part that holds: if the first message AND `vec_G` are fixed before the challenge, the protocol is special-sound.
-/

namespace Kunlun.EncRelation

open Kunlun

/-- Coefficients that pick the leading coefficient of a polynomial of degree `m` from its values at `m+1` points. -/
theorem exists_lagrange {F : Type} [Field F] (m : Nat) (e : Nat → F) (hinj : ∀ s ≤ m, ∀ t ≤ m, e s = e t → s = t) :
    ∃ lam : Nat → F, ∀ k ≤ m, ∑ t ∈ Finset.range (m + 1), lam t * e t ^ k = if k = m then 1 else 0 := by
  classical
  let v : Fin (m + 1) → F := fun t => e t
  have hv : Function.Injective v := by
    intro s t h
    apply Fin.ext
    exact hinj s (by omega) t (by omega) h
  have hdet : IsUnit (Matrix.vandermonde v) := by
    rw [Matrix.isUnit_iff_isUnit_det, isUnit_iff_ne_zero]
    exact Matrix.det_vandermonde_ne_zero_iff.2 hv
  obtain ⟨lam, hlam⟩ := (Matrix.vecMul_surjective_iff_isUnit.2 hdet) (fun k => if k.val = m then 1 else 0)
  refine ⟨fun t => if h : t < m + 1 then lam ⟨t, h⟩ else 0, ?_⟩
  intro k hk
  have := congrFun hlam ⟨k, by omega⟩
  simp only [Matrix.vecMul, dotProduct, Matrix.vandermonde_apply] at this
  rw [← this, Finset.sum_range]
  apply Finset.sum_congr rfl
  intro t _
  simp only [dif_pos t.isLt]
  rfl

/-- In `Z_q` a 0/1 vector of length at most `q` that sums to one is a unit vector. -/
theorem bits_sum_one (q n : ℕ) [Fact q.Prime] (hnq : n ≤ q) (b : Nat → ZMod q) (hb : ∀ i < n, b i = 0 ∨ b i = 1)
    (hs : ∑ i ∈ Finset.range n, b i = 1) : ∃ s < n, ∀ i < n, b i = if s = i then 1 else 0 := by
  classical
  let S := (Finset.range n).filter fun i => b i = 1
  have hsum : ∑ i ∈ Finset.range n, b i = (S.card : ZMod q) := by
    rw [Finset.card_filter]
    push_cast
    apply Finset.sum_congr rfl
    intro i hi
    rcases hb i (Finset.mem_range.1 hi) with h | h <;> simp [h]
  have hq : 1 < q := (Fact.out : q.Prime).one_lt
  have hcard : S.card ≤ n := by
    have := Finset.card_filter_le (Finset.range n) (fun i => b i = 1)
    simpa using this
  have h1 : S.card = 1 := by
    rw [hs] at hsum
    have : ((S.card : ℕ) : ZMod q) = ((1 : ℕ) : ZMod q) := by rw [← hsum]; simp
    rw [ZMod.natCast_eq_natCast_iff'] at this
    rw [Nat.mod_eq_of_lt hq] at this
    by_cases hlt : S.card < q
    · rwa [Nat.mod_eq_of_lt hlt] at this
    · have : S.card = q := by omega
      simp_all
  obtain ⟨s, hS⟩ := Finset.card_eq_one.1 h1
  have hmem : ∀ i, i ∈ S ↔ i = s := by intro i; rw [hS, Finset.mem_singleton]
  have hs' := (hmem s).2 rfl
  rw [Finset.mem_filter, Finset.mem_range] at hs'
  refine ⟨s, hs'.1, ?_⟩
  intro i hi
  by_cases h : s = i
  · rw [if_pos h, ← h]; exact hs'.2
  · rw [if_neg h]
    rcases hb i hi with h0 | h0
    · exact h0
    · exact absurd ((hmem i).1 (Finset.mem_filter.2 ⟨Finset.mem_range.2 hi, h0⟩)).symm h

variable {G : Type} [AddCommGroup G]

theorem msm_range (hs : List G) (L : Nat) (hL : L ≤ hs.length) (φ : Nat → ℤ) :
    msm hs ((List.range L).map φ) = ∑ i ∈ Finset.range L, φ i • ((hs[i]?).getD 0) := by
  have h1 : msm hs ((List.range L).map φ) = msm (hs.take L) ((List.range L).map φ) := by
    unfold msm
    congr 1
    conv_lhs => rw [List.zipWith_eq_zipWith_take_min (l₁ := hs)]
    rw [List.length_map, List.length_range, Nat.min_eq_right hL,
      List.take_of_length_le (i := L) (l := (List.range L).map φ) (by simp)]
  rw [h1, msm_eq_sum _ _ (by simp [Nat.min_eq_left hL]), List.length_take, Nat.min_eq_left hL]
  apply Finset.sum_congr rfl
  intro i hi
  have hi := Finset.mem_range.1 hi
  rw [List.getElem?_map, List.getElem?_range hi, List.getElem?_take, if_pos hi]
  rfl

theorem list_eq_range_map (f : List ℤ) : f = (List.range f.length).map fun i => (f[i]?).getD 0 := by
  apply List.ext_getElem?
  intro i
  rw [List.getElem?_map]
  by_cases h : i < f.length
  · rw [List.getElem?_range h, List.getElem?_eq_getElem h]; simp [h]
  · rw [List.getElem?_eq_none (by omega), List.getElem?_eq_none (by simp; omega)]; rfl

/-- `c` is a non-trivial linear relation between the commitment generators `g, h_1, …`. -/
def IsRelation (cv : Curve G) (com : Pedersen.PP G) (c : List ℤ) : Prop :=
  msm (com.g :: com.vecH) c = 0 ∧ ∃ x ∈ c, ¬ (cv.order : ℤ) ∣ x

/-- The vector computed from three openings `(z_s, f_s)` of `e_s·B + A`: the affine combination that eliminates `B` and `A`. -/
def relVec (L : Nat) (e0 e1 e2 z0 z1 z2 : ℤ) (f0 f1 f2 : Nat → ℤ) : List ℤ :=
  ((e0 - e1) * z2 + (e1 - e2) * z0 + (e2 - e0) * z1) ::
    (List.range L).map fun i => (e0 - e1) * f2 i + (e1 - e2) * f0 i + (e2 - e0) * f1 i

theorem no_relation (cv : Curve G) (com : Pedersen.PP G) (L : Nat) (hL : L ≤ com.vecH.length) (ρ : ℤ) (φ : Nat → ℤ)
    (h : ¬ IsRelation cv com (ρ :: (List.range L).map φ))
    (hz : ρ • com.g + ∑ i ∈ Finset.range L, φ i • ((com.vecH[i]?).getD 0) = 0) :
    ∀ i < L, (φ i : ZMod cv.order) = 0 := by
  intro i hi
  by_contra hne
  apply h
  refine ⟨?_, φ i, ?_, ?_⟩
  · rw [msm_cons, msm_range _ _ hL, hz]
  · exact List.mem_cons_of_mem _ (List.mem_map_of_mem (List.mem_range.2 hi))
  · rwa [← ZMod.intCast_zmod_eq_zero_iff_dvd]

/-- Three openings whose commitments are affinely dependent have affinely dependent messages. -/
theorem affine (cv : Curve G) (com : Pedersen.PP G) (L : Nat) (hL : L ≤ com.vecH.length)
    (B A : G) (e0 e1 e2 z0 z1 z2 : ℤ) (f0 f1 f2 : Nat → ℤ) (h : ¬ IsRelation cv com (relVec L e0 e1 e2 z0 z1 z2 f0 f1 f2))
    (h0 : e0 • B + A = z0 • com.g + ∑ i ∈ Finset.range L, f0 i • ((com.vecH[i]?).getD 0))
    (h1 : e1 • B + A = z1 • com.g + ∑ i ∈ Finset.range L, f1 i • ((com.vecH[i]?).getD 0))
    (h2 : e2 • B + A = z2 • com.g + ∑ i ∈ Finset.range L, f2 i • ((com.vecH[i]?).getD 0)) (i : Nat) (hi : i < L) :
    ((e0 - e1 : ℤ) : ZMod cv.order) * f2 i + ((e1 - e2 : ℤ) : ZMod cv.order) * f0 i + ((e2 - e0 : ℤ) : ZMod cv.order) * f1 i = 0 := by
  have := no_relation cv com L hL ((e0 - e1) * z2 + (e1 - e2) * z0 + (e2 - e0) * z1)
    (fun i => (e0 - e1) * f2 i + (e1 - e2) * f0 i + (e2 - e0) * f1 i) h ?_ i hi
  · rw [← this]; push_cast; ring
  · have hs : ∑ i ∈ Finset.range L, ((e0 - e1) * f2 i + (e1 - e2) * f0 i + (e2 - e0) * f1 i) • ((com.vecH[i]?).getD 0) =
        (e0 - e1) • ∑ i ∈ Finset.range L, f2 i • ((com.vecH[i]?).getD 0) +
        (e1 - e2) • ∑ i ∈ Finset.range L, f0 i • ((com.vecH[i]?).getD 0) +
        (e2 - e0) • ∑ i ∈ Finset.range L, f1 i • ((com.vecH[i]?).getD 0) := by
      rw [Finset.smul_sum, Finset.smul_sum, Finset.smul_sum, ← Finset.sum_add_distrib, ← Finset.sum_add_distrib]
      apply Finset.sum_congr rfl
      intro i _
      module
    rw [hs]
    have e0' : ∑ i ∈ Finset.range L, f0 i • ((com.vecH[i]?).getD 0) = e0 • B + A - z0 • com.g := by rw [h0]; abel
    have e1' : ∑ i ∈ Finset.range L, f1 i • ((com.vecH[i]?).getD 0) = e1 • B + A - z1 • com.g := by rw [h1]; abel
    have e2' : ∑ i ∈ Finset.range L, f2 i • ((com.vecH[i]?).getD 0) = e2 • B + A - z2 • com.g := by rw [h2]; abel
    rw [e0', e1', e2']
    module

variable [DecidableEq G]

/-- The candidate relation computed from the responses `f` of the conversations `0, 1, t`. -/
def relF (L : Nat) (e zA : Nat → ℤ) (f : Nat → List ℤ) (t : Nat) : List ℤ :=
  relVec L (e 0) (e 1) (e t) (zA 0) (zA 1) (zA t) (fun i => ((f 0)[i]?).getD 0) (fun i => ((f 1)[i]?).getD 0)
    (fun i => ((f t)[i]?).getD 0)

/-- The candidate relation computed from the values `f (e - f)` of the conversations `0, 1, 2`. -/
def relT (L : Nat) (e zC : Nat → ℤ) (f : Nat → List ℤ) : List ℤ :=
  relVec L (e 0) (e 1) (e 2) (zC 0) (zC 1) (zC 2) (fun i => ((f 0)[i]?).getD 0 * (e 0 - ((f 0)[i]?).getD 0))
    (fun i => ((f 1)[i]?).getD 0 * (e 1 - ((f 1)[i]?).getD 0)) (fun i => ((f 2)[i]?).getD 0 * (e 2 - ((f 2)[i]?).getD 0))

/-- The combinatorial core: `m + 2` accepting conversations with equal `B, A, C, D, vec_G` and pairwise different challenges give a
ciphertext that encrypts zero, or a relation between the commitment generators. -/
theorem accepts_extract (cv : Curve G) (pp : PP G) (x : Instance G) (m : Nat) (hn : 0 < pp.n) (hnq : pp.n ≤ cv.order) (hm : 0 < m)
    (hN : x.cts.length = pp.n ^ m) (hh : m * pp.n ≤ pp.com.vecH.length)
    (B A C D : G) (vecG : List (CT G)) (e z zA zC : Nat → ℤ) (f : Nat → List ℤ)
    (hf : ∀ t ≤ m + 1, (f t).length = m * pp.n)
    (hacc : ∀ t ≤ m + 1, Accepts cv pp x m (e t) ⟨B, z t, vecG, A, C, D, f t, zA t, zC t⟩)
    (hdist : ∀ s ≤ m + 1, ∀ t ≤ m + 1, (e s : ZMod cv.order) = e t → s = t) :
    (∃ (l : Nat) (lam : Nat → ℤ),
      (∀ k ≤ m, (∑ t ∈ Finset.range (m + 1), lam t * e t ^ k) % cv.order = if k = m then 1 else 0) ∧
      x.cts[l]? = some (Twisted.encPoint pp.enc x.ek 0 (∑ t ∈ Finset.range (m + 1), lam t * z t))) ∨
    (∃ t ≤ m + 1, IsRelation cv pp.com (relF (m * pp.n) e zA f t)) ∨ IsRelation cv pp.com (relT (m * pp.n) e zC f) := by
  by_cases hrelF : ∃ t ≤ m + 1, IsRelation cv pp.com (relF (m * pp.n) e zA f t)
  · exact Or.inr (Or.inl hrelF)
  by_cases hrelT : IsRelation cv pp.com (relT (m * pp.n) e zC f)
  · exact Or.inr (Or.inr hrelT)
  left
  haveI := cv.fact
  letI := cv.toModule
  let L := m * pp.n
  let F : Nat → Nat → ℤ := fun t i => ((f t)[i]?).getD 0
  have hcomF : ∀ t ≤ m + 1, e t • B + A = zA t • pp.com.g + ∑ i ∈ Finset.range L, F t i • ((pp.com.vecH[i]?).getD 0) := by
    intro t ht
    have := (hacc t ht).comF
    simp only at this
    rw [this, ← msm_range _ _ hh]
    congr 2
    conv_lhs => rw [list_eq_range_map (f t)]
    rw [hf t ht]
  have hcomT : ∀ t ≤ m + 1, e t • C + D = zC t • pp.com.g +
      ∑ i ∈ Finset.range L, (F t i * (e t - F t i)) • ((pp.com.vecH[i]?).getD 0) := by
    intro t ht
    have := (hacc t ht).comT
    simp only at this
    rw [this, ← msm_range _ _ hh]
    congr 2
    conv_lhs => rw [list_eq_range_map (f t)]
    rw [hf t ht, List.map_map]
    rfl
  have hne : ∀ s ≤ m + 1, ∀ t ≤ m + 1, s ≠ t → ((e s : ZMod cv.order) - e t) ≠ 0 := by
    intro s hs t ht hst h
    exact hst (hdist s hs t ht (sub_eq_zero.1 h))
  have h01 := hne 0 (by omega) 1 (by omega) (by omega)
  have h12 := hne 1 (by omega) 2 (by omega) (by omega)
  have h20 := hne 2 (by omega) 0 (by omega) (by omega)
  let b : Nat → ZMod cv.order := fun i => ((F 0 i : ZMod cv.order) - F 1 i) / ((e 0 : ZMod cv.order) - e 1)
  let a : Nat → ZMod cv.order := fun i => (F 0 i : ZMod cv.order) - e 0 * b i
  have hb01 : ∀ i, b i * ((e 0 : ZMod cv.order) - e 1) = (F 0 i : ZMod cv.order) - F 1 i := fun i => div_mul_cancel₀ _ h01
  have hlin : ∀ t ≤ m + 1, ∀ i < L, (F t i : ZMod cv.order) = a i + e t * b i := by
    intro t ht i hi
    have := affine cv pp.com L hh B A (e 0) (e 1) (e t) (zA 0) (zA 1) (zA t) (F 0) (F 1) (F t)
      (fun hr => hrelF ⟨t, ht, hr⟩)
      (hcomF 0 (by omega)) (hcomF 1 (by omega)) (hcomF t ht) i hi
    push_cast at this
    apply mul_left_cancel₀ h01
    have hbi := hb01 i
    show ((e 0 : ZMod cv.order) - e 1) * F t i = ((e 0 : ZMod cv.order) - e 1) * ((F 0 i : ZMod cv.order) - e 0 * b i + e t * b i)
    linear_combination this + (e 0 - e t : ZMod cv.order) * hbi
  have hbit : ∀ i < L, b i = 0 ∨ b i = 1 := by
    intro i hi
    have h := affine cv pp.com L hh C D (e 0) (e 1) (e 2) (zC 0) (zC 1) (zC 2) _ _ _ hrelT
      (hcomT 0 (by omega)) (hcomT 1 (by omega)) (hcomT 2 (by omega)) i hi
    push_cast at h
    rw [hlin 0 (by omega) i hi, hlin 1 (by omega) i hi, hlin 2 (by omega) i hi] at h
    have hu : (b i * (1 - b i)) * (((e 0 : ZMod cv.order) - e 1) * ((e 1 : ZMod cv.order) - e 2) * ((e 2 : ZMod cv.order) - e 0)) = 0 := by
      linear_combination -h
    have hu' : b i * (1 - b i) = 0 := by
      rcases mul_eq_zero.1 hu with h | h
      · exact h
      · exact absurd h (mul_ne_zero (mul_ne_zero h01 h12) h20)
    rcases mul_eq_zero.1 hu' with h | h
    · exact Or.inl h
    · exact Or.inr (sub_eq_zero.1 h).symm
  have hjl : ∀ j < m, ∀ i < pp.n, j * pp.n + i < L := by
    intro j hj i hi
    calc j * pp.n + i < j * pp.n + pp.n := by omega
      _ = (j + 1) * pp.n := by ring
      _ ≤ m * pp.n := Nat.mul_le_mul_right _ hj
  have hcol : ∀ j < m, ∑ i ∈ Finset.range pp.n, b (j * pp.n + i) = 1 := by
    intro j hj
    have s0 := congrArg (Int.cast : ℤ → ZMod cv.order) ((hacc 0 (by omega)).sum j hj)
    have s1 := congrArg (Int.cast : ℤ → ZMod cv.order) ((hacc 1 (by omega)).sum j hj)
    push_cast at s0 s1
    have : (∑ i ∈ Finset.range pp.n, b (j * pp.n + i)) * ((e 0 : ZMod cv.order) - e 1) = (e 0 : ZMod cv.order) - e 1 := by
      rw [Finset.sum_mul, Finset.sum_congr rfl (fun i _ => hb01 (j * pp.n + i)), Finset.sum_sub_distrib]
      exact congrArg₂ (· - ·) s0 s1
    exact mul_right_cancel₀ h01 (by rw [this, one_mul])
  have hdig : ∀ j, ∃ s, j < m → s < pp.n ∧ ∀ i < pp.n, b (j * pp.n + i) = if s = i then 1 else 0 := by
    intro j
    by_cases hj : j < m
    · obtain ⟨s, hs, h⟩ := bits_sum_one cv.order pp.n hnq (fun i => b (j * pp.n + i))
        (fun i hi => hbit _ (hjl j hj i hi)) (hcol j hj)
      exact ⟨s, fun _ => ⟨hs, h⟩⟩
    · exact ⟨0, fun h => absurd h hj⟩
  choose s hs using hdig
  obtain ⟨l, hl, hld⟩ := digits_surj pp.n m hn s (fun j hj => (hs j hj).1)
  -- the coefficient polynomials
  let aL : List ℤ := (List.range L).map fun i => ((a i).val : ℤ)
  have haL : ∀ i < L, (((aL[i]?).getD 0 : ℤ) : ZMod cv.order) = a i := by
    intro i hi
    show ((((((List.range L).map fun i => ((a i).val : ℤ))[i]?).getD 0 : ℤ)) : ZMod cv.order) = a i
    rw [List.getElem?_map, List.getElem?_range hi]
    simp
  have hex : ∀ i, ∃ p : List ℤ, i < pp.n ^ m → ∀ ee : ℤ, ∏ j ∈ Finset.range m,
          (((aL[j * pp.n + i / pp.n ^ j % pp.n]?).getD 0 + (if l / pp.n ^ j % pp.n = i / pp.n ^ j % pp.n then 1 else 0) * ee : ℤ) : ZMod cv.order) =
        ∑ k ∈ Finset.range m, (((p[k]?).getD 0 : ℤ) : ZMod cv.order) * (ee : ZMod cv.order) ^ k +
          if i = l then (ee : ZMod cv.order) ^ m else 0 := by
    intro i
    by_cases hi : i < pp.n ^ m
    · obtain ⟨p, _, hp⟩ := poly_spec cv.order cv.prime.ne_zero pp.n m aL l i hl hi
      exact ⟨p, fun _ => hp⟩
    · exact ⟨[], fun h => absurd h hi⟩
  choose P hP using hex
  have hprod : ∀ t ≤ m + 1, ∀ i < pp.n ^ m, ((product cv pp.n (f t) (decompose i pp.n m) : ℤ) : ZMod cv.order) =
      ∑ k ∈ Finset.range m, ((((P i)[k]?).getD 0 : ℤ) : ZMod cv.order) * (e t : ZMod cv.order) ^ k +
        if i = l then (e t : ZMod cv.order) ^ m else 0 := by
    intro t ht i hi
    rw [product_cast, ← hP i hi (e t)]
    apply Finset.prod_congr rfl
    intro j hj
    have hj := Finset.mem_range.1 hj
    have hmod := Nat.mod_lt (i / pp.n ^ j) hn
    have hlt := hjl j hj _ hmod
    have := hlin t ht _ hlt
    show ((F t (j * pp.n + i / pp.n ^ j % pp.n) : ℤ) : ZMod cv.order) = _
    rw [this, (hs j hj).2 _ hmod, hld j hj]
    push_cast
    rw [haL _ hlt]
    ring
  obtain ⟨lam, hlam⟩ := exists_lagrange m (fun t => (e t : ZMod cv.order))
    (fun s' hs' t ht h => hdist s' (by omega) t (by omega) h)
  -- eliminate
  have key : ∀ (sel : CT G → G) (E : G) (hacc' : ∀ t ≤ m + 1,
        msm (x.cts.map sel) ((List.range x.cts.length).map fun i => product cv pp.n (f t) (decompose i pp.n m)) -
        ∑ k ∈ Finset.range m, e t ^ k • sel ((vecG[k]?).getD ⟨0, 0⟩) = z t • E),
      ((x.cts.map sel)[l]?).getD 0 = (∑ t ∈ Finset.range (m + 1), lam t * (z t : ZMod cv.order)) • E := by
    intro sel E hacc'
    let V : Nat → G := fun i => ((x.cts.map sel)[i]?).getD 0
    let Q : Nat → G := fun k => ∑ i ∈ Finset.range (pp.n ^ m), ((((P i)[k]?).getD 0 : ℤ) : ZMod cv.order) • V i -
      sel ((vecG[k]?).getD ⟨0, 0⟩)
    have heq : ∀ t ≤ m + 1, (e t : ZMod cv.order) ^ m • V l + ∑ k ∈ Finset.range m, (e t : ZMod cv.order) ^ k • Q k =
        (z t : ZMod cv.order) • E := by
      intro t ht
      have h := hacc' t ht
      rw [msm_eq_sum _ _ (by simp), List.length_map, hN, cv.cast_smul] at h
      rw [← h]
      have h1 : ∑ i ∈ Finset.range (pp.n ^ m), ((((List.range (pp.n ^ m)).map fun i =>
          product cv pp.n (f t) (decompose i pp.n m))[i]?).getD 0) • (((x.cts.map sel)[i]?).getD 0) =
          ∑ i ∈ Finset.range (pp.n ^ m), ((product cv pp.n (f t) (decompose i pp.n m) : ℤ) : ZMod cv.order) • V i := by
        apply Finset.sum_congr rfl
        intro i hi
        rw [List.getElem?_map, List.getElem?_range (Finset.mem_range.1 hi), cv.cast_smul]
        rfl
      have h2 : ∑ k ∈ Finset.range m, e t ^ k • sel ((vecG[k]?).getD ⟨0, 0⟩) =
          ∑ k ∈ Finset.range m, (e t : ZMod cv.order) ^ k • sel ((vecG[k]?).getD ⟨0, 0⟩) := by
        apply Finset.sum_congr rfl
        intro k _
        rw [cv.cast_smul]; push_cast; rfl
      rw [h1, h2]
      have hc := core (pp.n ^ m) m l hl (e t : ZMod cv.order) V _ _ (fun _ => 0) (0 : G) (hprod t ht)
      simp only [zero_smul, add_zero, smul_zero, sub_zero] at hc
      rw [sub_eq_iff_eq_add] at hc
      rw [hc]
      simp only [Q, smul_sub, Finset.sum_sub_distrib]
      abel
    show V l = _
    have hsum : ∑ t ∈ Finset.range (m + 1), lam t • ((e t : ZMod cv.order) ^ m • V l +
        ∑ k ∈ Finset.range m, (e t : ZMod cv.order) ^ k • Q k) = V l := by
      simp only [smul_add, Finset.sum_add_distrib, Finset.smul_sum, ← mul_smul]
      rw [Finset.sum_comm, ← Finset.sum_smul, hlam m (Nat.le_refl _), if_pos rfl, one_smul]
      have : ∀ k ∈ Finset.range m, ∑ t ∈ Finset.range (m + 1), (lam t * (e t : ZMod cv.order) ^ k) • Q k = 0 := by
        intro k hk
        have hk := Finset.mem_range.1 hk
        rw [← Finset.sum_smul, hlam k (by omega), if_neg (by omega), zero_smul]
      rw [Finset.sum_congr rfl this]
      simp
    rw [← hsum, Finset.sum_smul]
    apply Finset.sum_congr rfl
    intro t ht
    rw [heq t (by have := Finset.mem_range.1 ht; omega), mul_smul]
  have hX := key CT.X x.ek (fun t ht => (hacc t ht).ctX)
  have hY := key CT.Y pp.enc.g (fun t ht => (hacc t ht).ctY)
  have hlt : l < x.cts.length := by rw [hN]; exact hl
  have hv : ∀ a : ZMod cv.order, (((a.val : ℤ)) : ZMod cv.order) = a := by
    intro a; push_cast; exact ZMod.natCast_zmod_val a
  refine ⟨l, fun t => ((lam t).val : ℤ), ?_, ?_⟩
  · intro k hk
    have h := hlam k hk
    have h1 : ((∑ t ∈ Finset.range (m + 1), ((lam t).val : ℤ) * e t ^ k : ℤ) : ZMod cv.order) = ((if k = m then 1 else 0 : ℤ) : ZMod cv.order) := by
      rw [Int.cast_sum]
      rw [Finset.sum_congr rfl (g := fun t => lam t * (e t : ZMod cv.order) ^ k) (fun t _ => by rw [Int.cast_mul, hv]; push_cast; rfl), h]
      split <;> simp
    rw [ZMod.intCast_eq_intCast_iff'] at h1
    rw [h1]
    have : (1 : ℤ) < cv.order := by exact_mod_cast cv.prime.one_lt
    split
    · exact Int.emod_eq_of_lt (by omega) this
    · simp
  rw [List.getElem?_eq_getElem hlt]
  rw [List.getElem?_map, List.getElem?_eq_getElem hlt] at hX hY
  simp only [Option.map_some, Option.getD_some] at hX hY
  unfold Twisted.encPoint
  rw [cv.cast_smul, cv.cast_smul, Int.cast_sum]
  rw [Finset.sum_congr rfl (g := fun t => lam t * (z t : ZMod cv.order)) (fun t _ => by rw [Int.cast_mul, hv]),
    ← hX, ← hY, add_zero]

/-- C33, the part that holds: against a prover who must fix `vec_G` together with the first message, `m + 2` accepting answers to
different challenges (hash functions `H t`) yield, by interpolation of the responses, the randomness of a ciphertext that encrypts
zero — or one of the explicitly computed vectors `relF`, `relT` is a non-trivial relation between the commitment generators.
Missing: `Prove`/`Verify` hash neither `vec_G` nor the ciphertexts, so a real prover need not fix them, and the full statement is
false (`encRelation_forgery`). -/
theorem encRelation_special_sound_partial (cv : Curve G) (flog : Nat → Nat → Nat) (pp : PP G) (x : Instance G) (m : Nat)
    (hn : 0 < pp.n) (hnq : pp.n ≤ cv.order) (hm : 0 < m) (hN : x.cts.length = pp.n ^ m) (hflog : flog x.cts.length pp.n = m)
    (hh : m * pp.n ≤ pp.com.vecH.length)
    (H : Nat → Bytes → ℤ) (tr : Bytes) (B A C D : G) (vecG : List (CT G)) (hG : m ≤ vecG.length)
    (z zA zC : Nat → ℤ) (f : Nat → List ℤ) (hf : ∀ t ≤ m + 1, (f t).length = m * pp.n)
    (hacc : ∀ t ≤ m + 1, ∃ o, verify cv flog pp (H t) x tr ⟨B, z t, vecG, A, C, D, f t, zA t, zC t⟩ = some (true, o))
    (hdist : ∀ s ≤ m + 1, ∀ t ≤ m + 1, H s (addFirst cv tr B A C D) % cv.order = H t (addFirst cv tr B A C D) % cv.order → s = t) :
    let e := fun t => H t (addFirst cv tr B A C D)
    (∃ (l : Nat) (lam : Nat → ℤ),
      (∀ k ≤ m, (∑ t ∈ Finset.range (m + 1), lam t * e t ^ k) % cv.order = if k = m then 1 else 0) ∧
      x.cts[l]? = some (Twisted.encPoint pp.enc x.ek 0 (∑ t ∈ Finset.range (m + 1), lam t * z t))) ∨
    (∃ t ≤ m + 1, IsRelation cv pp.com (relF (m * pp.n) e zA f t)) ∨ IsRelation cv pp.com (relT (m * pp.n) e zC f) := by
  apply accepts_extract cv pp x m hn hnq hm hN hh B A C D vecG (fun t => H t (addFirst cv tr B A C D)) z zA zC f hf
  · intro t ht
    obtain ⟨b, hv, hb⟩ := verify_iff cv flog pp (H t) x tr ⟨B, z t, vecG, A, C, D, f t, zA t, zC t⟩ m hflog hm hn (hf t ht) hG hh
    obtain ⟨o, ho⟩ := hacc t ht
    rw [hv, Option.some.injEq, Prod.mk.injEq] at ho
    exact hb.1 ho.1
  · intro s hs t ht h
    rw [ZMod.intCast_eq_intCast_iff'] at h
    exact hdist s hs t ht h

/-- The hypotheses are met by the honest prover answering three challenges (`n = 2`, `m = 1`, index 1, `r = 3`). -/
example : ∀ t : Fin 3, ((prove toyCurve (fun _ _ => 1) (⟨⟨1, [2, 3], 2⟩, ⟨1, 3⟩, 2⟩ : PP (ZMod 7)) (fun _ => t.val)
      ⟨[⟨1, 1⟩, ⟨1, 3⟩], 5⟩ 1 3 ⟨1, 2, 3, 4, [[5, 6]], [2]⟩ []).bind fun p =>
      (verify toyCurve (fun _ _ => 1) ⟨⟨1, [2, 3], 2⟩, ⟨1, 3⟩, 2⟩ (fun _ => t.val) ⟨[⟨1, 1⟩, ⟨1, 3⟩], 5⟩ [] p.1).map Prod.fst)
      = some true := by decide

end Kunlun.EncRelation
