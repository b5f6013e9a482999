import Mathlib.LinearAlgebra.Lagrange
import Verif.Model.BulletProve
import Verif.Model.IpExtract
/-!
The extractor of the bulletproof, on top of that of the inner-product argument: from accepting answers to several choices of every
challenge it computes openings of the commitments and the bits of the opened values, or the list of relations it computes on the way
contains a non-trivial relation between the generators. Everything is an explicit formula in the answers.
-/

namespace Kunlun.BulletExtract

open Kunlun.IpExtract Kunlun.Bullet

/-- The answers to all choices of the challenges, in the order in which the code asks for them: `A`, then `y`, then `S`, then `z`, then
`T1` and `T2`, then `x`, then the challenge `e` of the inner-product part, and then everything else. A branch is named by the numbers of the
challenges asked. -/
structure Ans (F M : Type) where
  A : M
  y : ℕ → F
  S : ℕ → M
  z : ℕ → ℕ → F
  T1 : ℕ → ℕ → M
  T2 : ℕ → ℕ → M
  x : ℕ → ℕ → ℕ → F
  e : ℕ → ℕ → ℕ → ℕ → F
  taux : ℕ → ℕ → ℕ → ℕ → F
  mu : ℕ → ℕ → ℕ → ℕ → F
  tx : ℕ → ℕ → ℕ → ℕ → F
  ip : ℕ → ℕ → ℕ → ℕ → Tree F M

/-- Apply a function to all scalars. -/
def Ans.map {F F' M : Type} (f : F → F') (a : Ans F M) : Ans F' M where
  A := a.A
  y s := f (a.y s)
  S := a.S
  z s i := f (a.z s i)
  T1 := a.T1
  T2 := a.T2
  x s i c := f (a.x s i c)
  e s i c d := f (a.e s i c d)
  taux s i c d := f (a.taux s i c d)
  mu s i c d := f (a.mu s i c d)
  tx s i c d := f (a.tx s i c d)
  ip s i c d := (a.ip s i c d).map f

/-- The generators of the range proof. -/
structure Gens (M : Type) where
  G : ℕ → M
  H : ℕ → M
  g : M
  h : M
  u : M

variable {F : Type} [Field F] {M : Type} [AddCommGroup M] [Module F M]

/-! ### Polynomials -/

/-- A polynomial with more zeros than its degree vanishes. -/
theorem poly_zero (K : ℕ) (t f : ℕ → F) (ht : ∀ i < K, ∀ j < K, t i = t j → i = j)
    (h : ∀ i < K, ∑ m ∈ Finset.range K, f m * t i ^ m = 0) : ∀ m < K, f m = 0 := by
  intro m hm
  have hp : (∑ m ∈ Finset.range K, Polynomial.monomial m (f m)) = 0 := by
    apply Polynomial.eq_zero_of_degree_lt_of_eval_index_eq_zero (s := Finset.range K) (v := t)
    · intro i hi j hj hij
      exact ht i (by simpa using hi) j (by simpa using hj) hij
    · rw [Finset.card_range]
      apply (Polynomial.degree_sum_le _ _).trans_lt
      rw [Finset.sup_lt_iff (by exact WithBot.bot_lt_coe K)]
      intro b hb
      apply (Polynomial.degree_monomial_le _ _).trans_lt
      exact_mod_cast Finset.mem_range.1 hb
    · intro i hi
      rw [Polynomial.eval_finset_sum]
      simpa [Polynomial.eval_monomial] using h i (Finset.mem_range.1 hi)
  have := congrArg (fun p => Polynomial.coeff p m) hp
  simpa [Polynomial.finset_sum_coeff, Polynomial.coeff_monomial, hm] using this

/-- Coefficient weights of the Lagrange polynomials invert the powers. -/
theorem lagrange_weights (n : ℕ) (z : ℕ → F) (hz : ∀ i < n, ∀ j < n, z i = z j → i = j) (j m : ℕ) (hm : m < n) :
    ∑ i ∈ Finset.range n, (Lagrange.basis (Finset.range n) z i).coeff j * z i ^ m = if m = j then 1 else 0 := by
  have h := Lagrange.eq_interpolate (s := Finset.range n) (v := z) (f := (Polynomial.X : Polynomial F) ^ m)
    (fun i hi k hk hik => hz i (by simpa using hi) k (by simpa using hk) hik)
    (by rw [Polynomial.degree_X_pow, Finset.card_range]; exact_mod_cast hm)
  have := congrArg (fun p => Polynomial.coeff p j) h
  simp only [Polynomial.coeff_X_pow, Lagrange.interpolate_apply, Polynomial.finset_sum_coeff, Polynomial.coeff_C_mul,
    Polynomial.eval_pow, Polynomial.eval_X] at this
  rw [show (if m = j then (1 : F) else 0) = if j = m then 1 else 0 by simp [eq_comm], this]
  exact Finset.sum_congr rfl fun i _ => mul_comm _ _

/-- If the constant coefficient of `⟨l(X), r(X)⟩` is what the verifier expects for enough `y` and `z`, the committed vectors are bits
and the values are the numbers with these bits. -/
theorem bits_of_answers (R n : ℕ) (hR : 0 < R) (aL aR v : ℕ → F) (y : ℕ → F) (z : ℕ → ℕ → F)
    (hy : ∀ i < R * n, ∀ j < R * n, y i = y j → i = j) (hz : ∀ s < R * n, ∀ i < n + 2, ∀ j < n + 2, z s i = z s j → i = j)
    (h : ∀ s < R * n, ∀ i < n + 2, ∑ k ∈ Finset.range (R * n), (aL k - z s i) * (y s ^ k * aR k + rrF R (y s) (z s i) k) =
      delta R n (y s) (z s i) + ∑ j ∈ Finset.range n, z s i ^ (j + 2) * v j) :
    (∀ k < R * n, aL k * aR k = 0 ∧ aR k = aL k - 1) ∧
    ((R * n) ≠ 0 → ∀ j < n, v j = ∑ i ∈ Finset.range R, aL (j * R + i) * 2 ^ i) := by
  have hco : ∀ s < R * n, (∑ k ∈ Finset.range (R * n), aL k * aR k * y s ^ k = 0) ∧
      (∑ k ∈ Finset.range (R * n), (aL k - aR k - 1) * y s ^ k = 0) ∧
      ∀ j < n, ∑ i ∈ Finset.range R, aL (j * R + i) * 2 ^ i - v j = 0 := by
    intro s hs
    have hp := poly_zero (n + 2) (z s) (fun m => if m = 0 then ∑ k ∈ Finset.range (R * n), aL k * aR k * y s ^ k else
      if m = 1 then ∑ k ∈ Finset.range (R * n), (aL k - aR k - 1) * y s ^ k else
        ∑ i ∈ Finset.range R, aL ((m - 2) * R + i) * 2 ^ i - v (m - 2)) (hz s hs) (by
      intro i hi
      have h0 := h s hs i hi
      generalize z s i = w at h0
      generalize y s = u at h0 ⊢
      rw [Finset.sum_range_succ', Finset.sum_range_succ']
      simp only [Nat.add_eq_zero_iff, one_ne_zero, and_false, if_false, Nat.add_eq_right, if_true, zero_add, pow_zero, mul_one, pow_one,
        show ∀ m : ℕ, m + 1 + 1 - 2 = m from fun m => by omega]
      have e1 : ∀ k, (aL k - w) * (u ^ k * aR k + rrF R u w k) = aL k * aR k * u ^ k + w * ((aL k - aR k - 1) * u ^ k) +
          (w - w ^ 2) * u ^ k + (aL ((k / R) * R + k % R) * 2 ^ (k % R) * w ^ (k / R + 2) - w ^ (k / R + 3) * 2 ^ (k % R)) := by
        intro k
        rw [Nat.div_add_mod' k R]
        unfold rrF
        ring
      rw [Finset.sum_congr rfl fun k _ => e1 k, Finset.sum_add_distrib, Finset.sum_add_distrib, Finset.sum_add_distrib,
        ← Finset.mul_sum, ← Finset.mul_sum,
        sum_blocks R n hR (fun j i => aL (j * R + i) * 2 ^ i * w ^ (j + 2) - w ^ (j + 3) * 2 ^ i)] at h0
      unfold delta at h0
      have e2 : ∀ j, ∑ i ∈ Finset.range R, (aL (j * R + i) * 2 ^ i * w ^ (j + 2) - w ^ (j + 3) * 2 ^ i) =
          w ^ (j + 2) * ∑ i ∈ Finset.range R, aL (j * R + i) * 2 ^ i - w ^ (j + 3) * ∑ i ∈ Finset.range R, 2 ^ i := by
        intro j
        rw [Finset.sum_sub_distrib, Finset.mul_sum, Finset.mul_sum]
        congr 1
        exact Finset.sum_congr rfl fun i _ => by ring
      rw [Finset.sum_congr rfl fun j _ => e2 j, Finset.sum_sub_distrib, ← Finset.sum_mul] at h0
      have e3 : ∑ m ∈ Finset.range n, (∑ i ∈ Finset.range R, aL (m * R + i) * 2 ^ i - v m) * w ^ (m + 1 + 1) =
          ∑ m ∈ Finset.range n, w ^ (m + 2) * ∑ i ∈ Finset.range R, aL (m * R + i) * 2 ^ i - ∑ m ∈ Finset.range n, w ^ (m + 2) * v m := by
        rw [← Finset.sum_sub_distrib]
        exact Finset.sum_congr rfl fun m _ => by ring
      rw [e3]
      linear_combination h0)
    refine ⟨?_, ?_, ?_⟩
    · simpa using hp 0 (by omega)
    · simpa using hp 1 (by omega)
    · intro j hj
      simpa using hp (j + 2) (by omega)
  constructor
  · intro k hk
    have h1 := poly_zero (R * n) y (fun k => aL k * aR k) hy (fun s hs => (hco s hs).1) k hk
    have h2 := poly_zero (R * n) y (fun k => aL k - aR k - 1) hy (fun s hs => (hco s hs).2.1) k hk
    exact ⟨h1, by linear_combination -h2⟩
  · intro h0 j hj
    have := (hco 0 (by omega)).2.2 j hj
    linear_combination -this

/-! ### Representations -/

/-- Coefficients with respect to the vectors `G`, `H` and `u`, then of `g`, then of `h`. -/
abbrev BRep (F : Type) := Rep F × F × F

/-- The point with given coefficients. -/
def bev (N : ℕ) (B : Gens M) (ρ : BRep F) : M := ev N B.G B.H B.u ρ.1 + ρ.2.1 • B.g + ρ.2.2 • B.h

/-- All coefficients that count are zero. -/
def BTrivial (N : ℕ) (ρ : BRep F) : Prop := Trivial N ρ.1 ∧ ρ.2.1 = 0 ∧ ρ.2.2 = 0

theorem bev_add (N : ℕ) (B : Gens M) (ρ σ : BRep F) : bev N B (ρ + σ) = bev N B ρ + bev N B σ := by
  simp only [bev, Prod.fst_add, Prod.snd_add, ev_add, add_smul]
  abel

theorem bev_sub (N : ℕ) (B : Gens M) (ρ σ : BRep F) : bev N B (ρ - σ) = bev N B ρ - bev N B σ := by
  simp only [bev, Prod.fst_sub, Prod.snd_sub, ev_sub, sub_smul]
  abel

theorem bev_smul (N : ℕ) (B : Gens M) (c : F) (ρ : BRep F) : bev N B (c • ρ) = c • bev N B ρ := by
  simp only [bev, Prod.smul_fst, Prod.smul_snd, ev_smul, smul_eq_mul, mul_smul, smul_add]

/-- Coefficients of `g` and `h` only. -/
def gh (p : F × F) : BRep F := (0, p.1, p.2)

theorem bev_gh (N : ℕ) (B : Gens M) (p : F × F) : bev N B (gh p) = p.1 • B.g + p.2 • B.h := by
  simp [bev, gh, ev]

/-! ### The answers -/

/-- The challenges are usable: `R n` different `y`, `n + 2` different `z`, three different `x`, two different `e`, and four per round. -/
structure Ans.Good (R n k : ℕ) (a : Ans F M) : Prop where
  y0 : ∀ s < R * n, a.y s ≠ 0
  y : ∀ s < R * n, ∀ s' < R * n, a.y s = a.y s' → s = s'
  z0 : ∀ i < n + 2, a.z 0 i ≠ 0
  z : ∀ s < R * n, ∀ i < n + 2, ∀ j < n + 2, a.z s i = a.z s j → i = j
  x : ∀ s < R * n, ∀ i < n + 2, ∀ c < 3, ∀ d < 3, a.x s i c = a.x s i d → c = d
  e0 : ∀ s < R * n, ∀ i < n + 2, ∀ c < 3, ∀ d < 2, a.e s i c d ≠ 0
  e : ∀ s < R * n, ∀ i < n + 2, ∀ c < 3, a.e s i c 0 ≠ a.e s i c 1
  ip : ∀ s < R * n, ∀ i < n + 2, ∀ c < 3, ∀ d < 2, (a.ip s i c d).Good k

/-- The point handed to the inner-product argument. -/
def ipPoint (R N : ℕ) (B : Gens M) (a : Ans F M) (s i c d : ℕ) : M :=
  (∑ j ∈ Finset.range N, (-a.z s i) • B.G j) + (∑ j ∈ Finset.range N, (rrF R (a.y s) (a.z s i) j * (a.y s)⁻¹ ^ j) • B.H j) +
    a.A + a.x s i c • a.S s - a.mu s i c d • B.h + a.tx s i c d • a.e s i c d • B.u

/-- All answers are accepted. -/
structure Ans.Accepted (R n k : ℕ) (B : Gens M) (C : ℕ → M) (a : Ans F M) : Prop where
  first : ∀ s < R * n, ∀ i < n + 2, ∀ c < 3, ∀ d < 2,
    (∑ j ∈ Finset.range n, a.z s i ^ (j + 2) • C j) + delta R n (a.y s) (a.z s i) • B.h + a.x s i c • a.T1 s i + a.x s i c ^ 2 • a.T2 s i =
      a.taux s i c d • B.g + a.tx s i c d • B.h
  second : ∀ s < R * n, ∀ i < n + 2, ∀ c < 3, ∀ d < 2,
    Acc (a.e s i c d • B.u) k B.G (fun j => (a.y s)⁻¹ ^ j • B.H j) (ipPoint R (2 ^ k) B a s i c d) (a.ip s i c d)

/-! ### What is computed from the answers -/

section
variable (R n k : ℕ) (a : Ans F M)

/-- Coefficients of `A + x S` in a branch. -/
def repAS (s i c d : ℕ) : BRep F :=
  let w := wit k (a.ip s i c d)
  ((fun j => w.1 j + a.z s i, fun j => (w.2 j - rrF R (a.y s) (a.z s i) j) * (a.y s)⁻¹ ^ j,
    (∑ j ∈ Finset.range (2 ^ k), w.1 j * w.2 j - a.tx s i c d) * a.e s i c d), 0, a.mu s i c d)

/-- Coefficients of `S`. -/
def repS (s i : ℕ) : BRep F := (a.x s i 0 - a.x s i 1)⁻¹ • (repAS R k a s i 0 0 - repAS R k a s i 1 0)

/-- Coefficients of `A`. -/
def repA : BRep F := repAS R k a 0 0 0 0 - a.x 0 0 0 • repS R k a 0 0

/-- The three challenges `x` of a branch (the fourth entry is not used). -/
def xs (s i : ℕ) (c : Fin 4) : F := a.x s i c

/-- `taux` and `tx` in the branches of the three challenges `x`. -/
def txs (s i : ℕ) (c : Fin 4) : F × F := (a.taux s i c 0, a.tx s i c 0)

/-- Opening of the combination `Σ z^{j+2} C_j`. -/
def opZ (s i : ℕ) : F × F := c0 (xs a s i) (txs a s i) - (0, delta R n (a.y s) (a.z s i))

/-- Opening of the `j`-th commitment. -/
noncomputable def opC (j : ℕ) : F × F :=
  ∑ i ∈ Finset.range n, ((Lagrange.basis (Finset.range n) (a.z 0) i).coeff j * (a.z 0 i)⁻¹ ^ 2) • opZ R n a 0 i

/-- The relations computed in one branch. -/
noncomputable def relsAt (s i c d : ℕ) : List (BRep F) :=
  (rels k (a.ip s i c d)).map (fun ρ => ((ρ.1, fun j => ρ.2.1 j * (a.y s)⁻¹ ^ j, ρ.2.2 * a.e s i c d), 0, 0)) ++
  [repAS R k a s i c d - repA R k a - a.x s i c • repS R k a s i,
   gh ((a.taux s i c d, a.tx s i c d) -
    (a.x s i c ^ 2 • c2 (xs a s i) (txs a s i) + a.x s i c • c1 (xs a s i) (txs a s i) + c0 (xs a s i) (txs a s i))),
   gh ((∑ j ∈ Finset.range n, a.z s i ^ (j + 2) • opC R n a j) - opZ R n a s i)]

/-- All relations computed. -/
noncomputable def allRels : List (BRep F) :=
  (List.range (R * n)).flatMap fun s => (List.range (n + 2)).flatMap fun i => (List.range 3).flatMap fun c => (List.range 2).flatMap fun d =>
    relsAt R n k a s i c d

/-- The extracted value: the number whose bits are the coefficients of `A`. -/
noncomputable def value (j : ℕ) : ℕ :=
  haveI := Classical.decEq F
  ∑ i ∈ Finset.range R, if (repA R k a).1.1 (j * R + i) = 1 then 2 ^ i else 0

end

theorem mem_allRels {R n k : ℕ} {a : Ans F M} {s i c d : ℕ} (hs : s < R * n) (hi : i < n + 2) (hc : c < 3) (hd : d < 2) {ρ : BRep F}
    (h : ρ ∈ relsAt R n k a s i c d) : ρ ∈ allRels R n k a := by
  simp only [allRels, List.mem_flatMap, List.mem_range]
  exact ⟨s, hs, i, hi, c, hc, d, hd, h⟩

/-- Relations between `G`, `y^{-i} H_i` and `e u` are relations between `G`, `H` and `u`. -/
theorem bev_scaled (N : ℕ) (B : Gens M) (y e : F) (ρ : Rep F) :
    bev N B ((ρ.1, fun j => ρ.2.1 j * y ^ j, ρ.2.2 * e), 0, 0) = ev N B.G (fun j => y ^ j • B.H j) (e • B.u) ρ := by
  simp only [bev, ev, mul_smul, zero_smul, add_zero]

/-- The point with given coefficients of `g` and `h`. -/
def phi (B : Gens M) (p : F × F) : M := p.1 • B.g + p.2 • B.h

theorem phi_c (B : Gens M) (ξ : Fin 4 → F) (v : Fin 4 → F × F) :
    phi B (c2 ξ v) = c2 ξ (fun i => phi B (v i)) ∧ phi B (c1 ξ v) = c1 ξ (fun i => phi B (v i)) ∧
    phi B (c0 ξ v) = c0 ξ (fun i => phi B (v i)) := by
  refine ⟨?_, ?_, ?_⟩ <;>
    (simp only [phi, c2, c1, c0, Prod.fst_add, Prod.snd_add, Prod.smul_fst, Prod.smul_snd, smul_eq_mul, add_smul, mul_smul, smul_add]; abel)

theorem phi_sub (B : Gens M) (p q : F × F) : phi B (p - q) = phi B p - phi B q := by
  simp only [phi, Prod.fst_sub, Prod.snd_sub, sub_smul]; abel

theorem phi_add (B : Gens M) (p q : F × F) : phi B (p + q) = phi B p + phi B q := by
  simp only [phi, Prod.fst_add, Prod.snd_add, add_smul]; abel

theorem phi_smul (B : Gens M) (c : F) (p : F × F) : phi B (c • p) = c • phi B p := by
  simp only [phi, Prod.smul_fst, Prod.smul_snd, smul_eq_mul, mul_smul, smul_add]

theorem phi_sum (B : Gens M) (n : ℕ) (f : ℕ → F × F) : phi B (∑ i ∈ Finset.range n, f i) = ∑ i ∈ Finset.range n, phi B (f i) := by
  induction n with
  | zero => simp [phi]
  | succ n ih => rw [Finset.sum_range_succ, phi_add, ih, Finset.sum_range_succ]

theorem bits_lt (R : ℕ) (P : ℕ → Prop) [DecidablePred P] : ∑ i ∈ Finset.range R, (if P i then 2 ^ i else 0) < 2 ^ R := by
  induction R with
  | zero => simp
  | succ R ih =>
    rw [Finset.sum_range_succ, pow_succ]
    split <;> omega

variable {R n k : ℕ} {B : Gens M} {C : ℕ → M} {a : Ans F M}

/-- In every branch the inner-product extractor opens `A + x S`, unless it finds a relation. -/
theorem repAS_spec (hpow : R * n = 2 ^ k) (hg : a.Good R n k) (ha : a.Accepted R n k B C)
    (hno : ∀ ρ ∈ allRels R n k a, bev (2 ^ k) B ρ = 0 → BTrivial (2 ^ k) ρ) (s i c d : ℕ) (hs : s < R * n) (hi : i < n + 2)
    (hc : c < 3) (hd : d < 2) : bev (2 ^ k) B (repAS R k a s i c d) = a.A + a.x s i c • a.S s := by
  have hip := extract_spec _ k _ _ _ _ (hg.ip s hs i hi c hc d hd) (ha.second s hs i hi c hc d hd)
  rcases hip with hip | ⟨ρ, h1, h2, h3⟩
  · unfold ipPoint at hip
    simp only [ev, smul_smul, neg_smul, Finset.sum_neg_distrib] at hip
    simp only [bev, repAS, ev, add_smul, sub_mul, sub_smul, Finset.sum_add_distrib, Finset.sum_sub_distrib, zero_smul, add_zero]
    rw [← sub_eq_zero] at hip ⊢
    rw [← neg_eq_zero, ← hip]
    abel
  · exfalso
    have h4 := hno _ (mem_allRels hs hi hc hd (List.mem_append_left _ (List.mem_map.2 ⟨ρ, h1, rfl⟩))) (by rw [bev_scaled, h3])
    apply h2
    obtain ⟨⟨t1, t2, t3⟩, -, -⟩ := h4
    refine ⟨t1, fun j hj => ?_, ?_⟩
    · exact (mul_eq_zero.1 (t2 j hj)).resolve_right (pow_ne_zero _ (inv_ne_zero (hg.y0 s hs)))
    · exact (mul_eq_zero.1 t3).resolve_right (hg.e0 s hs i hi c hc d hd)

theorem repS_spec (hpow : R * n = 2 ^ k) (hg : a.Good R n k) (ha : a.Accepted R n k B C)
    (hno : ∀ ρ ∈ allRels R n k a, bev (2 ^ k) B ρ = 0 → BTrivial (2 ^ k) ρ) (s i : ℕ) (hs : s < R * n) (hi : i < n + 2) :
    bev (2 ^ k) B (repS R k a s i) = a.S s := by
  have hx : a.x s i 0 - a.x s i 1 ≠ 0 := sub_ne_zero.2 fun h => absurd (hg.x s hs i hi 0 (by omega) 1 (by omega) h) (by omega)
  rw [repS, bev_smul, bev_sub, repAS_spec hpow hg ha hno s i 0 0 hs hi (by omega) (by omega),
    repAS_spec hpow hg ha hno s i 1 0 hs hi (by omega) (by omega), add_sub_add_left_eq_sub, ← sub_smul, smul_smul, inv_mul_cancel₀ hx, one_smul]

theorem repA_spec (hpow : R * n = 2 ^ k) (hg : a.Good R n k) (ha : a.Accepted R n k B C)
    (hno : ∀ ρ ∈ allRels R n k a, bev (2 ^ k) B ρ = 0 → BTrivial (2 ^ k) ρ) : bev (2 ^ k) B (repA R k a) = a.A := by
  have h0 : 0 < R * n := by rw [hpow]; exact Nat.pow_pos (by omega)
  rw [repA, bev_sub, bev_smul, repS_spec hpow hg ha hno 0 0 h0 (by omega), repAS_spec hpow hg ha hno 0 0 0 0 h0 (by omega) (by omega) (by omega),
    add_sub_cancel_right]

/-- What the answers of a branch have to be. -/
theorem branch (hpow : R * n = 2 ^ k) (hg : a.Good R n k) (ha : a.Accepted R n k B C)
    (hno : ∀ ρ ∈ allRels R n k a, bev (2 ^ k) B ρ = 0 → BTrivial (2 ^ k) ρ) (s i c d : ℕ) (hs : s < R * n) (hi : i < n + 2)
    (hc : c < 3) (hd : d < 2) :
    (∀ j < 2 ^ k, (wit k (a.ip s i c d)).1 j = (repA R k a).1.1 j - a.z s i + a.x s i c * (repS R k a s i).1.1 j) ∧
    (∀ j < 2 ^ k, (wit k (a.ip s i c d)).2 j = a.y s ^ j * ((repA R k a).1.2.1 j + a.x s i c * (repS R k a s i).1.2.1 j) +
      rrF R (a.y s) (a.z s i) j) ∧
    (∑ j ∈ Finset.range (2 ^ k), (wit k (a.ip s i c d)).1 j * (wit k (a.ip s i c d)).2 j - a.tx s i c d) * a.e s i c d =
      (repA R k a).1.2.2 + a.x s i c * (repS R k a s i).1.2.2 := by
  have h := hno (repAS R k a s i c d - repA R k a - a.x s i c • repS R k a s i)
    (mem_allRels hs hi hc hd (List.mem_append_right _ (by simp)))
    (by rw [bev_sub, bev_sub, bev_smul, repAS_spec hpow hg ha hno s i c d hs hi hc hd, repA_spec hpow hg ha hno,
          repS_spec hpow hg ha hno s i hs hi]; abel)
  obtain ⟨⟨t1, t2, t3⟩, -, -⟩ := h
  refine ⟨fun j hj => ?_, fun j hj => ?_, ?_⟩
  · have := t1 j hj
    simp only [Prod.fst_sub, Prod.smul_fst, Pi.sub_apply, Pi.smul_apply, smul_eq_mul] at this
    simp only [repAS] at this
    linear_combination this
  · have := t2 j hj
    simp only [Prod.fst_sub, Prod.snd_sub, Prod.smul_fst, Prod.smul_snd, Pi.sub_apply, Pi.smul_apply, smul_eq_mul] at this
    simp only [repAS] at this
    have hy : (a.y s)⁻¹ ^ j * a.y s ^ j = 1 := by rw [← mul_pow, inv_mul_cancel₀ (hg.y0 s hs), one_pow]
    linear_combination (a.y s ^ j) * this - ((wit k (a.ip s i c d)).2 j - rrF R (a.y s) (a.z s i) j) * hy
  · have := t3
    simp only [Prod.fst_sub, Prod.snd_sub, Prod.smul_fst, Prod.smul_snd, smul_eq_mul] at this
    simp only [repAS] at this
    linear_combination this

theorem xs_inj (hg : a.Good R n k) (s i : ℕ) (hs : s < R * n) (hi : i < n + 2) (c d : Fin 4) (hc : c < 3) (hd : d < 3) (hcd : c ≠ d) :
    xs a s i c ≠ xs a s i d := by
  intro h
  have := hg.x s hs i hi c hc d hd h
  exact hcd (Fin.ext this)

/-- The interpolated openings open the points sent. -/
theorem interp_spec (hg : a.Good R n k) (ha : a.Accepted R n k B C) (s i : ℕ) (hs : s < R * n) (hi : i < n + 2) :
    phi B (c2 (xs a s i) (txs a s i)) = a.T2 s i ∧ phi B (c1 (xs a s i) (txs a s i)) = a.T1 s i ∧
    phi B (opZ R n a s i) = ∑ j ∈ Finset.range n, a.z s i ^ (j + 2) • C j := by
  obtain ⟨h1, h2, h3⟩ := phi_c B (xs a s i) (txs a s i)
  obtain ⟨u1, u2, u3⟩ := interp_unique (ξ := xs a s i) (fun c => phi B (txs a s i c)) (fun c d hc hd hcd => xs_inj hg s i hs hi c d hc hd hcd)
    (a.T2 s i) (a.T1 s i) ((∑ j ∈ Finset.range n, a.z s i ^ (j + 2) • C j) + delta R n (a.y s) (a.z s i) • B.h) (by
      intro c hc
      have := ha.first s hs i hi c hc 0 (by omega)
      simp only [phi, txs, xs]
      rw [← this]
      abel)
  refine ⟨by rw [h1, u1], by rw [h2, u2], ?_⟩
  rw [opZ, phi_sub, h3, u3]
  simp [phi]

/-- The `j`-th commitment is opened by the weighted sum. -/
theorem opC_spec (hpow : R * n = 2 ^ k) (hg : a.Good R n k) (ha : a.Accepted R n k B C) (j : ℕ) (hj : j < n) : phi B (opC R n a j) = C j := by
  have h0 : 0 < R * n := by rw [hpow]; exact Nat.pow_pos (by omega)
  rw [opC, phi_sum]
  have e1 : ∀ i ∈ Finset.range n, phi B (((Lagrange.basis (Finset.range n) (a.z 0) i).coeff j * (a.z 0 i)⁻¹ ^ 2) • opZ R n a 0 i) =
      ∑ m ∈ Finset.range n, ((Lagrange.basis (Finset.range n) (a.z 0) i).coeff j * a.z 0 i ^ m) • C m := by
    intro i hi
    have hi' := Finset.mem_range.1 hi
    rw [phi_smul, (interp_spec hg ha 0 i h0 (by omega)).2.2, Finset.smul_sum]
    apply Finset.sum_congr rfl
    intro m _
    rw [smul_smul]
    congr 1
    have := hg.z0 i (by omega)
    field_simp
    ring
  rw [Finset.sum_congr rfl e1, Finset.sum_comm]
  have e2 : ∀ m ∈ Finset.range n, ∑ i ∈ Finset.range n, ((Lagrange.basis (Finset.range n) (a.z 0) i).coeff j * a.z 0 i ^ m) • C m =
      (if m = j then (1 : F) else 0) • C m := by
    intro m hm
    rw [← Finset.sum_smul, lagrange_weights n (a.z 0) (fun i hi l hl h => hg.z 0 h0 i (by omega) l (by omega) h) j m (Finset.mem_range.1 hm)]
  rw [Finset.sum_congr rfl e2, Finset.sum_eq_single j]
  · simp
  · intro m _ hm
    simp [hm]
  · intro h
    exact absurd (Finset.mem_range.2 hj) h

/-- The constant coefficient of the polynomial is the inner product of the constant vectors. -/
theorem const_coeff (hpow : R * n = 2 ^ k) (hg : a.Good R n k) (ha : a.Accepted R n k B C)
    (hno : ∀ ρ ∈ allRels R n k a, bev (2 ^ k) B ρ = 0 → BTrivial (2 ^ k) ρ) (s i : ℕ) (hs : s < R * n) (hi : i < n + 2) :
    (c0 (xs a s i) (txs a s i)).2 = ∑ j ∈ Finset.range (2 ^ k), ((repA R k a).1.1 j - a.z s i) *
      (a.y s ^ j * (repA R k a).1.2.1 j + rrF R (a.y s) (a.z s i) j) := by
  obtain ⟨p2, p1, p0⟩ := interp_spec hg ha s i hs hi
  have ht : ∀ c < 3, ∀ d < 2, a.tx s i c d = a.x s i c ^ 2 * (c2 (xs a s i) (txs a s i)).2 + a.x s i c * (c1 (xs a s i) (txs a s i)).2 +
      (c0 (xs a s i) (txs a s i)).2 := by
    intro c hc d hd
    have h := hno _ (mem_allRels hs hi hc hd (List.mem_append_right _ (List.mem_cons_of_mem _ List.mem_cons_self))) (by
      rw [bev_gh, ← phi, phi_sub, phi_add, phi_add, phi_smul, phi_smul, p2, p1,
        show c0 (xs a s i) (txs a s i) = opZ R n a s i + (0, delta R n (a.y s) (a.z s i)) by rw [opZ, sub_add_cancel], phi_add, p0]
      have := ha.first s hs i hi c hc d hd
      simp only [phi]
      rw [← this]
      module)
    have := h.2.2
    simp only [gh, Prod.snd_sub, Prod.snd_add, Prod.smul_snd, smul_eq_mul] at this
    linear_combination this
  have hq : ∀ c < 3, ∑ j ∈ Finset.range (2 ^ k), ((repA R k a).1.1 j - a.z s i + a.x s i c * (repS R k a s i).1.1 j) *
      (a.y s ^ j * ((repA R k a).1.2.1 j + a.x s i c * (repS R k a s i).1.2.1 j) + rrF R (a.y s) (a.z s i) j) = a.x s i c ^ 2 *
      (c2 (xs a s i) (txs a s i)).2 + a.x s i c * (c1 (xs a s i) (txs a s i)).2 + (c0 (xs a s i) (txs a s i)).2 := by
    intro c hc
    have hb : ∀ d < 2, (∑ j ∈ Finset.range (2 ^ k), ((repA R k a).1.1 j - a.z s i + a.x s i c * (repS R k a s i).1.1 j) *
        (a.y s ^ j * ((repA R k a).1.2.1 j + a.x s i c * (repS R k a s i).1.2.1 j) + rrF R (a.y s) (a.z s i) j) - (a.x s i c ^ 2 *
        (c2 (xs a s i) (txs a s i)).2 + a.x s i c * (c1 (xs a s i) (txs a s i)).2 + (c0 (xs a s i) (txs a s i)).2)) * a.e s i c d =
        (repA R k a).1.2.2 + a.x s i c * (repS R k a s i).1.2.2 := by
      intro d hd
      obtain ⟨b1, b2, b3⟩ := branch hpow hg ha hno s i c d hs hi hc hd
      rw [← b3, ht c hc d hd]
      congr 2
      apply Finset.sum_congr rfl
      intro j hj
      rw [b1 j (Finset.mem_range.1 hj), b2 j (Finset.mem_range.1 hj)]
    have h0 := hb 0 (by omega)
    have h1 := hb 1 (by omega)
    have := (hg.e s hs i hi c hc)
    exact sub_eq_zero.1 (mul_right_cancel₀ (sub_ne_zero.2 this) (by linear_combination h0 - h1))
  obtain ⟨-, -, q0⟩ := quad_zero (ξ := xs a s i) (fun c d hc hd hcd => xs_inj hg s i hs hi c d hc hd hcd)
    (∑ j ∈ Finset.range (2 ^ k), (repS R k a s i).1.1 j * (a.y s ^ j * (repS R k a s i).1.2.1 j) - (c2 (xs a s i) (txs a s i)).2)
    (∑ j ∈ Finset.range (2 ^ k), (((repA R k a).1.1 j - a.z s i) * (a.y s ^ j * (repS R k a s i).1.2.1 j) +
      (repS R k a s i).1.1 j * (a.y s ^ j * (repA R k a).1.2.1 j + rrF R (a.y s) (a.z s i) j)) - (c1 (xs a s i) (txs a s i)).2)
    (∑ j ∈ Finset.range (2 ^ k), ((repA R k a).1.1 j - a.z s i) * (a.y s ^ j * (repA R k a).1.2.1 j + rrF R (a.y s) (a.z s i) j) -
      (c0 (xs a s i) (txs a s i)).2) (by
    intro c hc
    have h := hq c hc
    rw [show xs a s i c = a.x s i c from rfl]
    have e : ∑ j ∈ Finset.range (2 ^ k), ((repA R k a).1.1 j - a.z s i + a.x s i c * (repS R k a s i).1.1 j) *
        (a.y s ^ j * ((repA R k a).1.2.1 j + a.x s i c * (repS R k a s i).1.2.1 j) + rrF R (a.y s) (a.z s i) j) =
        a.x s i c ^ 2 * ∑ j ∈ Finset.range (2 ^ k), (repS R k a s i).1.1 j * (a.y s ^ j * (repS R k a s i).1.2.1 j) +
        a.x s i c * (∑ j ∈ Finset.range (2 ^ k), (((repA R k a).1.1 j - a.z s i) * (a.y s ^ j * (repS R k a s i).1.2.1 j) +
          (repS R k a s i).1.1 j * (a.y s ^ j * (repA R k a).1.2.1 j + rrF R (a.y s) (a.z s i) j))) +
        ∑ j ∈ Finset.range (2 ^ k), ((repA R k a).1.1 j - a.z s i) * (a.y s ^ j * (repA R k a).1.2.1 j + rrF R (a.y s) (a.z s i) j) := by
      rw [Finset.mul_sum, Finset.mul_sum, ← Finset.sum_add_distrib, ← Finset.sum_add_distrib]
      exact Finset.sum_congr rfl fun j _ => by ring
    rw [e] at h
    linear_combination h)
  exact (sub_eq_zero.1 q0).symm

/-- From accepted answers to all challenges: every commitment is opened to a number below `2^R`, or one of the computed relations between
the generators holds and is not trivial. -/
theorem extract_openings (hpow : R * n = 2 ^ k) (hg : a.Good R n k) (ha : a.Accepted R n k B C) :
    (∀ j < n, C j = (opC R n a j).1 • B.g + ((value R k a j : ℕ) : F) • B.h ∧ value R k a j < 2 ^ R) ∨
    ∃ ρ ∈ allRels R n k a, ¬ BTrivial (2 ^ k) ρ ∧ bev (2 ^ k) B ρ = 0 := by
  by_cases hex : ∃ ρ ∈ allRels R n k a, ¬ BTrivial (2 ^ k) ρ ∧ bev (2 ^ k) B ρ = 0
  · exact Or.inr hex
  have hno : ∀ ρ ∈ allRels R n k a, bev (2 ^ k) B ρ = 0 → BTrivial (2 ^ k) ρ := by
    intro ρ h1 h2
    by_contra h3
    exact hex ⟨ρ, h1, h3, h2⟩
  left
  have h0 : R * n ≠ 0 := by rw [hpow]; exact (Nat.pow_pos (by omega)).ne'
  have hR : 0 < R := Nat.pos_of_ne_zero fun h => h0 (by rw [h, zero_mul])
  have hv : ∀ s < R * n, ∀ i < n + 2, ∑ j ∈ Finset.range n, a.z s i ^ (j + 2) * (opC R n a j).2 = (opZ R n a s i).2 := by
    intro s hs i hi
    have h := hno _ (mem_allRels hs hi (c := 0) (by omega) (d := 0) (by omega)
      (List.mem_append_right _ (List.mem_cons_of_mem _ (List.mem_cons_of_mem _ List.mem_cons_self)))) (by
        rw [bev_gh, ← phi, phi_sub, phi_sum, (interp_spec hg ha s i hs hi).2.2, sub_eq_zero]
        apply Finset.sum_congr rfl
        intro j hj
        rw [phi_smul, opC_spec hpow hg ha j (Finset.mem_range.1 hj)])
    have := h.2.2
    simp only [gh, Prod.snd_sub, Prod.snd_sum, Prod.smul_snd, smul_eq_mul] at this
    exact sub_eq_zero.1 this
  obtain ⟨hb, hval⟩ := bits_of_answers R n hR (repA R k a).1.1 (repA R k a).1.2.1 (fun j => (opC R n a j).2) a.y a.z hg.y hg.z (by
    intro s hs i hi
    rw [hv s hs i hi, hpow, ← const_coeff hpow hg ha hno s i hs hi]
    simp [opZ])
  intro j hj
  have hcast : ((value R k a j : ℕ) : F) = (opC R n a j).2 := by
    rw [hval h0 j hj, value]
    push_cast
    apply Finset.sum_congr rfl
    intro i hi
    have hi' := Finset.mem_range.1 hi
    obtain ⟨b1, b2⟩ := hb (j * R + i) (by nlinarith [Nat.mul_le_mul_right R (show j + 1 ≤ n by omega)])
    rw [b2] at b1
    rcases mul_eq_zero.1 b1 with h | h
    · simp [h]
    · have := sub_eq_zero.1 h
      simp [this]
  refine ⟨?_, ?_⟩
  · rw [hcast]
    exact (opC_spec hpow hg ha j hj).symm
  · unfold value
    exact @bits_lt R (fun i => (repA R k a).1.1 (j * R + i) = 1) (fun i => Classical.decEq F _ _)

end Kunlun.BulletExtract
