import Verif.Model.BulletHide
/-!
A simulator for the aggregated range proof of `zkp/bulletproofs/bullet_proof.hpp`. It is not part of the code: it makes proofs from the
commitments and chosen challenges alone, without any value or blinding factor, and is what the code's `Prove` is compared with.
-/

namespace Kunlun.Bullet

variable {G : Type} [AddCommGroup G] [DecidableEq G] (cv : Curve G)

/-- What the simulator draws: a scalar for `A`, the answers `mu` and `taux`, a scalar for `T2`, and the two vectors. -/
structure SimCoins where
  a : ℤ
  mu : ℤ
  taux : ℤ
  t2 : ℤ
  l : List ℤ
  r : List ℤ

/-- Drawn scalars of the right number and in `[0, order)`. -/
def SimCoins.Ok (q len : Nat) (s : SimCoins) : Prop :=
  s.l.length = len ∧ s.r.length = len ∧ Canon q s.l ∧ Canon q s.r ∧ Canon q [s.a, s.mu, s.taux, s.t2]

/-- `A`, a multiple of `h`. -/
def simA (pp : PP G) (s : SimCoins) : G := s.a • pp.h

/-- `S`, solved from the second check of the verifier. -/
def simS (pp : PP G) (n : Nat) (y z x : ZMod cv.order) (s : SimCoins) : G :=
  haveI := cv.fact
  letI := cv.toModule
  x⁻¹ • (comV cv pp (pp.rangeLen * n) (fun i => seqF cv s.l i + z)
    (fun i => y⁻¹ ^ i * (seqF cv s.r i - z ^ (i / pp.rangeLen + 2) * 2 ^ (i % pp.rangeLen)) - z) s.mu - simA pp s)

/-- `T2`, a multiple of `g`. -/
def simT2 (pp : PP G) (s : SimCoins) : G := s.t2 • pp.g

/-- `T1`, solved from the first check of the verifier. -/
def simT1 (pp : PP G) (C : List G) (y z x : ZMod cv.order) (s : SimCoins) : G :=
  haveI := cv.fact
  letI := cv.toModule
  x⁻¹ • ((s.taux : ZMod cv.order) • pp.g +
    ((∑ i ∈ Finset.range (pp.rangeLen * C.length), seqF cv s.l i * seqF cv s.r i) - delta pp.rangeLen C.length y z) • pp.h -
    (∑ j ∈ Finset.range C.length, z ^ (j + 2) • (C[j]?).getD 0) - x ^ 2 • simT2 pp s)

/-- The simulated proof for the commitments `C` and the challenges `y`, `z`, `x`. The inner-product argument is run on the drawn vectors. -/
def simulate (H : Bytes → ℤ) (pp : PP G) (C : List G) (y z x : ℤ) (s : SimCoins) (tr : Bytes) : Option (Proof G × Bytes) := do
  let A := simA pp s
  let S := simS cv pp C.length y z x s
  let T1 := simT1 cv pp C y z x s
  let T2 := simT2 pp s
  let tx ← BigInt.vecModInnerProduct s.l s.r cv.order
  let t4 := tr ++ cv.toBytes A ++ cv.toBytes S ++ (cv.toBytes T1 ++ cv.toBytes T2) ++ BigInt.toByteString x
  let (ip, tr') ← InnerProduct.prove cv H (ipPP cv pp C.length y (H t4)) s.l s.r t4
  return (⟨A, S, T1, T2, s.taux, s.mu, tx, ip⟩, tr')

/-- The prover's scalars that belong to a simulated proof; `b` are the bits of the values, `ρ` the blinding factors combined with the
powers of `z`, `η` the discrete logarithm of `h` to the base `g`, `κ` that of `⟨b, G⟩ + ⟨b - 1, H⟩` to the base `h`. -/
def unsim (R len : Nat) (y z x : ZMod cv.order) (b : Nat → ZMod cv.order) (ρ η κ : ZMod cv.order) (s : SimCoins) : Coins :=
  haveI := cv.fact
  let sL := fun i => x⁻¹ * (seqF cv s.l i - b i + z)
  let sR := fun i => x⁻¹ * (y⁻¹ ^ i * (seqF cv s.r i - z ^ (i / R + 2) * 2 ^ (i % R)) - z - (b i - 1))
  let tau2 : ZMod cv.order := s.t2 - η * t2F len y sL sR
  ⟨ofF cv (s.a - κ), (List.range len).map fun i => ofF cv (sL i), (List.range len).map fun i => ofF cv (sR i),
    ofF cv (x⁻¹ * (s.mu - (s.a - κ))), ofF cv (x⁻¹ * (s.taux - tau2 * x ^ 2 - ρ)), ofF cv tau2⟩

/-- The simulator's scalars that belong to the prover's. -/
def tosim (R len : Nat) (y z x : ZMod cv.order) (b : Nat → ZMod cv.order) (ρ η κ : ZMod cv.order) (c : Coins) : SimCoins :=
  haveI := cv.fact
  ⟨ofF cv (c.alpha + κ), ofF cv (c.alpha + c.rho * x), ofF cv (c.tau1 * x + c.tau2 * x ^ 2 + ρ),
    ofF cv (c.tau2 + η * t2F len y (seqF cv c.sL) (seqF cv c.sR)),
    (List.range len).map fun i => ofF cv (b i - z + x * seqF cv c.sL i),
    (List.range len).map fun i => ofF cv (r0F R y z b i + x * (y ^ i * seqF cv c.sR i))⟩

theorem canon_map (len : Nat) (f : Nat → ZMod cv.order) : Canon cv.order ((List.range len).map fun i => ofF cv (f i)) := by
  intro a ha
  simp only [List.mem_map] at ha
  obtain ⟨i, _, rfl⟩ := ha
  exact ofF_range cv _

theorem unsim_ok (R len : Nat) (y z x : ZMod cv.order) (b : Nat → ZMod cv.order) (ρ η κ : ZMod cv.order) (s : SimCoins) :
    (unsim cv R len y z x b ρ η κ s).Ok cv.order len := by
  refine ⟨by simp [unsim], by simp [unsim], canon_map cv _ _, canon_map cv _ _, ?_⟩
  intro a ha
  simp only [unsim, List.mem_cons, List.not_mem_nil, or_false] at ha
  rcases ha with rfl | rfl | rfl | rfl <;> exact ofF_range cv _

theorem tosim_ok (R len : Nat) (y z x : ZMod cv.order) (b : Nat → ZMod cv.order) (ρ η κ : ZMod cv.order) (c : Coins) :
    (tosim cv R len y z x b ρ η κ c).Ok cv.order len := by
  refine ⟨by simp [tosim], by simp [tosim], canon_map cv _ _, canon_map cv _ _, ?_⟩
  intro a ha
  simp only [tosim, List.mem_cons, List.not_mem_nil, or_false] at ha
  rcases ha with rfl | rfl | rfl | rfl <;> exact ofF_range cv _

theorem canon_eq_seq {l l' : List ℤ} {len : Nat} (h : Canon cv.order l) (h' : Canon cv.order l') (hl : l.length = len)
    (hl' : l'.length = len) (he : ∀ i < len, seqF cv l i = seqF cv l' i) : l = l' := by
  apply canon_ext cv h h'
  rw [residues_range hl, residues_range hl']
  apply map_range_congr
  exact he

theorem canon_eq_one {a b : ℤ} (ha : 0 ≤ a ∧ a < cv.order) (hb : 0 ≤ b ∧ b < cv.order) (h : (a : ZMod cv.order) = b) : a = b := by
  have := canon_ext cv (l := [a]) (l' := [b]) (fun t ht => by rw [List.mem_singleton.1 ht]; exact ha)
    (fun t ht => by rw [List.mem_singleton.1 ht]; exact hb) (congrArg (fun t => [t]) h)
  simpa using this

theorem tosim_unsim (R len : Nat) (y z x : ZMod cv.order) (b : Nat → ZMod cv.order) (ρ η κ : ZMod cv.order) (s : SimCoins)
    (hs : s.Ok cv.order len) (hy : y ≠ 0) (hx : x ≠ 0) : tosim cv R len y z x b ρ η κ (unsim cv R len y z x b ρ η κ s) = s := by
  haveI := cv.fact
  have hok := tosim_ok cv R len y z x b ρ η κ (unsim cv R len y z x b ρ η κ s)
  obtain ⟨s1, s2, s3, s4, s5⟩ := hs
  obtain ⟨o1, o2, o3, o4, o5⟩ := hok
  generalize ht : tosim cv R len y z x b ρ η κ (unsim cv R len y z x b ρ η κ s) = t at *
  have hxx := mul_inv_cancel₀ hx
  have uL : ∀ i < len, seqF cv (unsim cv R len y z x b ρ η κ s).sL i = x⁻¹ * (seqF cv s.l i - b i + z) := fun i hi => seqF_map cv len i hi _
  have uR : ∀ i < len, seqF cv (unsim cv R len y z x b ρ η κ s).sR i =
      x⁻¹ * (y⁻¹ ^ i * (seqF cv s.r i - z ^ (i / R + 2) * 2 ^ (i % R)) - z - (b i - 1)) := fun i hi => seqF_map cv len i hi _
  have el : t.l = s.l := by
    refine canon_eq_seq cv o3 s3 o1 s1 fun i hi => ?_
    rw [← ht]
    refine (seqF_map cv len i hi _).trans ?_
    rw [uL i hi]
    linear_combination (seqF cv s.l i - b i + z) * hxx
  have er : t.r = s.r := by
    refine canon_eq_seq cv o4 s4 o2 s2 fun i hi => ?_
    rw [← ht]
    refine (seqF_map cv len i hi _).trans ?_
    rw [uR i hi]
    have hyy : y ^ i * y⁻¹ ^ i = 1 := by rw [← mul_pow, mul_inv_cancel₀ hy, one_pow]
    unfold r0F
    linear_combination (y ^ i * (y⁻¹ ^ i * (seqF cv s.r i - z ^ (i / R + 2) * 2 ^ (i % R)) - z - (b i - 1))) * hxx +
      (seqF cv s.r i - z ^ (i / R + 2) * 2 ^ (i % R)) * hyy
  have ea : t.a = s.a := by
    refine canon_eq_one cv (o5 _ (by simp)) (s5 _ (by simp)) ?_
    rw [← ht]
    simp only [tosim, unsim, cast_ofF]
    ring
  have em : t.mu = s.mu := by
    refine canon_eq_one cv (o5 _ (by simp)) (s5 _ (by simp)) ?_
    rw [← ht]
    simp only [tosim, unsim, cast_ofF]
    linear_combination (s.mu - (s.a - κ)) * hxx
  have et : t.taux = s.taux := by
    refine canon_eq_one cv (o5 _ (by simp)) (s5 _ (by simp)) ?_
    rw [← ht]
    simp only [tosim, unsim, cast_ofF]
    field_simp
    ring
  have e2 : t.t2 = s.t2 := by
    refine canon_eq_one cv (o5 _ (by simp)) (s5 _ (by simp)) ?_
    rw [← ht]
    simp only [tosim, cast_ofF]
    rw [t2F_congr _ _ _ _ _ _ uL uR]
    simp only [unsim, cast_ofF]
    ring
  cases s; cases t
  simp only at el er ea em et e2
  rw [el, er, ea, em, et, e2]

theorem unsim_tosim (R len : Nat) (y z x : ZMod cv.order) (b : Nat → ZMod cv.order) (ρ η κ : ZMod cv.order) (c : Coins)
    (hc : c.Ok cv.order len) (hy : y ≠ 0) (hx : x ≠ 0) : unsim cv R len y z x b ρ η κ (tosim cv R len y z x b ρ η κ c) = c := by
  haveI := cv.fact
  have hok := unsim_ok cv R len y z x b ρ η κ (tosim cv R len y z x b ρ η κ c)
  obtain ⟨s1, s2, s3, s4, s5⟩ := hc
  obtain ⟨o1, o2, o3, o4, o5⟩ := hok
  have hxx := inv_mul_cancel₀ hx
  have ul : ∀ i < len, seqF cv (tosim cv R len y z x b ρ η κ c).l i = b i - z + x * seqF cv c.sL i := fun i hi => seqF_map cv len i hi _
  have ur : ∀ i < len, seqF cv (tosim cv R len y z x b ρ η κ c).r i = r0F R y z b i + x * (y ^ i * seqF cv c.sR i) :=
    fun i hi => seqF_map cv len i hi _
  have vL : ∀ i < len, x⁻¹ * (seqF cv (tosim cv R len y z x b ρ η κ c).l i - b i + z) = seqF cv c.sL i := by
    intro i hi
    rw [ul i hi]
    linear_combination (seqF cv c.sL i) * hxx
  have vR : ∀ i < len, x⁻¹ * (y⁻¹ ^ i * (seqF cv (tosim cv R len y z x b ρ η κ c).r i - z ^ (i / R + 2) * 2 ^ (i % R)) - z - (b i - 1)) =
      seqF cv c.sR i := by
    intro i hi
    rw [ur i hi]
    have hyy : y⁻¹ ^ i * y ^ i = 1 := by rw [← mul_pow, inv_mul_cancel₀ hy, one_pow]
    unfold r0F
    linear_combination (x⁻¹ * (z + (b i - 1)) + x⁻¹ * x * seqF cv c.sR i) * hyy + (seqF cv c.sR i) * hxx
  generalize ht : unsim cv R len y z x b ρ η κ (tosim cv R len y z x b ρ η κ c) = t at *
  have el : t.sL = c.sL := by
    refine canon_eq_seq cv o3 s3 o1 s1 fun i hi => ?_
    rw [← ht]
    exact (seqF_map cv len i hi _).trans (vL i hi)
  have er : t.sR = c.sR := by
    refine canon_eq_seq cv o4 s4 o2 s2 fun i hi => ?_
    rw [← ht]
    exact (seqF_map cv len i hi _).trans (vR i hi)
  have ea : t.alpha = c.alpha := by
    refine canon_eq_one cv (o5 _ (by simp)) (s5 _ (by simp)) ?_
    rw [← ht]
    simp only [tosim, unsim, cast_ofF]
    ring
  have em : t.rho = c.rho := by
    refine canon_eq_one cv (o5 _ (by simp)) (s5 _ (by simp)) ?_
    rw [← ht]
    simp only [tosim, unsim, cast_ofF]
    linear_combination (c.rho : ZMod cv.order) * hxx
  have e2' : ((tosim cv R len y z x b ρ η κ c).t2 : ZMod cv.order) - η * t2F len y
      (fun i => x⁻¹ * (seqF cv (tosim cv R len y z x b ρ η κ c).l i - b i + z))
      (fun i => x⁻¹ * (y⁻¹ ^ i * (seqF cv (tosim cv R len y z x b ρ η κ c).r i - z ^ (i / R + 2) * 2 ^ (i % R)) - z - (b i - 1))) =
      c.tau2 := by
    rw [t2F_congr _ _ _ _ _ _ vL vR]
    simp only [tosim, cast_ofF]
    ring
  have e2 : t.tau2 = c.tau2 := by
    refine canon_eq_one cv (o5 _ (by simp)) (s5 _ (by simp)) ?_
    rw [← ht, ← e2']
    exact cast_ofF cv _
  have et : t.tau1 = c.tau1 := by
    refine canon_eq_one cv (o5 _ (by simp)) (s5 _ (by simp)) ?_
    rw [← ht]
    refine (cast_ofF cv _).trans ?_
    rw [e2']
    simp only [tosim, cast_ofF]
    linear_combination (c.tau1 : ZMod cv.order) * hxx
  cases c; cases t
  simp only at el er ea em et e2
  rw [el, er, ea, em, et, e2]

/-- The points of a simulated proof are those that `Prove` makes from the scalars that belong to it. -/
theorem tosim_points (pp : PP G) (n : Nat) (r : List ℤ) (v : List ℕ) (C : List G) (c : Coins) (s : SimCoins) (y z x : ℤ) (ρ η κ : ZMod cv.order)
    (hR : 0 < pp.rangeLen) (hC : C.length = n) (hb : ∀ j < n, (v[j]?).getD 0 < 2 ^ pp.rangeLen)
    (hρ : ρ = ∑ j ∈ Finset.range n, (z : ZMod cv.order) ^ (j + 2) * (((r[j]?).getD 0 : ℤ) : ZMod cv.order))
    (hη : haveI := cv.fact
      letI := cv.toModule
      pp.h = η • pp.g)
    (hκ : haveI := cv.fact
      letI := cv.toModule
      κ • pp.h = (∑ i ∈ Finset.range (pp.rangeLen * n), bitV cv pp.rangeLen v i • (pp.vecG[i]?).getD 0) +
        ∑ i ∈ Finset.range (pp.rangeLen * n), (bitV cv pp.rangeLen v i - 1) • (pp.vecH[i]?).getD 0)
    (hCj : ∀ j < n, (C[j]?).getD 0 = (r[j]?).getD 0 • pp.g + (v[j]?).getD 0 • pp.h)
    (hy' : (y : ZMod cv.order) ≠ 0) (hx' : (x : ZMod cv.order) ≠ 0)
    (hinv : tosim cv pp.rangeLen (pp.rangeLen * n) y z x (bitV cv pp.rangeLen v) ρ η κ c = s) :
    haveI := cv.fact
    (∀ i < pp.rangeLen * n, seqF cv s.l i = bitV cv pp.rangeLen v i - z + x * seqF cv c.sL i) ∧
    (∀ i < pp.rangeLen * n, seqF cv s.r i = r0F pp.rangeLen (y : ZMod cv.order) z (bitV cv pp.rangeLen v) i +
      x * ((y : ZMod cv.order) ^ i * seqF cv c.sR i)) ∧
    (s.mu : ZMod cv.order) = c.alpha + c.rho * x ∧
    (s.taux : ZMod cv.order) = c.tau1 * x + c.tau2 * x ^ 2 + ρ ∧
    simA pp s = comV cv pp (pp.rangeLen * n) (bitV cv pp.rangeLen v) (fun i => bitV cv pp.rangeLen v i - 1) c.alpha ∧
    simS cv pp n y z x s = comV cv pp (pp.rangeLen * n) (seqF cv c.sL) (seqF cv c.sR) c.rho ∧
    simT1 cv pp C y z x s = comT cv pp c.tau1 (t1F pp.rangeLen (pp.rangeLen * n) (y : ZMod cv.order) z (bitV cv pp.rangeLen v)
      (seqF cv c.sL) (seqF cv c.sR)) ∧
    simT2 pp s = comT cv pp c.tau2 (t2F (pp.rangeLen * n) (y : ZMod cv.order) (seqF cv c.sL) (seqF cv c.sR)) := by
  haveI := cv.fact
  letI := cv.toModule
  have ql : ∀ i < pp.rangeLen * n, seqF cv s.l i = bitV cv pp.rangeLen v i - z + x * seqF cv c.sL i := by
    intro i hi
    rw [← hinv]
    exact seqF_map cv _ i hi _
  have qr : ∀ i < pp.rangeLen * n, seqF cv s.r i = r0F pp.rangeLen (y : ZMod cv.order) z (bitV cv pp.rangeLen v) i +
      x * ((y : ZMod cv.order) ^ i * seqF cv c.sR i) := by
    intro i hi
    rw [← hinv]
    exact seqF_map cv _ i hi _
  have qa : (s.a : ZMod cv.order) = c.alpha + κ := by rw [← hinv]; exact cast_ofF cv _
  have qm : (s.mu : ZMod cv.order) = c.alpha + c.rho * x := by rw [← hinv]; exact cast_ofF cv _
  have qt : (s.taux : ZMod cv.order) = c.tau1 * x + c.tau2 * x ^ 2 + ρ := by rw [← hinv]; exact cast_ofF cv _
  have q2 : (s.t2 : ZMod cv.order) = c.tau2 + η * t2F (pp.rangeLen * n) (y : ZMod cv.order) (seqF cv c.sL) (seqF cv c.sR) := by
    rw [← hinv]; exact cast_ofF cv _
  have hA : simA pp s = comV cv pp (pp.rangeLen * n) (bitV cv pp.rangeLen v) (fun i => bitV cv pp.rangeLen v i - 1) c.alpha := by
    unfold simA comV
    rw [cv.cast_smul, qa, add_smul, hκ]
    abel
  have hS : simS cv pp n y z x s = comV cv pp (pp.rangeLen * n) (seqF cv c.sL) (seqF cv c.sR) c.rho := by
    have h1 : comV cv pp (pp.rangeLen * n) (fun i => seqF cv s.l i + z)
        (fun i => (y : ZMod cv.order)⁻¹ ^ i * (seqF cv s.r i - (z : ZMod cv.order) ^ (i / pp.rangeLen + 2) * 2 ^ (i % pp.rangeLen)) - z) s.mu =
        comV cv pp (pp.rangeLen * n) (fun i => bitV cv pp.rangeLen v i + x * seqF cv c.sL i)
          (fun i => bitV cv pp.rangeLen v i - 1 + x * seqF cv c.sR i) s.mu := by
      apply comV_congr
      · intro i hi
        rw [ql i hi]; ring
      · intro i hi
        rw [qr i hi]
        have hyy : (y : ZMod cv.order)⁻¹ ^ i * (y : ZMod cv.order) ^ i = 1 := by rw [← mul_pow, inv_mul_cancel₀ hy', one_pow]
        unfold r0F
        linear_combination (z + (bitV cv pp.rangeLen v i - 1) + x * seqF cv c.sR i) * hyy
    unfold simS
    rw [h1, hA, qm]
    unfold comV
    simp only [add_smul, Finset.sum_add_distrib, mul_smul, ← Finset.smul_sum]
    rw [inv_smul_eq_iff₀ hx']
    simp only [smul_add, smul_smul, mul_comm (c.rho : ZMod cv.order)]
    abel
  have hT2 : simT2 pp s = comT cv pp c.tau2 (t2F (pp.rangeLen * n) (y : ZMod cv.order) (seqF cv c.sL) (seqF cv c.sR)) := by
    unfold simT2 comT
    rw [cv.cast_smul, q2, hη]
    module
  have hsum : ∑ i ∈ Finset.range (pp.rangeLen * n), seqF cv s.l i * seqF cv s.r i =
      delta pp.rangeLen n (y : ZMod cv.order) z + (∑ j ∈ Finset.range n, (z : ZMod cv.order) ^ (j + 2) * (((v[j]?).getD 0 : ℕ) : ZMod cv.order)) +
        x * t1F pp.rangeLen (pp.rangeLen * n) (y : ZMod cv.order) z (bitV cv pp.rangeLen v) (seqF cv c.sL) (seqF cv c.sR) +
        (x : ZMod cv.order) ^ 2 * t2F (pp.rangeLen * n) (y : ZMod cv.order) (seqF cv c.sL) (seqF cv c.sR) := by
    rw [← tx_split cv pp.rangeLen n hR y z x v hb (seqF cv c.sL) (seqF cv c.sR)]
    apply Finset.sum_congr rfl
    intro i hi
    rw [ql i (Finset.mem_range.1 hi), qr i (Finset.mem_range.1 hi)]
  have hsC : ∑ j ∈ Finset.range n, (z : ZMod cv.order) ^ (j + 2) • (C[j]?).getD 0 =
      ρ • pp.g + (∑ j ∈ Finset.range n, (z : ZMod cv.order) ^ (j + 2) * (((v[j]?).getD 0 : ℕ) : ZMod cv.order)) • pp.h := by
    rw [hρ, Finset.sum_smul, Finset.sum_smul, ← Finset.sum_add_distrib]
    apply Finset.sum_congr rfl
    intro j hj
    rw [hCj j (Finset.mem_range.1 hj), smul_add, ← natCast_zsmul, cv.cast_smul, cv.cast_smul, smul_smul, smul_smul, Int.cast_natCast]
  have hT1 : simT1 cv pp C y z x s = comT cv pp c.tau1 (t1F pp.rangeLen (pp.rangeLen * n) (y : ZMod cv.order) z (bitV cv pp.rangeLen v)
      (seqF cv c.sL) (seqF cv c.sR)) := by
    unfold simT1
    rw [hC, hsum, hsC, hT2, qt]
    unfold comT
    rw [inv_smul_eq_iff₀ hx']
    module
  exact ⟨ql, qr, qm, qt, hA, hS, hT1, hT2⟩

/-- With the scalars that belong to a simulated proof, and a hash function that gives the chosen challenges at its points, `Prove` makes
that proof. -/
theorem unsim_prove (H : Bytes → ℤ) (pp : PP G) (n k : Nat) (r : List ℤ) (v : List ℕ) (C : List G) (s : SimCoins) (tr : Bytes) (y z x : ℤ)
    (hpow : pp.rangeLen * n = 2 ^ k) (hk : k < 64) (hg : pp.rangeLen * n ≤ pp.vecG.length) (hh : pp.rangeLen * n ≤ pp.vecH.length)
    (hv : v.length = n) (hr : r.length = n) (hC : C.length = n) (hs : s.Ok cv.order (pp.rangeLen * n))
    (hb : ∀ j < n, (v[j]?).getD 0 < 2 ^ pp.rangeLen)
    (η κ : ZMod cv.order)
    (hη : haveI := cv.fact
      letI := cv.toModule
      pp.h = η • pp.g)
    (hκ : haveI := cv.fact
      letI := cv.toModule
      κ • pp.h = (∑ i ∈ Finset.range (pp.rangeLen * n), bitV cv pp.rangeLen v i • (pp.vecG[i]?).getD 0) +
        ∑ i ∈ Finset.range (pp.rangeLen * n), (bitV cv pp.rangeLen v i - 1) • (pp.vecH[i]?).getD 0)
    (hCj : ∀ j < n, (C[j]?).getD 0 = (r[j]?).getD 0 • pp.g + (v[j]?).getD 0 • pp.h)
    (hy0 : ¬ (cv.order : ℤ) ∣ y) (hx0 : ¬ (cv.order : ℤ) ∣ x)
    (hy : H (tr ++ cv.toBytes (simA pp s)) = y)
    (hz : H (tr ++ cv.toBytes (simA pp s) ++ cv.toBytes (simS cv pp n y z x s)) = z)
    (hx : H (tr ++ cv.toBytes (simA pp s) ++ cv.toBytes (simS cv pp n y z x s) ++
      (cv.toBytes (simT1 cv pp C y z x s) ++ cv.toBytes (simT2 pp s))) = x) :
    ∃ pf tr', simulate cv H pp C y z x s tr = some (pf, tr') ∧
      prove cv H pp n r (v.map (Nat.cast : ℕ → ℤ)) (unsim cv pp.rangeLen (pp.rangeLen * n) y z x (bitV cv pp.rangeLen v)
        (∑ j ∈ Finset.range n, (z : ZMod cv.order) ^ (j + 2) * (((r[j]?).getD 0 : ℤ) : ZMod cv.order)) η κ s) tr = some (pf, tr') := by
  haveI := cv.fact
  letI := cv.toModule
  have hne : pp.rangeLen * n ≠ 0 := by rw [hpow]; positivity
  have hR : 0 < pp.rangeLen := Nat.pos_of_ne_zero fun h => hne (by rw [h, zero_mul])
  have hn : n ≠ 0 := fun h => hne (by rw [h, mul_zero])
  have hy' : (y : ZMod cv.order) ≠ 0 := cv.cast_ne_zero hy0
  have hx' : (x : ZMod cv.order) ≠ 0 := cv.cast_ne_zero hx0
  obtain ⟨ρ, hρ⟩ : ∃ ρ, ρ = ∑ j ∈ Finset.range n, (z : ZMod cv.order) ^ (j + 2) * (((r[j]?).getD 0 : ℤ) : ZMod cv.order) := ⟨_, rfl⟩
  rw [← hρ]
  have hinv := tosim_unsim cv pp.rangeLen (pp.rangeLen * n) y z x (bitV cv pp.rangeLen v) ρ η κ s hs hy' hx'
  have hok := unsim_ok cv pp.rangeLen (pp.rangeLen * n) y z x (bitV cv pp.rangeLen v) ρ η κ s
  generalize unsim cv pp.rangeLen (pp.rangeLen * n) y z x (bitV cv pp.rangeLen v) ρ η κ s = c at *
  obtain ⟨ql, qr, qm, qt, hA, hS, hT1, hT2⟩ := tosim_points cv pp n r v C c s y z x ρ η κ hR hC hb hρ hη hκ hCj hy' hx' hinv
  obtain ⟨llx, rrx, tx, ip, tr', cl, cr, el, er, etx, eip, ep⟩ := prove_parts cv H pp n k r v c tr hpow hk hg hh hv hr hok.1 hok.2.1
    (simA pp s) (simS cv pp n y z x s) (simT1 cv pp C y z x s) (simT2 pp s) y z x hA hS hy hz hT1 hT2 hx
  obtain ⟨s1, s2, s3, s4, s5⟩ := hs
  have hll : llx = s.l := by
    apply canon_ext cv cl s3
    rw [el, residues_range s1]
    apply map_range_congr
    intro i hi
    exact (ql i hi).symm
  have hrr : rrx = s.r := by
    apply canon_ext cv cr s4
    rw [er, residues_range s2]
    apply map_range_congr
    intro i hi
    exact (qr i hi).symm
  subst hll hrr
  have htau : tauLoop cv.order z r (BigInt.mod (c.tau1 * x + c.tau2 * BigInt.modSquare x cv.order) cv.order) n = s.taux := by
    refine canon_eq_one cv ?_ (s5 _ (by simp)) ?_
    · obtain ⟨m, rfl⟩ := Nat.exists_eq_succ_of_ne_zero hn
      exact cv.mod_range _
    · rw [tauLoop_cast, cv.cast_mod]
      push_cast
      rw [cast_modSquare, qt, hρ]
      ring
  have hmu : BigInt.mod (c.alpha + c.rho * x) cv.order = s.mu := by
    refine canon_eq_one cv (cv.mod_range _) (s5 _ (by simp)) ?_
    rw [cv.cast_mod, qm]
    push_cast
    rfl
  rw [htau, hmu] at ep
  refine ⟨_, _, ?_, ep⟩
  unfold simulate
  simp only [Option.bind_eq_bind, Option.pure_def, hC, etx, Option.bind_some, eip]

end Kunlun.Bullet
