import Verif.Model.BulletSim
import Verif.Props.BulletHide
import Mathlib.Data.Set.Function
/-!
C123: the range proof is zero-knowledge. A simulator that is given the commitments and the three challenges, and nothing about what is
committed, makes the very proofs of `Prove`.
-/

namespace Kunlun.Bullet

variable {G : Type} [AddCommGroup G] [DecidableEq G] (cv : Curve G)

/-- C123: `n` Pedersen commitments `C` with opening `(r, v)`, values below `2^RANGE_LEN`; the group is generated by `g` and `h` is not zero.
For all challenges `y`, `z`, `x` (the first and the last no multiples of the order) there is a bijection between what the simulator draws and
what the prover draws, both residues in `[0, order)`, so that for every hash function giving these challenges at the points of the simulated
proof, `Prove` makes exactly the simulated proof and transcript. Neither the simulator nor its scalars depend on `r` and `v`. -/
theorem bulletproof_simulated (pp : PP G) (n k : Nat) (r : List ℤ) (v : List ℕ) (C : List G) (tr : Bytes) (y z x : ℤ)
    (hpow : pp.rangeLen * n = 2 ^ k) (hk : k < 64) (hg : pp.rangeLen * n ≤ pp.vecG.length) (hh : pp.rangeLen * n ≤ pp.vecH.length)
    (hv : v.length = n) (hr : r.length = n) (hb : ∀ a ∈ v, a < 2 ^ pp.rangeLen)
    (hcyc : ∀ P : G, ∃ a : ℤ, P = a • pp.g) (hh0 : pp.h ≠ 0)
    (hC : C = List.zipWith (fun (a : ℤ) (m : ℕ) => a • pp.g + m • pp.h) r v)
    (hy0 : ¬ (cv.order : ℤ) ∣ y) (hx0 : ¬ (cv.order : ℤ) ∣ x) :
    ∃ φ : SimCoins → Coins,
      Set.BijOn φ {s | s.Ok cv.order (pp.rangeLen * n)} {c | c.Ok cv.order (pp.rangeLen * n)} ∧
      ∀ (H : Bytes → ℤ) (s : SimCoins), s.Ok cv.order (pp.rangeLen * n) →
        H (tr ++ cv.toBytes (simA pp s)) = y →
        H (tr ++ cv.toBytes (simA pp s) ++ cv.toBytes (simS cv pp n y z x s)) = z →
        H (tr ++ cv.toBytes (simA pp s) ++ cv.toBytes (simS cv pp n y z x s) ++
          (cv.toBytes (simT1 cv pp C y z x s) ++ cv.toBytes (simT2 pp s))) = x →
        ∃ pf tr', simulate cv H pp C y z x s tr = some (pf, tr') ∧
          prove cv H pp n r (v.map (Nat.cast : ℕ → ℤ)) (φ s) tr = some (pf, tr') := by
  haveI := cv.fact
  letI := cv.toModule
  have hb' : ∀ j < n, (v[j]?).getD 0 < 2 ^ pp.rangeLen := by
    intro j _
    rcases hj : v[j]? with _ | a
    · simp
    · exact hb a (List.mem_of_getElem? hj)
  obtain ⟨η0, hη0⟩ := hcyc pp.h
  have hη : pp.h = (η0 : ZMod cv.order) • pp.g := by rw [← cv.cast_smul]; exact hη0
  have hηne : (η0 : ZMod cv.order) ≠ 0 := by
    intro h
    rw [h, zero_smul] at hη
    exact hh0 hη
  obtain ⟨κ0, hκ0⟩ := hcyc ((∑ i ∈ Finset.range (pp.rangeLen * n), bitV cv pp.rangeLen v i • (pp.vecG[i]?).getD 0) +
        ∑ i ∈ Finset.range (pp.rangeLen * n), (bitV cv pp.rangeLen v i - 1) • (pp.vecH[i]?).getD 0)
  have hκ : ((κ0 : ZMod cv.order) * (η0 : ZMod cv.order)⁻¹) • pp.h = (∑ i ∈ Finset.range (pp.rangeLen * n),
      bitV cv pp.rangeLen v i • (pp.vecG[i]?).getD 0) +
        ∑ i ∈ Finset.range (pp.rangeLen * n), (bitV cv pp.rangeLen v i - 1) • (pp.vecH[i]?).getD 0 := by
    rw [hκ0, hη, smul_smul, mul_assoc, inv_mul_cancel₀ hηne, mul_one, cv.cast_smul]
  have hCl : C.length = n := by rw [hC]; simp [hv, hr]
  have hCj : ∀ j < n, (C[j]?).getD 0 = (r[j]?).getD 0 • pp.g + (v[j]?).getD 0 • pp.h := by
    intro j hj
    rw [hC, List.getElem?_zipWith, List.getElem?_eq_getElem (hr ▸ hj : j < r.length), List.getElem?_eq_getElem (hv ▸ hj : j < v.length)]
    simp
  have hy' : (y : ZMod cv.order) ≠ 0 := cv.cast_ne_zero hy0
  have hx' : (x : ZMod cv.order) ≠ 0 := cv.cast_ne_zero hx0
  refine ⟨unsim cv pp.rangeLen (pp.rangeLen * n) y z x (bitV cv pp.rangeLen v)
    (∑ j ∈ Finset.range n, (z : ZMod cv.order) ^ (j + 2) * (((r[j]?).getD 0 : ℤ) : ZMod cv.order)) η0 (κ0 * (η0 : ZMod cv.order)⁻¹), ?_, ?_⟩
  · refine Set.InvOn.bijOn (f' := tosim cv pp.rangeLen (pp.rangeLen * n) y z x (bitV cv pp.rangeLen v)
      (∑ j ∈ Finset.range n, (z : ZMod cv.order) ^ (j + 2) * (((r[j]?).getD 0 : ℤ) : ZMod cv.order)) η0 (κ0 * (η0 : ZMod cv.order)⁻¹))
      ⟨fun s hs => tosim_unsim cv _ _ _ _ _ _ _ _ _ s hs hy' hx', fun c hc => unsim_tosim cv _ _ _ _ _ _ _ _ _ c hc hy' hx'⟩
      (fun s _ => unsim_ok cv _ _ _ _ _ _ _ _ _ s) (fun c _ => tosim_ok cv _ _ _ _ _ _ _ _ _ c)
  · intro H s hs h1 h2 h3
    exact unsim_prove cv H pp n k r v C s tr y z x hpow hk hg hh hv hr hCl hs hb' η0 _ hη hκ hCj hy0 hx0 h1 h2 h3

/-- The commitments to `(3, 1)` of the small curve meet the hypotheses, and the simulator has scalars to draw. -/
example : exPP.rangeLen * 2 = 2 ^ 2 ∧ exPP.rangeLen * 2 ≤ exPP.vecG.length ∧ exPP.rangeLen * 2 ≤ exPP.vecH.length ∧ exPP.h ≠ 0 ∧
    (∀ a ∈ [3, 1], a < 2 ^ exPP.rangeLen) ∧ (∀ P : ZMod 7, ∃ a : ℤ, P = a • exPP.g) ∧
    SimCoins.Ok toyCurve.order (exPP.rangeLen * 2) ⟨1, 2, 3, 4, [1, 2, 3, 4], [5, 6, 0, 1]⟩ := by
  refine ⟨by decide, by decide, by decide, by decide +kernel, by decide, ?_, ?_⟩
  · intro P
    refine ⟨(P.val : ℤ), ?_⟩
    show P = (P.val : ℤ) • (1 : ZMod 7)
    simp
  · unfold SimCoins.Ok Canon
    decide +kernel

end Kunlun.Bullet
