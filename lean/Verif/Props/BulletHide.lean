import Verif.Model.BulletHide
import Verif.Props.Bullet
/-!
C84: the range proof hides the committed values. Take two openings of the same commitments, both with values in range. The drawn scalars of
one run can be renamed one-to-one into drawn scalars with which the other opening produces the very same proof.
-/

namespace Kunlun.Bullet

variable {G : Type} [AddCommGroup G] [DecidableEq G] (cv : Curve G)

/-- Integer vectors with residues in `[0, q)` agree when their residues agree position by position. -/
theorem canon_eq_of_seq {l l' : List ℤ} {len : Nat} (h : Canon cv.order l) (h' : Canon cv.order l') (hl : l.length = len)
    (hl' : l'.length = len) (he : ∀ i < len, seqF cv l i = seqF cv l' i) : l = l' := by
  apply canon_ext cv h h'
  rw [residues_range hl, residues_range hl']
  apply map_range_congr
  exact he

theorem canon_eq {a b : ℤ} (ha : 0 ≤ a ∧ a < cv.order) (hb : 0 ≤ b ∧ b < cv.order) (h : (a : ZMod cv.order) = b) : a = b := by
  have := canon_ext cv (l := [a]) (l' := [b]) (fun t ht => by rw [List.mem_singleton.1 ht]; exact ha)
    (fun t ht => by rw [List.mem_singleton.1 ht]; exact hb) (congrArg (fun t => [t]) h)
  simpa using this

theorem shift_inj (R len : Nat) (y z x : ZMod cv.order) (b b' : Nat → ZMod cv.order) (η δ : ZMod cv.order) (c d : Coins)
    (hc : c.Ok cv.order len) (hd : d.Ok cv.order len) (h : shift cv R len y z x b b' η δ c = shift cv R len y z x b b' η δ d) : c = d := by
  haveI := cv.fact
  obtain ⟨c1, c2, c3, c4, c5⟩ := hc
  obtain ⟨d1, d2, d3, d4, d5⟩ := hd
  simp only [shift, Coins.mk.injEq] at h
  obtain ⟨ha, hL, hR, hr, h1, h2⟩ := h
  have inj : ∀ {s t : ZMod cv.order}, ofF cv s = ofF cv t → s = t := fun {s t} e => by rw [← cast_ofF cv s, e, cast_ofF]
  have eL : c.sL = d.sL := by
    refine canon_eq_of_seq cv c3 d3 c1 d1 ?_
    intro i hi
    have := congrArg (fun l => seqF cv l i) hL
    simp only [seqF_map cv len i hi (fun i => seqF cv c.sL i + x⁻¹ * (b i - b' i)),
      seqF_map cv len i hi (fun i => seqF cv d.sL i + x⁻¹ * (b i - b' i))] at this
    exact add_right_cancel this
  have eR : c.sR = d.sR := by
    refine canon_eq_of_seq cv c4 d4 c2 d2 ?_
    intro i hi
    have := congrArg (fun l => seqF cv l i) hR
    simp only [seqF_map cv len i hi (fun i => seqF cv c.sR i + x⁻¹ * (b i - b' i)),
      seqF_map cv len i hi (fun i => seqF cv d.sR i + x⁻¹ * (b i - b' i))] at this
    exact add_right_cancel this
  rw [eL, eR] at h1 h2
  have ea := canon_eq cv (c5 _ (by simp)) (d5 _ (by simp)) (add_right_cancel (inj ha))
  have er := canon_eq cv (c5 c.rho (by simp)) (d5 d.rho (by simp)) (sub_left_injective (inj hr))
  have e1 := canon_eq cv (c5 c.tau1 (by simp)) (d5 d.tau1 (by simp)) (add_right_cancel (inj h1))
  have e2 := canon_eq cv (c5 c.tau2 (by simp)) (d5 d.tau2 (by simp)) (add_right_cancel (inj h2))
  cases c; cases d
  simp only at eL eR ea er e1 e2
  rw [eL, eR, ea, er, e1, e2]

/-- C84: `n` Pedersen commitments with two openings `(r, v)` and `(r', v')`, all values below `2^RANGE_LEN`; the group is generated by `g`
and `h` is not zero. Then there is a renaming `φ` of the prover's scalars, mapping tuples of residues in `[0, order)` one-to-one to such
tuples, so that `Prove` on the second opening with `φ c` gives exactly the proof and the transcript of `Prove` on the first opening with
`c`. Hence the proof has the same distribution for both openings. The random oracle is assumed never to return a multiple of the order
as the challenge `x`. -/
theorem bulletproof_hides_values (H : Bytes → ℤ) (pp : PP G) (n k : Nat) (r r' : List ℤ) (v v' : List ℕ) (tr : Bytes)
    (hpow : pp.rangeLen * n = 2 ^ k) (hk : k < 64) (hg : pp.rangeLen * n ≤ pp.vecG.length) (hh : pp.rangeLen * n ≤ pp.vecH.length)
    (hv : v.length = n) (hr : r.length = n) (hv' : v'.length = n) (hr' : r'.length = n)
    (hb : ∀ a ∈ v, a < 2 ^ pp.rangeLen) (hb' : ∀ a ∈ v', a < 2 ^ pp.rangeLen)
    (hcyc : ∀ P : G, ∃ a : ℤ, P = a • pp.g) (hh0 : pp.h ≠ 0)
    (hC : List.zipWith (fun (a : ℤ) (m : ℕ) => a • pp.g + m • pp.h) r v = List.zipWith (fun (a : ℤ) (m : ℕ) => a • pp.g + m • pp.h) r' v')
    (hH : ∀ s, ¬ (cv.order : ℤ) ∣ H s) :
    ∃ φ : Coins → Coins,
      (∀ c, c.Ok cv.order (pp.rangeLen * n) → (φ c).Ok cv.order (pp.rangeLen * n) ∧
        prove cv H pp n r' (v'.map (Nat.cast : ℕ → ℤ)) (φ c) tr = prove cv H pp n r (v.map (Nat.cast : ℕ → ℤ)) c tr ∧
        (prove cv H pp n r (v.map (Nat.cast : ℕ → ℤ)) c tr).isSome) ∧
      ∀ c d, c.Ok cv.order (pp.rangeLen * n) → d.Ok cv.order (pp.rangeLen * n) → φ c = φ d → c = d := by
  haveI := cv.fact
  letI := cv.toModule
  have getb : ∀ (w : List ℕ), (∀ a ∈ w, a < 2 ^ pp.rangeLen) → ∀ j < n, (w[j]?).getD 0 < 2 ^ pp.rangeLen := by
    intro w hw j _
    rcases hj : w[j]? with _ | a
    · simp
    · exact hw a (List.mem_of_getElem? hj)
  obtain ⟨η0, hη0⟩ := hcyc pp.h
  have hη : pp.h = (η0 : ZMod cv.order) • pp.g := by rw [← cv.cast_smul]; exact hη0
  have hηne : (η0 : ZMod cv.order) ≠ 0 := by
    intro h
    rw [h, zero_smul] at hη
    exact hh0 hη
  have hg0 : pp.g ≠ 0 := by
    intro h
    rw [h, smul_zero] at hη
    exact hh0 hη
  obtain ⟨δ0, hδ0⟩ := hcyc ((∑ i ∈ Finset.range (pp.rangeLen * n), (bitV cv pp.rangeLen v i - bitV cv pp.rangeLen v' i) • (pp.vecG[i]?).getD 0) +
        ∑ i ∈ Finset.range (pp.rangeLen * n), (bitV cv pp.rangeLen v i - bitV cv pp.rangeLen v' i) • (pp.vecH[i]?).getD 0)
  have hδ : ((δ0 : ZMod cv.order) * (η0 : ZMod cv.order)⁻¹) • pp.h = (∑ i ∈ Finset.range (pp.rangeLen * n),
      (bitV cv pp.rangeLen v i - bitV cv pp.rangeLen v' i) • (pp.vecG[i]?).getD 0) +
        ∑ i ∈ Finset.range (pp.rangeLen * n), (bitV cv pp.rangeLen v i - bitV cv pp.rangeLen v' i) • (pp.vecH[i]?).getD 0 := by
    rw [hδ0, hη, smul_smul, mul_assoc, inv_mul_cancel₀ hηne, mul_one, cv.cast_smul]
  have hC' : ∀ j < n, (((r[j]?).getD 0 : ℤ) : ZMod cv.order) + (η0 : ZMod cv.order) * (((v[j]?).getD 0 : ℕ) : ZMod cv.order) =
      (((r'[j]?).getD 0 : ℤ) : ZMod cv.order) + (η0 : ZMod cv.order) * (((v'[j]?).getD 0 : ℕ) : ZMod cv.order) := by
    intro j hj
    have h := congrArg (fun l => l[j]?) hC
    simp only [List.getElem?_zipWith, List.getElem?_eq_getElem (hr ▸ hj : j < r.length), List.getElem?_eq_getElem (hv ▸ hj : j < v.length),
      List.getElem?_eq_getElem (hr' ▸ hj : j < r'.length), List.getElem?_eq_getElem (hv' ▸ hj : j < v'.length), Option.some.injEq] at h
    rw [List.getElem?_eq_getElem (hr ▸ hj : j < r.length), List.getElem?_eq_getElem (hv ▸ hj : j < v.length),
      List.getElem?_eq_getElem (hr' ▸ hj : j < r'.length), List.getElem?_eq_getElem (hv' ▸ hj : j < v'.length)]
    simp only [Option.getD_some]
    rw [hη] at h
    have h2 : (((r[j]'(hr ▸ hj) : ℤ) : ZMod cv.order) + (η0 : ZMod cv.order) * ((v[j]'(hv ▸ hj) : ℕ) : ZMod cv.order) -
        ((((r'[j]'(hr' ▸ hj) : ℤ) : ZMod cv.order)) + (η0 : ZMod cv.order) * ((v'[j]'(hv' ▸ hj) : ℕ) : ZMod cv.order))) • pp.g = 0 := by
      rw [← natCast_zsmul, ← natCast_zsmul, cv.cast_smul, cv.cast_smul, cv.cast_smul, cv.cast_smul, Int.cast_natCast, Int.cast_natCast] at h
      rw [sub_smul, sub_eq_zero, add_smul, add_smul, mul_comm, mul_smul, mul_comm (η0 : ZMod cv.order), mul_smul]
      exact h
    refine sub_eq_zero.1 ?_
    by_contra hne
    have h3 := congrArg (fun P => (((r[j]'(hr ▸ hj) : ℤ) : ZMod cv.order) + (η0 : ZMod cv.order) * ((v[j]'(hv ▸ hj) : ℕ) : ZMod cv.order) -
        ((((r'[j]'(hr' ▸ hj) : ℤ) : ZMod cv.order)) + (η0 : ZMod cv.order) * ((v'[j]'(hv' ▸ hj) : ℕ) : ZMod cv.order)))⁻¹ • P) h2
    simp only [smul_smul, inv_mul_cancel₀ hne, one_smul, smul_zero] at h3
    exact hg0 h3
  have key := fun c (hc : c.Ok cv.order (pp.rangeLen * n)) => shift_prove cv H pp n k r r' v v' c tr hpow hk hg hh hv hr hv' hr' hc.1 hc.2.1
    (getb v hb) (getb v' hb') _ _ hη hδ hC'
  let sh : Coins → Proof G → Coins := fun c pf => shift cv pp.rangeLen (pp.rangeLen * n) (H (tr1 cv pf tr)) (H (tr2 cv pf tr))
          (H (tr3 cv pf tr)) (bitV cv pp.rangeLen v) (bitV cv pp.rangeLen v') η0 (δ0 * (η0 : ZMod cv.order)⁻¹) c
  let φ : Coins → Coins := fun c => ((prove cv H pp n r (v.map (Nat.cast : ℕ → ℤ)) c tr).map fun p => sh c p.1).getD c
  have hφ : ∀ c, c.Ok cv.order (pp.rangeLen * n) → ∃ pf tr', prove cv H pp n r (v.map (Nat.cast : ℕ → ℤ)) c tr = some (pf, tr') ∧
      φ c = sh c pf ∧ prove cv H pp n r' (v'.map (Nat.cast : ℕ → ℤ)) (φ c) tr = some (pf, tr') := by
    intro c hc
    obtain ⟨pf, tr', h1, h2⟩ := key c hc
    have h3 : φ c = sh c pf := by simp only [φ, h1, Option.map_some, Option.getD_some]
    exact ⟨pf, tr', h1, h3, by rw [h3]; exact h2 (hH _)⟩
  refine ⟨φ, ?_, ?_⟩
  · intro c hc
    obtain ⟨pf, tr', h1, h2, h3⟩ := hφ c hc
    refine ⟨?_, ?_, ?_⟩
    · rw [h2]; exact shift_ok cv _ _ _ _ _ _ _ _ _ c
    · rw [h3, h1]
    · rw [h1]; rfl
  · intro c d hc hd h
    obtain ⟨pf, tr', h1, h2, h3⟩ := hφ c hc
    obtain ⟨pf', tr'', h1', h2', h3'⟩ := hφ d hd
    rw [h, h3', Option.some.injEq, Prod.mk.injEq] at h3
    obtain ⟨e, -⟩ := h3
    subst e
    rw [h2, h2'] at h
    exact shift_inj cv _ _ _ _ _ _ _ _ _ c d hc hd h

/-- Commitments to `(3, 1)` with blinding `(1, 2)` open also as `(0, 2)` with blinding `(2, 4)` modulo 7; every hypothesis of the theorem
holds for them. -/
example : List.zipWith (fun (a : ℤ) (m : ℕ) => a • exPP.g + m • exPP.h) [1, 2] [3, 1] =
      List.zipWith (fun (a : ℤ) (m : ℕ) => a • exPP.g + m • exPP.h) [2, 4] [0, 2] ∧
    exPP.rangeLen * 2 = 2 ^ 2 ∧ exPP.rangeLen * 2 ≤ exPP.vecG.length ∧ exPP.rangeLen * 2 ≤ exPP.vecH.length ∧ exPP.h ≠ 0 ∧
    (∀ a ∈ [3, 1], a < 2 ^ exPP.rangeLen) ∧ (∀ a ∈ [0, 2], a < 2 ^ exPP.rangeLen) ∧ (∀ P : ZMod 7, ∃ a : ℤ, P = a • exPP.g) ∧
    (∀ b, ¬ (toyCurve.order : ℤ) ∣ exHash b) ∧ Coins.Ok toyCurve.order (exPP.rangeLen * 2) ⟨1, [1, 2, 3, 4], [5, 6, 0, 1], 2, 4, 5⟩ := by
  refine ⟨by decide +kernel, by decide, by decide, by decide, by decide +kernel, by decide, by decide, ?_, ?_, ?_⟩
  · intro P
    refine ⟨(P.val : ℤ), ?_⟩
    show P = (P.val : ℤ) • (1 : ZMod 7)
    simp
  · intro b
    show ¬ ((7 : ℕ) : ℤ) ∣ exHash b
    unfold exHash
    omega
  · unfold Coins.Ok Canon
    decide +kernel

end Kunlun.Bullet
