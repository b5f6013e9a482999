import Verif.Props.InnerProduct
import Verif.Props.Bullet
import Verif.Model.IpPaths
import Verif.Model.BulletExtract
/-!
C86, C87: what an accepted inner-product proof and an accepted range proof convince the verifier of, when the commitments were fixed
before the challenges were drawn.

A prover that is able to answer is run again with other challenges. From the answers the extractors of `Verif.Model.IpExtract` and
`Verif.Model.BulletExtract` compute openings by explicit formulas; when the opened values are wrong, the same computation has produced a
non-trivial relation between the generators.
-/

namespace Kunlun

open IpExtract BulletExtract

variable {G : Type} [AddCommGroup G] [DecidableEq G]

namespace InnerProduct

/-- The proof a prover gives along a path of challenges. -/
def proofAt (t : Tree ℤ G) (p : List (Fin 4)) : Proof G := ⟨t.pathL p, t.pathR p, t.a p, t.b p⟩

/-- The prover answers every path of challenges of the tree with a proof that the verifier accepts; the hash function of each run gives
these challenges. -/
def Answers (cv : Curve G) (pp : PP G) (P : G) (k : ℕ) (t : Tree ℤ G) : Prop :=
  ∀ p : List (Fin 4), p.length = k → ∃ (H : Bytes → ℤ) (tr tr' : Bytes),
    challenges cv H k (proofAt t p).vecL (proofAt t p).vecR tr = some (t.pathX p, tr') ∧ verify cv H pp P tr (proofAt t p) = some (true, tr')

/-- C86: answers to four challenges per round, not zero and with different squares. The extracted vectors `a`, `b` open `P` as
`g^a h^b u^<a,b>`, or one of the relations computed from the answers is a non-trivial relation between the generators. -/
theorem innerProduct_sound (cv : Curve G) (pp : PP G) (P : G) (k : ℕ) (t : Tree ℤ G) (hk : k < 64) (hlen : pp.len = 2 ^ k) (hlog : pp.logLen = k)
    (hg : pp.vecG.length = pp.len) (hh : pp.vecH.length = pp.len) (ha : Answers cv pp P k t)
    (hgood : haveI := cv.fact; (t.map (Int.cast : ℤ → ZMod cv.order)).Good k) :
    haveI := cv.fact
    letI := cv.toModule
    let T := t.map (Int.cast : ℤ → ZMod cv.order)
    let a := (wit k T).1
    let b := (wit k T).2
    (P = (∑ i ∈ Finset.range pp.len, a i • (pp.vecG[i]?).getD 0) + (∑ i ∈ Finset.range pp.len, b i • (pp.vecH[i]?).getD 0) +
      (∑ i ∈ Finset.range pp.len, a i * b i) • pp.u) ∨
    ∃ ρ ∈ rels k T, ¬ ((∀ i < pp.len, ρ.1 i = 0) ∧ (∀ i < pp.len, ρ.2.1 i = 0) ∧ ρ.2.2 = 0) ∧
      (∑ i ∈ Finset.range pp.len, ρ.1 i • (pp.vecG[i]?).getD 0) + (∑ i ∈ Finset.range pp.len, ρ.2.1 i • (pp.vecH[i]?).getD 0) +
        ρ.2.2 • pp.u = 0 := by
  haveI := cv.fact
  letI := cv.toModule
  intro T a b
  have hp2 : powerOfTwo pp.len = true := by
    rw [powerOfTwo_iff _ (by rw [hlen]; exact Nat.pow_lt_pow_right (by omega) hk)]
    exact ⟨k, hlen⟩
  have hacc : Acc pp.u k (at0 pp.vecG) (at0 pp.vecH) P T := by
    apply acc_of_paths _ _ _ _ _ _ (by omega) (by omega)
    intro p hp
    obtain ⟨H, tr, tr', hc, hv⟩ := ha p hp
    obtain ⟨ok, xs, tr'', hc', hv', hok⟩ := verify_iff cv H pp P tr (proofAt t p) hp2 (by rw [hlog]; exact hlen) hg hh
      (by rw [proofAt, Tree.pathL_length]; omega) (by rw [proofAt, Tree.pathR_length]; omega)
    rw [hlog, hc, Option.some.injEq, Prod.mk.injEq] at hc'
    obtain ⟨rfl, rfl⟩ := hc'
    rw [hv, Option.some.injEq, Prod.mk.injEq] at hv'
    have := hok.1 hv'.1.symm
    unfold Equation at this
    simp only [T, Tree.pathX_map, Tree.pathL_map, Tree.pathR_map]
    exact this
  have := extract_spec pp.u k _ _ P T hgood hacc
  rw [← hlen] at this
  exact this

end InnerProduct

namespace Bullet

/-- The proof a prover gives in a branch of the challenges and along a path of the inner-product part. -/
def proofAt (a : Ans ℤ G) (s i c d : ℕ) (p : List (Fin 4)) : Proof G :=
  ⟨a.A, a.S s, a.T1 s i, a.T2 s i, a.taux s i c d, a.mu s i c d, a.tx s i c d, InnerProduct.proofAt (a.ip s i c d) p⟩

/-- The prover answers every choice of the challenges with a proof for the commitments `C` that the verifier accepts; the hash function of
each run gives these challenges. -/
def Answers (cv : Curve G) (pp : PP G) (C : List G) (tr : Bytes) (k : ℕ) (a : Ans ℤ G) : Prop :=
  ∀ s < pp.rangeLen * C.length, ∀ i < C.length + 2, ∀ c < 3, ∀ d < 2, ∀ p : List (Fin 4), p.length = k →
    let pf := proofAt a s i c d p
    ∃ (H : Bytes → ℤ) (tr' : Bytes), H (tr1 cv pf tr) = a.y s ∧ H (tr2 cv pf tr) = a.z s i ∧ H (tr3 cv pf tr) = a.x s i c ∧
      H (tr4 cv H pf tr) = a.e s i c d ∧
      InnerProduct.challenges cv H k pf.ip.vecL pf.ip.vecR (tr4 cv H pf tr) = some ((a.ip s i c d).pathX p, tr') ∧
      verify cv H pp C tr pf = some (true, tr')

/-- The public generators. -/
def gens (pp : PP G) : Gens G := ⟨at0 pp.vecG, at0 pp.vecH, pp.g, pp.h, pp.u⟩

theorem accepted_of_answers (cv : Curve G) (pp : PP G) (C : List G) (tr : Bytes) (k : ℕ) (a : Ans ℤ G) (hk : k < 64)
    (hpow : pp.rangeLen * C.length = 2 ^ k) (hg : pp.rangeLen * C.length ≤ pp.vecG.length) (hh : pp.rangeLen * C.length ≤ pp.vecH.length)
    (ha : Answers cv pp C tr k a) :
    haveI := cv.fact
    letI := cv.toModule
    (a.map (Int.cast : ℤ → ZMod cv.order)).Accepted pp.rangeLen C.length k (gens pp) (at0 C) := by
  haveI := cv.fact
  letI := cv.toModule
  have hrun : ∀ s < pp.rangeLen * C.length, ∀ i < C.length + 2, ∀ c < 3, ∀ d < 2, ∀ p : List (Fin 4), p.length = k →
      D1 cv pp C (proofAt a s i c d p) (a.y s) (a.z s i) (a.x s i c) = 0 ∧
      D2 cv pp C.length (proofAt a s i c d p) (a.y s) (a.z s i) (a.x s i c) (a.e s i c d) ((a.ip s i c d).pathX p) = 0 := by
    intro s hs i hi c hc d hd p hp
    obtain ⟨H, tr', h1, h2, h3, h4, h5, h6⟩ := ha s hs i hi c hc d hd p hp
    have hf : Fits pp C.length (proofAt a s i c d p) k := ⟨hpow, hk, hg, hh, by
      simp only [proofAt, InnerProduct.proofAt, Tree.pathL_length, hp], by simp only [proofAt, InnerProduct.proofAt, Tree.pathR_length, hp]⟩
    obtain ⟨b, xs, tr'', g1, g2, g3⟩ := verify_spec cv H pp C tr _ k hf
    rw [h5, Option.some.injEq, Prod.mk.injEq] at g1
    obtain ⟨rfl, rfl⟩ := g1
    rw [h6, Option.some.injEq, Prod.mk.injEq] at g2
    have := g3.1 g2.1.symm
    rwa [h1, h2, h3, h4] at this
  refine ⟨?_, ?_⟩
  · intro s hs i hi c hc d hd
    have := (hrun s hs i hi c hc d hd (List.replicate k 0) (by simp)).1
    unfold D1 at this
    simp only [proofAt] at this
    rw [← sub_eq_zero, ← sub_sub]
    exact this
  · intro s hs i hi c hc d hd
    have hv : (hVec cv pp (pp.rangeLen * C.length) (a.y s)).length = 2 ^ k := by rw [hVec_length, hpow]
    have hacc := acc_of_paths ((a.e s i c d : ZMod cv.order) • pp.u) k (pp.vecG.take (pp.rangeLen * C.length))
      (hVec cv pp (pp.rangeLen * C.length) (a.y s)) (ipP cv pp C.length (proofAt a s i c d []) (a.y s) (a.z s i) (a.x s i c) (a.e s i c d))
      ((a.map (Int.cast : ℤ → ZMod cv.order)).ip s i c d) (by rw [List.length_take]; omega) hv (by
        intro p hp
        have := (hrun s hs i hi c hc d hd p hp).2
        unfold D2 at this
        simp only at this
        rw [sub_eq_zero] at this
        simp only [Ans.map, Tree.pathX_map, Tree.pathL_map, Tree.pathR_map]
        exact this)
    have hP : ipP cv pp C.length (proofAt a s i c d []) (a.y s) (a.z s i) (a.x s i c) (a.e s i c d) =
        ipPoint pp.rangeLen (2 ^ k) (gens pp) (a.map (Int.cast : ℤ → ZMod cv.order)) s i c d := by
      unfold ipP ipPoint
      rw [dot_take cv _ _ hg, dot_hVec, hpow]
      rfl
    rw [hP] at hacc
    refine acc_congr _ k _ _ _ _ _ _ ?_ ?_ hacc
    · intro j hj
      simp only [at0, gens, List.getElem?_take]
      rw [if_pos (by omega)]
    · intro j hj
      simp only [at0, gens, hVec, List.getElem?_map]
      rw [List.getElem?_range (by omega)]
      rfl

/-- C87: range proofs when the commitments `C` are fixed before the challenges. Answers to `RANGE_LEN * n` challenges `y`, `n + 2`
challenges `z` for each, three `x` for each, two `e` for each and four challenges per inner-product round: every commitment is opened by
the extracted numbers, `C_j = g^{r_j} h^{v_j}` with `0 <= v_j < 2^RANGE_LEN`, or one of the relations computed from the answers is a
non-trivial relation between the generators. -/
theorem bulletproof_sound (cv : Curve G) (pp : PP G) (C : List G) (tr : Bytes) (k : ℕ) (a : Ans ℤ G) (hk : k < 64)
    (hpow : pp.rangeLen * C.length = 2 ^ k) (hg : pp.rangeLen * C.length ≤ pp.vecG.length) (hh : pp.rangeLen * C.length ≤ pp.vecH.length)
    (ha : Answers cv pp C tr k a)
    (hgood : haveI := cv.fact; (a.map (Int.cast : ℤ → ZMod cv.order)).Good pp.rangeLen C.length k) :
    haveI := cv.fact
    letI := cv.toModule
    let X := a.map (Int.cast : ℤ → ZMod cv.order)
    (∀ (j : Nat) (_ : j < C.length), value pp.rangeLen k X j < 2 ^ pp.rangeLen ∧
      C[j] = (((opC pp.rangeLen C.length X j).1.val : ℕ) : ℤ) • pp.g + ((value pp.rangeLen k X j : ℕ) : ℤ) • pp.h) ∨
    ∃ ρ ∈ allRels pp.rangeLen C.length k X,
      ¬ ((∀ i < pp.rangeLen * C.length, ρ.1.1 i = 0) ∧ (∀ i < pp.rangeLen * C.length, ρ.1.2.1 i = 0) ∧ ρ.1.2.2 = 0 ∧ ρ.2.1 = 0 ∧ ρ.2.2 = 0) ∧
      (∑ i ∈ Finset.range (pp.rangeLen * C.length), ρ.1.1 i • (pp.vecG[i]?).getD 0) +
        (∑ i ∈ Finset.range (pp.rangeLen * C.length), ρ.1.2.1 i • (pp.vecH[i]?).getD 0) + ρ.1.2.2 • pp.u + ρ.2.1 • pp.g + ρ.2.2 • pp.h = 0 := by
  haveI := cv.fact
  letI := cv.toModule
  intro X
  rcases extract_openings hpow hgood (accepted_of_answers cv pp C tr k a hk hpow hg hh ha) with h | ⟨ρ, h1, h2, h3⟩
  · left
    intro j hj
    obtain ⟨e1, e2⟩ := h j hj
    refine ⟨e2, ?_⟩
    have e3 : at0 C j = C[j] := by simp [at0, List.getElem?_eq_getElem hj]
    rw [← e3, e1, cv.cast_smul, cv.cast_smul]
    push_cast
    rw [ZMod.natCast_val, ZMod.cast_id]
    rfl
  · right
    refine ⟨ρ, h1, ?_, ?_⟩
    · intro hz
      apply h2
      rw [← hpow]
      exact ⟨⟨hz.1, hz.2.1, hz.2.2.1⟩, hz.2.2.2.1, hz.2.2.2.2⟩
    · rw [← hpow] at h3
      exact h3

end Bullet



/-! ### An honest prover answers all challenges -/

namespace Bullet

/-- A group with eleven elements. -/
def sCurve : Curve (ZMod 11) where
  order := 11
  prime := by norm_num
  smul_order := by decide
  gen := 1
  gen_ne := by decide
  toBytes P := [UInt8.ofNat P.val]

def sPP : PP (ZMod 11) := ⟨2, 1, 1, 5, 2, [3, 4], [6, 9]⟩

/-- A hash function that gives chosen challenges: the transcript of the example has one byte when `y` is asked, and so on. -/
def sHash (y z x e w : ℤ) (b : Bytes) : ℤ :=
  if b.length = 1 then y else if b.length = 2 then z else if b.length = 4 then x else if b.length = 5 then e else w

def sProof (s i c d j : ℕ) : Proof (ZMod 11) :=
  ((prove sCurve (sHash (s + 1) (i + 1) (c + 1) (d + 1) (j + 1)) sPP 1 [7] [2] ⟨3, [5, 1], [2, 6], 4, 2, 5⟩ []).map Prod.fst).getD
    ⟨0, 0, 0, 0, 0, 0, 0, ⟨[], [], 0, 0⟩⟩

/-- All answers of the honest prover with value 2 and blinding factor 7. -/
def sAns : Ans ℤ (ZMod 11) where
  A := (sProof 0 0 0 0 0).A
  y s := s + 1
  S s := (sProof s 0 0 0 0).S
  z _ i := i + 1
  T1 s i := (sProof s i 0 0 0).T1
  T2 s i := (sProof s i 0 0 0).T2
  x _ _ c := c + 1
  e _ _ _ d := d + 1
  taux s i c d := (sProof s i c d 0).taux
  mu s i c d := (sProof s i c d 0).mu
  tx s i c d := (sProof s i c d 0).tx
  ip s i c d := ⟨fun _ => ((sProof s i c d 0).ip.vecL[0]?).getD 0, fun _ => ((sProof s i c d 0).ip.vecR[0]?).getD 0, fun _ j => (j : ℕ) + 1,
    fun p => (sProof s i c d ((p[0]?).getD 0 : Fin 4)).ip.a, fun p => (sProof s i c d ((p[0]?).getD 0 : Fin 4)).ip.b⟩

def sCheck (s i c d : ℕ) (j : Fin 4) : Bool :=
  let H := sHash (s + 1) (i + 1) (c + 1) (d + 1) ((j : ℕ) + 1)
  let pf := proofAt sAns s i c d [j]
  let ch := InnerProduct.challenges sCurve H 1 pf.ip.vecL pf.ip.vecR (tr4 sCurve H pf [])
  let tr' := (ch.map Prod.snd).getD []
  decide (H (tr1 sCurve pf []) = sAns.y s ∧ H (tr2 sCurve pf []) = sAns.z s i ∧ H (tr3 sCurve pf []) = sAns.x s i c ∧
    H (tr4 sCurve H pf []) = sAns.e s i c d ∧ ch = some ((sAns.ip s i c d).pathX [j], tr') ∧
    verify sCurve H sPP [7 + 2 * 5] [] pf = some (true, tr'))

theorem sCheck_all : ∀ s < 2, ∀ i < 3, ∀ c < 3, ∀ d < 2, ∀ j : Fin 4, sCheck s i c d j = true := by
  decide +kernel

/-- The hypotheses of `bulletproof_sound` hold for the honest prover's answers. -/
example : Answers sCurve sPP [7 + 2 * 5] [] 1 sAns ∧
    (haveI := sCurve.fact; (sAns.map (Int.cast : ℤ → ZMod sCurve.order)).Good sPP.rangeLen 1 1) := by
  constructor
  · intro s hs i hi c hc d hd p hp pf
    obtain ⟨j, rfl⟩ := List.length_eq_one_iff.1 hp
    have := of_decide_eq_true (sCheck_all s hs i hi c hc d hd j)
    exact ⟨_, _, this⟩
  · haveI := sCurve.fact
    refine ⟨?_, ?_, ?_, ?_, ?_, ?_, ?_, ?_⟩
    · show ∀ s < 2, ((((s : ℕ) : ℤ) + 1 : ℤ) : ZMod 11) ≠ 0
      decide
    · show ∀ s < 2, ∀ t < 2, ((((s : ℕ) : ℤ) + 1 : ℤ) : ZMod 11) = ((((t : ℕ) : ℤ) + 1 : ℤ) : ZMod 11) → s = t
      decide
    · show ∀ s < 3, ((((s : ℕ) : ℤ) + 1 : ℤ) : ZMod 11) ≠ 0
      decide
    · intro _ _
      show ∀ s < 3, ∀ t < 3, ((((s : ℕ) : ℤ) + 1 : ℤ) : ZMod 11) = ((((t : ℕ) : ℤ) + 1 : ℤ) : ZMod 11) → s = t
      decide
    · intro _ _ _ _
      show ∀ s < 3, ∀ t < 3, ((((s : ℕ) : ℤ) + 1 : ℤ) : ZMod 11) = ((((t : ℕ) : ℤ) + 1 : ℤ) : ZMod 11) → s = t
      decide
    · intro _ _ _ _ _ _
      show ∀ s < 2, ((((s : ℕ) : ℤ) + 1 : ℤ) : ZMod 11) ≠ 0
      decide
    · intro _ _ _ _ _ _
      show ((((0 : ℕ) : ℤ) + 1 : ℤ) : ZMod 11) ≠ ((((1 : ℕ) : ℤ) + 1 : ℤ) : ZMod 11)
      decide
    · intro _ _ _ _ _ _ _ _
      refine ⟨fun _ _ => ?_, fun _ _ => ?_⟩
      · show ∀ i : Fin 4, ((((i : ℕ) : ℤ) + 1 : ℤ) : ZMod 11) ≠ 0
        decide
      · show ∀ i j : Fin 4, i ≠ j → ((((i : ℕ) : ℤ) + 1 : ℤ) : ZMod 11) ^ 2 ≠ ((((j : ℕ) : ℤ) + 1 : ℤ) : ZMod 11) ^ 2
        decide

/-- The same for the inner-product argument alone: `g = (3, 4)`, `h = (6, 9)`, `u = 2`, vectors `(2, 5)` and `(1, 3)`. -/
def sIp (j : ℕ) : InnerProduct.Proof (ZMod 11) :=
  ((InnerProduct.prove sCurve (fun _ => (j : ℤ) + 1) ⟨2, 1, [3, 4], [6, 9], 2⟩ [2, 5] [1, 3] []).map Prod.fst).getD ⟨[], [], 0, 0⟩

def sTree : Tree ℤ (ZMod 11) :=
  ⟨fun _ => ((sIp 0).vecL[0]?).getD 0, fun _ => ((sIp 0).vecR[0]?).getD 0, fun _ j => (j : ℕ) + 1,
    fun p => (sIp ((p[0]?).getD 0 : Fin 4)).a, fun p => (sIp ((p[0]?).getD 0 : Fin 4)).b⟩

def sIpCheck (j : Fin 4) : Bool :=
  let pf := InnerProduct.proofAt sTree [j]
  let ch := InnerProduct.challenges sCurve (fun _ => ((j : ℕ) : ℤ) + 1) 1 pf.vecL pf.vecR []
  let tr' := (ch.map Prod.snd).getD []
  decide (ch = some (sTree.pathX [j], tr') ∧
    InnerProduct.verify sCurve (fun _ => ((j : ℕ) : ℤ) + 1) ⟨2, 1, [3, 4], [6, 9], 2⟩ (2 * 3 + 5 * 4 + (1 * 6 + 3 * 9) + 17 * 2) [] pf =
      some (true, tr'))

theorem sIpCheck_all : ∀ j : Fin 4, sIpCheck j = true := by
  decide +kernel

/-- The hypotheses of `innerProduct_sound` hold for the honest prover's answers. -/
example : InnerProduct.Answers sCurve ⟨2, 1, [3, 4], [6, 9], 2⟩ (2 * 3 + 5 * 4 + (1 * 6 + 3 * 9) + 17 * 2) 1 sTree ∧
    (haveI := sCurve.fact; (sTree.map (Int.cast : ℤ → ZMod sCurve.order)).Good 1) := by
  constructor
  · intro p hp
    obtain ⟨j, rfl⟩ := List.length_eq_one_iff.1 hp
    exact ⟨_, _, _, of_decide_eq_true (sIpCheck_all j)⟩
  · haveI := sCurve.fact
    refine ⟨fun _ _ => ?_, fun _ _ => ?_⟩
    · show ∀ i : Fin 4, ((((i : ℕ) : ℤ) + 1 : ℤ) : ZMod 11) ≠ 0
      decide
    · show ∀ i j : Fin 4, i ≠ j → ((((i : ℕ) : ℤ) + 1 : ℤ) : ZMod 11) ^ 2 ≠ ((((j : ℕ) : ℤ) + 1 : ℤ) : ZMod 11) ^ 2
      decide

end Bullet
end Kunlun
