import Verif.Model.InnerProductLemmas
import Verif.Props.BigInt
/-!
C36, C37: the inner-product argument.
-/

namespace Kunlun.InnerProduct

open Kunlun

variable {G : Type} [AddCommGroup G]

/-- The equation both verifiers check, over `Z_q`, for challenges `xs`. -/
def Equation (cv : Curve G) (pp : PP G) (P : G) (pf : Proof G) (xs : List ℤ) : Prop :=
  haveI := cv.fact
  letI := cv.toModule
  let x := residues cv.order xs
  (pf.a : ZMod cv.order) • dot pp.vecG (svec x) + (pf.b : ZMod cv.order) • dot pp.vecH (svec (x.map (·⁻¹))) +
      ((pf.a : ZMod cv.order) * pf.b) • pp.u =
    dot pf.vecL (x.map fun y => y * y) + dot pf.vecR (x.map fun y => y⁻¹ * y⁻¹) + P

theorem challenges_length (cv : Curve G) (H : Bytes → ℤ) (n : Nat) (Ls Rs : List G) (tr : Bytes) (xs : List ℤ) (tr' : Bytes)
    (h : challenges cv H n Ls Rs tr = some (xs, tr')) : xs.length = n := by
  induction n generalizing Ls Rs tr xs with
  | zero => simp [challenges] at h; rw [h.1]; rfl
  | succ n ih =>
    cases Ls with
    | nil => simp [challenges] at h
    | cons L Ls =>
      cases Rs with
      | nil => simp [challenges] at h
      | cons R Rs =>
        simp only [challenges, Option.map_eq_some_iff] at h
        obtain ⟨⟨xs', t'⟩, h', heq⟩ := h
        simp only [Prod.mk.injEq] at heq
        obtain ⟨rfl, rfl⟩ := heq
        simp [ih Ls Rs _ xs' h']

theorem challenges_some (cv : Curve G) (H : Bytes → ℤ) (n : Nat) (Ls Rs : List G) (tr : Bytes) (hL : n ≤ Ls.length) (hR : n ≤ Rs.length) :
    ∃ xs tr', challenges cv H n Ls Rs tr = some (xs, tr') := by
  induction n generalizing Ls Rs tr with
  | zero => exact ⟨[], tr, by cases Ls <;> rfl⟩
  | succ n ih =>
    cases Ls with
    | nil => simp at hL
    | cons L Ls =>
      cases Rs with
      | nil => simp at hR
      | cons R Rs =>
        obtain ⟨xs, tr', h⟩ := ih Ls Rs (tr ++ (cv.toBytes L ++ cv.toBytes R)) (by simpa using hL) (by simpa using hR)
        exact ⟨_, _, by simp only [challenges, h, Option.map_some]; rfl⟩

theorem residues_sq (cv : Curve G) (xs : List ℤ) :
    residues cv.order (xs.map fun x => BigInt.modSquare x cv.order) = (residues cv.order xs).map fun y => y * y := by
  unfold residues
  rw [List.map_map, List.map_map]
  apply List.map_congr_left
  intro x _
  simp [cast_modSquare]

theorem residues_inv (cv : Curve G) (xs : List ℤ) :
    residues cv.order (xs.map fun x => BigInt.modInverse x cv.order) = (residues cv.order xs).map (·⁻¹) :=
  residues_modInverse cv xs

theorem residues_append (q : ℕ) (a b : List ℤ) : residues q (a ++ b) = residues q a ++ residues q b := by simp [residues]

theorem residues_single (q : ℕ) (a : ℤ) : residues q [a] = [(a : ZMod q)] := rfl

variable [DecidableEq G]

/-- What `Verify` computes on a proof of the right shape. -/
theorem verify_iff (cv : Curve G) (H : Bytes → ℤ) (pp : PP G) (P : G) (tr : Bytes) (pf : Proof G)
    (hp : powerOfTwo pp.len = true) (hlen : pp.len = 2 ^ pp.logLen) (hg : pp.vecG.length = pp.len) (hh : pp.vecH.length = pp.len)
    (hL : pf.vecL.length = pp.logLen) (hR : pf.vecR.length = pp.logLen) :
    ∃ b xs tr', challenges cv H pp.logLen pf.vecL pf.vecR tr = some (xs, tr') ∧ verify cv H pp P tr pf = some (b, tr') ∧
      (b = true ↔ Equation cv pp P pf xs) := by
  haveI := cv.fact
  letI := cv.toModule
  obtain ⟨xs, tr', hc⟩ := challenges_some cv H pp.logLen pf.vecL pf.vecR tr (by omega) (by omega)
  have hxl := challenges_length _ _ _ _ _ _ _ _ hc
  unfold verify
  simp only [hc, hp, Bool.true_eq_false, if_false, Option.bind_eq_bind, Option.bind_some, Option.pure_def]
  have hs := computeSS_svec cv xs
  rw [hxl, ← hlen] at hs
  have hsl := computeSS_length cv.order pp.len xs (xs.map fun x => BigInt.modInverse x cv.order)
  generalize computeSS cv.order pp.len xs (xs.map fun x => BigInt.modInverse x cv.order) = s at hs hsl
  -- left
  have hsa : (BigInt.vecScalar s pf.a).length = pp.len := by simp [BigInt.vecScalar, hsl]
  have hsb : (BigInt.vecScalar (BigInt.vecModInverse s cv.order) pf.b).length = pp.len := by
    simp [BigInt.vecScalar, BigInt.vecModInverse, hsl]
  have hra := residues_scalar cv s pf.a
  have hrb := residues_scalar cv (BigInt.vecModInverse s cv.order) pf.b
  rw [residues_modInverse, hs, svec_inv] at hrb
  rw [hs] at hra
  generalize BigInt.vecScalar s pf.a = sa at *
  generalize BigInt.vecScalar (BigInt.vecModInverse s cv.order) pf.b = sb at *
  have hq1 : (xs.map fun x => BigInt.modSquare x cv.order).length = pp.logLen := by simp [hxl]
  have hr1 := residues_sq cv xs
  have hq2 : ((xs.map fun x => BigInt.modInverse x cv.order).map fun x => BigInt.modSquare x cv.order).length = pp.logLen := by simp [hxl]
  have hr2 := residues_sq cv (xs.map fun x => BigInt.modInverse x cv.order)
  rw [residues_inv] at hr2
  generalize (xs.map fun x => BigInt.modSquare x cv.order) = q1 at *
  generalize ((xs.map fun x => BigInt.modInverse x cv.order).map fun x => BigInt.modSquare x cv.order) = q2 at *
  rw [blit_start _ _ (by simp [hg]; omega), Option.bind_some, blit_append _ _ _ (by simp [hg, hh]; omega) _ hg.symm, Option.bind_some,
    blit_start _ _ (by simp [hsa]; omega), Option.bind_some, blit_append _ _ _ (by simp [hsa, hsb]; omega) _ hsa.symm, Option.bind_some]
  rw [set_last _ _ _ (by simp [hg, hh]; omega) _ (by simp [hg, hh]; omega),
    set_last _ _ _ (by simp [hsa, hsb]; omega) _ (by simp [hsa, hsb]; omega)]
  unfold vecMul
  rw [if_neg (by simp [hg, hh, hsa, hsb]), Option.bind_some]
  have hrl := resize_length (pp.vecG ++ pp.vecH ++ [pp.u]) (2 * pp.logLen + 1) 0
  have hrl2 := resize_length (sa ++ sb ++ [pf.a * pf.b]) (2 * pp.logLen + 1) 0
  generalize resize (pp.vecG ++ pp.vecH ++ [pp.u]) (2 * pp.logLen + 1) 0 = rA at *
  generalize resize (sa ++ sb ++ [pf.a * pf.b]) (2 * pp.logLen + 1) 0 = ra at *
  rw [blit_start _ _ (by omega), Option.bind_some, blit_append _ _ _ (by simp; omega) _ hL.symm, Option.bind_some,
    blit_start _ _ (by omega), Option.bind_some, blit_append _ _ _ (by simp; omega) _ hq1.symm, Option.bind_some]
  rw [set_last _ _ _ (by simp; omega) _ (by simp; omega), set_last _ _ _ (by simp; omega) _ (by simp; omega)]
  rw [if_neg (by simp [hL, hR, hq1, hq2]), Option.bind_some]
  refine ⟨_, xs, tr', rfl, rfl, ?_⟩
  rw [decide_eq_true_eq, msm_cast cv, msm_cast cv]
  unfold Equation
  simp only [residues_append, residues_single]
  rw [dot_append _ _ _ _ (by simp [residues_length]; omega), dot_append _ _ _ _ (by rw [residues_length]; omega),
    dot_append _ _ _ _ (by simp [residues_length]; omega), dot_append _ _ _ _ (by rw [residues_length]; omega)]
  rw [hra, hrb, hr1, hr2, dot_mul, dot_mul, List.map_map]
  simp only [dot_cons, dot_nil, add_zero, Int.cast_mul, Int.cast_one, one_smul]
  rfl

/-- What `FastVerify` computes on a proof of the right shape. -/
theorem fastVerify_iff (cv : Curve G) (H : Bytes → ℤ) (pp : PP G) (P : G) (tr : Bytes) (pf : Proof G)
    (hp : powerOfTwo pp.len = true) (hlen : pp.len = 2 ^ pp.logLen) (hg : pp.vecG.length = pp.len) (hh : pp.vecH.length = pp.len)
    (hL : pf.vecL.length = pp.logLen) (hR : pf.vecR.length = pp.logLen) :
    ∃ b xs tr', challenges cv H pp.logLen pf.vecL pf.vecR tr = some (xs, tr') ∧ fastVerify cv H pp P tr pf = some (b, tr') ∧
      (b = true ↔ Equation cv pp P pf xs) := by
  haveI := cv.fact
  letI := cv.toModule
  obtain ⟨xs, tr', hc⟩ := challenges_some cv H pp.logLen pf.vecL pf.vecR tr (by omega) (by omega)
  have hxl := challenges_length _ _ _ _ _ _ _ _ hc
  unfold fastVerify
  simp only [hc, hp, Bool.true_eq_false, if_false, Option.bind_eq_bind, Option.bind_some, Option.pure_def]
  rw [fastSS_eq]
  have hs := computeSS_svec cv xs
  have hsl := computeSS_length cv.order (2 ^ xs.length) xs (xs.map fun x => BigInt.modInverse x cv.order)
  generalize computeSS cv.order (2 ^ xs.length) xs (xs.map fun x => BigInt.modInverse x cv.order) = s at hs hsl
  rw [hxl, ← hlen] at hsl
  have hsa : (BigInt.vecScalar s pf.a).length = pp.len := by simp [BigInt.vecScalar, hsl]
  have hsb : (BigInt.vecScalar (BigInt.vecModInverse s cv.order) pf.b).length = pp.len := by
    simp [BigInt.vecScalar, BigInt.vecModInverse, hsl]
  have hra := residues_scalar cv s pf.a
  have hrb := residues_scalar cv (BigInt.vecModInverse s cv.order) pf.b
  rw [residues_modInverse, hs, svec_inv] at hrb
  rw [hs] at hra
  generalize BigInt.vecScalar s pf.a = sa at *
  generalize BigInt.vecScalar (BigInt.vecModInverse s cv.order) pf.b = sb at *
  have hq1 : (xs.map fun x => BigInt.modSquare x cv.order).length = pp.logLen := by simp [hxl]
  have hr1 := residues_sq cv xs
  have hq2 : ((xs.map fun x => BigInt.modInverse x cv.order).map fun x => BigInt.modSquare x cv.order).length = pp.logLen := by simp [hxl]
  have hr2 := residues_sq cv (xs.map fun x => BigInt.modInverse x cv.order)
  rw [residues_inv] at hr2
  generalize (xs.map fun x => BigInt.modSquare x cv.order) = q1 at *
  generalize ((xs.map fun x => BigInt.modInverse x cv.order).map fun x => BigInt.modSquare x cv.order) = q2 at *
  rw [blit_start _ _ (by simp [hg]; omega), Option.bind_some, blit_append _ _ _ (by simp [hg, hh]; omega) _ hg.symm, Option.bind_some,
    blit_append _ _ _ (by simp [hg, hh]; omega) _ (by simp [hg, hh]; omega), Option.bind_some,
    blit_append _ _ _ (by simp [hg, hh]; omega) _ (by simp [hg, hh]; omega), Option.bind_some,
    blit_start _ _ (by simp [hsa]; omega), Option.bind_some, blit_append _ _ _ (by simp [hsa, hsb]; omega) _ hsa.symm, Option.bind_some,
    blit_append _ _ _ (by simp [hsa, hsb]; omega) _ (by simp [hsa, hsb]; omega), Option.bind_some,
    blit_append _ _ _ (by simp [hsa, hsb]; omega) _ (by simp [hsa, hsb]; omega), Option.bind_some]
  rw [set_last _ _ _ (by simp [hg, hh]; omega) _ (by simp [hg, hh]; omega),
    set_last _ _ _ (by simp [hsa, hsb]; omega) _ (by simp [hsa, hsb]; omega)]
  have hneg : ((sa ++ sb ++ q1 ++ q2 ++ [pf.a * pf.b]).mapIdx fun i v =>
      if 2 * pp.len ≤ i ∧ i < 2 * pp.len + 2 * pp.logLen then -v else v) =
      sa ++ sb ++ q1.map (fun v => -v) ++ q2.map (fun v => -v) ++ [pf.a * pf.b] := by
    rw [List.mapIdx_append, List.mapIdx_append, List.mapIdx_append, List.mapIdx_append]
    congr 1
    · congr 1
      · congr 1
        · congr 1
          · apply List.ext_getElem (by simp)
            intro i h1 h2
            rw [List.getElem_mapIdx, if_neg]; omega
          · apply List.ext_getElem (by simp)
            intro i h1 h2
            rw [List.getElem_mapIdx, if_neg]; omega
        · apply List.ext_getElem (by simp)
          intro i h1 h2
          rw [List.getElem_mapIdx, List.getElem_map, if_pos]
          simp at h2 ⊢; omega
      · apply List.ext_getElem (by simp)
        intro i h1 h2
        rw [List.getElem_mapIdx, List.getElem_map, if_pos]
        simp at h2 ⊢; omega
    · simp [hsa, hsb, hq1, hq2]; intro _ h; omega
  rw [hneg]
  unfold vecMul
  rw [if_neg (by simp [hg, hh, hsa, hsb, hL, hR, hq1, hq2]), Option.bind_some]
  refine ⟨_, xs, tr', rfl, rfl, ?_⟩
  rw [decide_eq_true_eq, msm_cast cv]
  unfold Equation
  simp only [residues_append, residues_single]
  have hnegr : ∀ q : List ℤ, residues cv.order (q.map fun v => -v) = (residues cv.order q).map ((-1 : ZMod cv.order) * ·) := by
    intro q; unfold residues; rw [List.map_map, List.map_map]; apply List.map_congr_left; intro v _; simp
  rw [dot_append _ _ _ _ (by simp [residues_length, hg, hh, hL, hR, hsa, hsb, hq1, hq2]),
    dot_append _ _ _ _ (by simp [residues_length, hg, hh, hL, hR, hsa, hsb, hq1, hq2]),
    dot_append _ _ _ _ (by simp [residues_length, hg, hh, hL, hR, hsa, hsb, hq1, hq2]),
    dot_append _ _ _ _ (by simp [residues_length, hg, hh, hL, hR, hsa, hsb, hq1, hq2])]
  rw [hnegr, hnegr, hra, hrb, hr1, hr2, dot_mul, dot_mul, dot_mul, dot_mul, List.map_map]
  simp only [dot_cons, dot_nil, add_zero, Int.cast_mul]
  have hcomp : ((fun y => y * y) ∘ fun y : ZMod cv.order => y⁻¹) = fun y => y⁻¹ * y⁻¹ := rfl
  rw [hcomp]
  generalize dot pf.vecL (List.map (fun y => y * y) (residues cv.order xs)) = Lx
  generalize dot pf.vecR (List.map (fun y => y⁻¹ * y⁻¹) (residues cv.order xs)) = Rx
  generalize (pf.a : ZMod cv.order) • dot pp.vecG (svec (residues cv.order xs)) = X
  generalize (pf.b : ZMod cv.order) • dot pp.vecH (svec (List.map (fun x => x⁻¹) (residues cv.order xs))) = Y
  generalize ((pf.a : ZMod cv.order) * (pf.b : ZMod cv.order)) • pp.u = U
  constructor
  · intro h; rw [← h]; module
  · intro h
    have : P = X + Y + U - Lx - Rx := by rw [h]; abel
    rw [this]; module

/-- C37: `FastVerify` and `Verify` give the same answer and leave the same transcript, on every proof — honest or not — with
`log2 VECTOR_LEN` entries in `vec_L` and `vec_R`. -/
theorem innerProduct_fast_agrees (cv : Curve G) (H : Bytes → ℤ) (pp : PP G) (P : G) (tr : Bytes) (pf : Proof G)
    (hp : powerOfTwo pp.len = true) (hlen : pp.len = 2 ^ pp.logLen) (hg : pp.vecG.length = pp.len) (hh : pp.vecH.length = pp.len)
    (hL : pf.vecL.length = pp.logLen) (hR : pf.vecR.length = pp.logLen) :
    fastVerify cv H pp P tr pf = verify cv H pp P tr pf ∧ (verify cv H pp P tr pf).isSome := by
  obtain ⟨b, xs, tr', hc, hv, hb⟩ := verify_iff cv H pp P tr pf hp hlen hg hh hL hR
  obtain ⟨b', xs', tr'', hc', hv', hb'⟩ := fastVerify_iff cv H pp P tr pf hp hlen hg hh hL hR
  rw [hc, Option.some.injEq, Prod.mk.injEq] at hc'
  obtain ⟨rfl, rfl⟩ := hc'
  rw [hv, hv']
  have : b = b' := by rw [Bool.eq_iff_iff, hb, hb']
  rw [this]
  simp

/-- C37: `FastComputeVectorSS` equals `ComputeVectorSS` for every challenge vector, zero and unreduced challenges included. -/
theorem innerProduct_fast_scalars (cv : Curve G) (xs : List ℤ) :
    fastSS cv.order (xs.map fun x => BigInt.modSquare x cv.order) (xs.map fun x => BigInt.modInverse x cv.order) =
      computeSS cv.order (2 ^ xs.length) xs (xs.map fun x => BigInt.modInverse x cv.order) := fastSS_eq cv xs

/-- The invariant of `Prove`: whatever the challenges, the folded statement is what the verifier's equation says. -/
theorem proveLoop_spec (cv : Curve G) (H : Bytes → ℤ) (u : G) (k : Nat) (g h : List G) (a b : List ℤ) (tr : Bytes)
    (hg : g.length = 2 ^ k) (hh : h.length = 2 ^ k) (ha : a.length = 2 ^ k) (hb : b.length = 2 ^ k) :
    haveI := cv.fact
    letI := cv.toModule
    ∃ pf tr' xs, proveLoop cv H u k g h a b tr = some (pf, tr') ∧ pf.vecL.length = k ∧ pf.vecR.length = k ∧
      challenges cv H k pf.vecL pf.vecR tr = some (xs, tr') ∧
      ((∀ x ∈ xs, ¬ (cv.order : ℤ) ∣ x) →
        (pf.a : ZMod cv.order) • dot g (svec (residues cv.order xs)) +
            (pf.b : ZMod cv.order) • dot h (svec ((residues cv.order xs).map (·⁻¹))) + ((pf.a : ZMod cv.order) * pf.b) • u =
          dot pf.vecL ((residues cv.order xs).map fun y => y * y) + dot pf.vecR ((residues cv.order xs).map fun y => y⁻¹ * y⁻¹) +
            (dot g (residues cv.order a) + dot h (residues cv.order b) + dot (residues cv.order a) (residues cv.order b) • u)) := by
  haveI := cv.fact
  letI := cv.toModule
  induction k generalizing g h a b tr with
  | zero =>
    match g, h, a, b, hg, hh, ha, hb with
    | [g0], [h0], [a0], [b0], _, _, _, _ =>
      refine ⟨⟨[], [], a0, b0⟩, tr, [], rfl, rfl, rfl, rfl, ?_⟩
      intro _
      simp [residues, svec, mul_comm]
  | succ k ih =>
    have hpos : 2 ^ (k + 1) = 2 ^ k + 2 ^ k := by rw [pow_succ]; ring
    rw [hpos] at hg hh ha hb
    -- the halves
    have split : ∀ {α : Type} (l : List α), l.length = 2 ^ k + 2 ^ k →
        (l.take (2 ^ k)).length = 2 ^ k ∧ (l.drop (2 ^ k)).length = 2 ^ k := by
      intro α l hl
      simp [hl]
    obtain ⟨hgL, hgR⟩ := split g hg
    obtain ⟨hhL, hhR⟩ := split h hh
    obtain ⟨haL, haR⟩ := split a ha
    obtain ⟨hbL, hbR⟩ := split b hb
    have eg := (List.take_append_drop (2 ^ k) g).symm
    have eh := (List.take_append_drop (2 ^ k) h).symm
    have ea := (List.take_append_drop (2 ^ k) a).symm
    have eb := (List.take_append_drop (2 ^ k) b).symm
    unfold proveLoop
    simp only
    generalize g.take (2 ^ k) = gL at *
    generalize g.drop (2 ^ k) = gR at *
    generalize h.take (2 ^ k) = hL at *
    generalize h.drop (2 ^ k) = hR at *
    generalize a.take (2 ^ k) = aL at *
    generalize a.drop (2 ^ k) = aR at *
    generalize b.take (2 ^ k) = bL at *
    generalize b.drop (2 ^ k) = bR at *
    subst eg eh ea eb
    obtain ⟨cL, hcL, vcL⟩ := inner_cast cv aL bR (by omega)
    obtain ⟨cR, hcR, vcR⟩ := inner_cast cv aR bL (by omega)
    simp only [hcL, hcR, Option.bind_eq_bind, Option.bind_some, Option.pure_def]
    unfold vecMul
    rw [if_neg (by simp; omega), if_neg (by simp; omega), Option.bind_some, Option.bind_some]
    have hLv : msm (gR ++ hL ++ [u]) (aL ++ bR ++ [cL]) =
        dot gR (residues cv.order aL) + dot hL (residues cv.order bR) + dot (residues cv.order aL) (residues cv.order bR) • u := by
      rw [msm_cast cv, residues_append, residues_append, residues_single, dot_append _ _ _ _ (by simp [residues_length]; omega),
        dot_append _ _ _ _ (by rw [residues_length]; omega), dot_cons, dot_nil, add_zero, vcL]
    have hRv : msm (gL ++ hR ++ [u]) (aR ++ bL ++ [cR]) =
        dot gL (residues cv.order aR) + dot hR (residues cv.order bL) + dot (residues cv.order aR) (residues cv.order bL) • u := by
      rw [msm_cast cv, residues_append, residues_append, residues_single, dot_append _ _ _ _ (by simp [residues_length]; omega),
        dot_append _ _ _ _ (by rw [residues_length]; omega), dot_cons, dot_nil, add_zero, vcR]
    generalize msm (gR ++ hL ++ [u]) (aL ++ bR ++ [cL]) = L at *
    generalize msm (gL ++ hR ++ [u]) (aR ++ bL ++ [cR]) = R at *
    generalize htr1 : tr ++ (cv.toBytes L ++ cv.toBytes R) = tr1
    generalize hx : H tr1 = x
    generalize hxi : BigInt.modInverse x cv.order = xi
    have hxi' : (xi : ZMod cv.order) = (x : ZMod cv.order)⁻¹ := by rw [← hxi]; exact cv.cast_modInverse x
    unfold ecVecAdd
    rw [if_neg (by simp [ecVecScalar]; omega), if_neg (by simp [ecVecScalar]; omega), Option.bind_some, Option.bind_some]
    rw [ecScalar_cast cv, ecScalar_cast cv, ecScalar_cast cv, ecScalar_cast cv]
    obtain ⟨a', ha', la', ra'⟩ := residues_modAdd cv (BigInt.vecModScalar aL x cv.order) (BigInt.vecModScalar aR xi cv.order)
      (by simp [BigInt.vecModScalar]; omega)
    obtain ⟨b', hb', lb', rb'⟩ := residues_modAdd cv (BigInt.vecModScalar bL xi cv.order) (BigInt.vecModScalar bR x cv.order)
      (by simp [BigInt.vecModScalar]; omega)
    rw [ha', hb', Option.bind_some, Option.bind_some]
    rw [residues_modScalar, residues_modScalar] at ra' rb'
    rw [hxi'] at ra' rb' ⊢
    obtain ⟨pf, tr', xs, hp, l1, l2, hch, heq⟩ := ih
      (List.zipWith (· + ·) (gL.map ((x : ZMod cv.order)⁻¹ • ·)) (gR.map ((x : ZMod cv.order) • ·)))
      (List.zipWith (· + ·) (hL.map ((x : ZMod cv.order) • ·)) (hR.map ((x : ZMod cv.order)⁻¹ • ·))) a' b' tr1
      (by simp [hgL, hgR]) (by simp [hhL, hhR]) (by rw [la']; simp [BigInt.vecModScalar, haL])
      (by rw [lb']; simp [BigInt.vecModScalar, hbL])
    rw [hp, Option.bind_some]
    have hxl := challenges_length _ _ _ _ _ _ _ _ hch
    refine ⟨_, _, x :: xs, rfl, by simp [l1], by simp [l2], ?_, ?_⟩
    · simp only [challenges, htr1, hx, hch, Option.map_some]
    · intro hne
      have hx0 : (x : ZMod cv.order) ≠ 0 := cv.cast_ne_zero (hne x List.mem_cons_self)
      have heq' := heq (fun y hy => hne y (List.mem_cons_of_mem _ hy))
      have hrx : residues cv.order (x :: xs) = (x : ZMod cv.order) :: residues cv.order xs := rfl
      rw [hrx, List.map_cons, fold_svec _ _ _ _ (by rw [residues_length, hxl]; omega) (by rw [residues_length, hxl]; omega),
        fold_svec _ _ _ _ (by rw [List.length_map, residues_length, hxl]; omega) (by rw [List.length_map, residues_length, hxl]; omega), inv_inv]
      simp only
      rw [heq', List.map_cons, List.map_cons, dot_cons, dot_cons, ra', rb', residues_append, residues_append]
      generalize hX : (x : ZMod cv.order) = X at *
      have hXX : X * X⁻¹ = 1 := mul_inv_cancel₀ hx0
      have hXX' : X⁻¹ * X = 1 := inv_mul_cancel₀ hx0
      rw [dot_append _ _ _ _ (by rw [residues_length]; omega), dot_append _ _ _ _ (by rw [residues_length]; omega),
        dot_append _ _ _ _ (by rw [residues_length, residues_length]; omega)]
      rw [fold_dot X X⁻¹ hXX gL gR _ _ (by omega) (by rw [residues_length, residues_length]; omega),
        fold_dot X⁻¹ X hXX' hL hR _ _ (by omega) (by rw [residues_length, residues_length]; omega)]
      have hip := fold_dot (M := ZMod cv.order) X⁻¹ X hXX' (residues cv.order aL) (residues cv.order aR) (residues cv.order bL)
        (residues cv.order bR) (by rw [residues_length, residues_length]; omega) (by rw [residues_length, residues_length]; omega)
      simp only [smul_eq_mul] at hip
      rw [hip, hLv, hRv]
      simp only [smul_add, add_smul, mul_smul, smul_eq_mul]
      abel

/-- C36: for every vector length `2^k`, all generators, vectors, transcripts and hash functions whose round challenges are invertible:
`Prove` succeeds, and `Verify` accepts the proof exactly for the point `P = g^a h^b u^<a,b>`; both end with the same transcript. -/
theorem innerProduct_complete (cv : Curve G) (H : Bytes → ℤ) (pp : PP G) (a b : List ℤ) (tr : Bytes) (P : G) (k : Nat) (hk : k < 64)
    (hlen : pp.len = 2 ^ k) (hlog : pp.logLen = k) (hg : pp.vecG.length = pp.len) (hh : pp.vecH.length = pp.len)
    (ha : a.length = pp.len) (hb : b.length = pp.len) :
    ∃ pf tr' xs, prove cv H pp a b tr = some (pf, tr') ∧ challenges cv H k pf.vecL pf.vecR tr = some (xs, tr') ∧
      ((∀ x ∈ xs, ¬ (cv.order : ℤ) ∣ x) → ∃ ok, verify cv H pp P tr pf = some (ok, tr') ∧
        (ok = true ↔ P = msm pp.vecG a + msm pp.vecH b + (List.zipWith (· * ·) a b).sum • pp.u)) := by
  haveI := cv.fact
  letI := cv.toModule
  have hp2 : powerOfTwo pp.len = true := by
    rw [powerOfTwo_iff _ (by rw [hlen]; exact Nat.pow_lt_pow_right (by omega) hk)]
    exact ⟨k, hlen⟩
  have hlog2 : pp.len.log2 = k := by rw [hlen]; exact Nat.log2_two_pow
  obtain ⟨pf, tr', xs, hpr, l1, l2, hch, heq⟩ := proveLoop_spec cv H pp.u k pp.vecG pp.vecH a b tr (by omega) (by omega) (by omega) (by omega)
  refine ⟨pf, tr', xs, ?_, hch, ?_⟩
  · unfold prove
    rw [if_neg (by rw [hp2]; simp; omega), hlog2, hpr]
  · intro hne
    obtain ⟨ok, xs', tr'', hc', hv, hok⟩ := verify_iff cv H pp P tr pf hp2 (by rw [hlog]; exact hlen) hg hh (by omega) (by omega)
    rw [hlog, hch, Option.some.injEq, Prod.mk.injEq] at hc'
    obtain ⟨rfl, rfl⟩ := hc'
    refine ⟨ok, hv, ?_⟩
    rw [hok]
    unfold Equation
    simp only
    rw [heq hne]
    have hP : msm pp.vecG a + msm pp.vecH b + (List.zipWith (· * ·) a b).sum • pp.u =
        dot pp.vecG (residues cv.order a) + dot pp.vecH (residues cv.order b) +
          dot (residues cv.order a) (residues cv.order b) • pp.u := by
      rw [msm_cast cv, msm_cast cv, cv.cast_smul]
      have := dotLoop_cast cv.order a b 0
      rw [BigInt.dotLoop_eq a b 0 (by omega)] at this
      simp only [zero_add, Int.cast_zero] at this
      rw [this]
    rw [hP]
    constructor
    · intro h; exact (add_left_cancel h).symm
    · intro h; rw [h]

omit [DecidableEq G] in
/-- C36: `Setup` refuses every length that is not a power of two, and no other. -/
theorem innerProduct_setup (len : Nat) (hlen : len < 2 ^ 64) (g h : List G) (u : G) :
    (setup len g h u = none ↔ ¬ ∃ k, len = 2 ^ k) ∧
    ∀ k, len = 2 ^ k → setup len g h u = some ⟨len, k, g, h, u⟩ := by
  unfold setup
  have := powerOfTwo_iff len hlen
  constructor
  · rw [← this]
    cases powerOfTwo len <;> simp
  · intro k hk
    rw [if_neg (by rw [this.2 ⟨k, hk⟩]; simp)]
    subst hk
    rw [Nat.log2_two_pow]

/-- Boundary of C37: a proof with fewer rounds than the instance is undefined behaviour for both verifiers. -/
theorem innerProduct_short_proof_undefined (cv : Curve G) (H : Bytes → ℤ) (pp : PP G) (P : G) (tr : Bytes) (pf : Proof G)
    (h : pf.vecL.length < pp.logLen ∨ pf.vecR.length < pp.logLen) :
    verify cv H pp P tr pf = none ∧ fastVerify cv H pp P tr pf = none := by
  have hc : ∀ (n : Nat) (Ls Rs : List G) (tr : Bytes), Ls.length < n ∨ Rs.length < n → challenges cv H n Ls Rs tr = none := by
    intro n
    induction n with
    | zero => intro Ls Rs tr h; omega
    | succ n ih =>
      intro Ls Rs tr h
      cases Ls with
      | nil => rfl
      | cons L Ls =>
        cases Rs with
        | nil => rfl
        | cons R Rs => simp only [challenges]; rw [ih Ls Rs _ (by simpa using h)]; rfl
  have := hc _ _ _ tr h
  constructor
  · unfold verify; simp only [this]; cases powerOfTwo pp.len <;> rfl
  · unfold fastVerify; simp only [this]; cases powerOfTwo pp.len <;> rfl

/-- A vector of length four over `Z_7` with invertible challenges: the honest proof is accepted by both verifiers. -/
example : ((prove toyCurve (fun _ => 3) (⟨4, 2, [1, 2, 3, 4], [5, 6, 1, 3], 2⟩ : PP (ZMod 7)) [1, 2, 3, 4] [5, 6, 0, 1] []).bind fun p =>
      (verify toyCurve (fun _ => 3) ⟨4, 2, [1, 2, 3, 4], [5, 6, 1, 3], 2⟩
        (msm [1, 2, 3, 4] [1, 2, 3, 4] + msm [5, 6, 1, 3] [5, 6, 0, 1] + (5 + 12 + 0 + 4 : ℤ) • 2) [] p.1).map Prod.fst) = some true := by
  decide +kernel

end Kunlun.InnerProduct
