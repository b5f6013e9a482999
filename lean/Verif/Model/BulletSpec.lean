import Verif.Model.BulletLemmas
/-!
What the two bulletproof verifiers compute, as two point equations.
-/

namespace Kunlun

theorem dot_sub_right {F M : Type} [Field F] [AddCommGroup M] [Module F M] (g : List M) (s s' : List F) (h : s.length = s'.length) :
    dot g (List.zipWith (· - ·) s s') = dot g s - dot g s' := by
  induction g generalizing s s' with
  | nil => simp
  | cons P g ih =>
    cases s with
    | nil => cases s' with
      | nil => simp
      | cons _ _ => simp at h
    | cons c s => cases s' with
      | nil => simp at h
      | cons c' s' =>
        rw [List.zipWith_cons_cons, dot_cons, dot_cons, dot_cons, ih s s' (by simpa using h)]
        rw [sub_smul]; abel

namespace Bullet

variable {G : Type} [AddCommGroup G] (cv : Curve G)

/-- Transcript after the first message, after the second, and so on (bullet_proof.hpp:341-357). -/
def tr1 (pf : Proof G) (tr : Bytes) : Bytes := tr ++ cv.toBytes pf.A
def tr2 (pf : Proof G) (tr : Bytes) : Bytes := tr1 cv pf tr ++ cv.toBytes pf.S
def tr3 (pf : Proof G) (tr : Bytes) : Bytes := tr2 cv pf tr ++ (cv.toBytes pf.T1 ++ cv.toBytes pf.T2)
def tr4 (H : Bytes → ℤ) (pf : Proof G) (tr : Bytes) : Bytes := tr3 cv pf tr ++ BigInt.toByteString (H (tr3 cv pf tr))

/-- `y^{-i} h_i`. -/
def hVec (pp : PP G) (len : Nat) (y : ℤ) : List G :=
  haveI := cv.fact
  letI := cv.toModule
  (List.range len).map fun i => ((y : ZMod cv.order)⁻¹ ^ i) • (pp.vecH[i]?).getD 0

/-- `z y^k + z^{j+1} 2^i` at position `k = (j-1) RANGE_LEN + i`. -/
def rrF {F : Type} [Field F] (R : Nat) (y z : F) (k : Nat) : F := z * y ^ k + z ^ (k / R + 2) * 2 ^ (k % R)

/-- The difference of the two sides of the first check. -/
def D1 (pp : PP G) (C : List G) (pf : Proof G) (y z x : ℤ) : G :=
  haveI := cv.fact
  letI := cv.toModule
  (∑ j ∈ Finset.range C.length, ((z : ZMod cv.order) ^ (j + 2)) • (C[j]?).getD 0) +
    delta pp.rangeLen C.length (y : ZMod cv.order) z • pp.h + (x : ZMod cv.order) • pf.T1 + ((x : ZMod cv.order) ^ 2) • pf.T2 -
    (pf.taux : ZMod cv.order) • pp.g - (pf.tx : ZMod cv.order) • pp.h

/-- The point handed to the inner-product argument. -/
def ipP (pp : PP G) (n : Nat) (pf : Proof G) (y z x e : ℤ) : G :=
  haveI := cv.fact
  letI := cv.toModule
  dot (pp.vecG.take (pp.rangeLen * n)) ((List.range (pp.rangeLen * n)).map fun _ => -(z : ZMod cv.order)) +
    dot (hVec cv pp (pp.rangeLen * n) y) ((List.range (pp.rangeLen * n)).map (rrF pp.rangeLen (y : ZMod cv.order) z)) +
    pf.A + (x : ZMod cv.order) • pf.S - (pf.mu : ZMod cv.order) • pp.h + (pf.tx : ZMod cv.order) • (e : ZMod cv.order) • pp.u

/-- The inner-product parameters. -/
def ipPP (pp : PP G) (n : Nat) (y e : ℤ) : InnerProduct.PP G :=
  ⟨pp.rangeLen * n, (pp.rangeLen * n).log2, pp.vecG.take (pp.rangeLen * n), hVec cv pp (pp.rangeLen * n) y, e • pp.u⟩

/-- The difference of the two sides of the inner-product check. -/
def D2 (pp : PP G) (n : Nat) (pf : Proof G) (y z x e : ℤ) (xs : List ℤ) : G :=
  haveI := cv.fact
  letI := cv.toModule
  let X := residues cv.order xs
  (pf.ip.a : ZMod cv.order) • dot (pp.vecG.take (pp.rangeLen * n)) (svec X) +
      (pf.ip.b : ZMod cv.order) • dot (hVec cv pp (pp.rangeLen * n) y) (svec (X.map (·⁻¹))) +
      ((pf.ip.a : ZMod cv.order) * pf.ip.b) • (e : ZMod cv.order) • pp.u -
    (dot pf.ip.vecL (X.map fun t => t * t) + dot pf.ip.vecR (X.map fun t => t⁻¹ * t⁻¹) + ipP cv pp n pf y z x e)

theorem hVec_length (pp : PP G) (len : Nat) (y : ℤ) : (hVec cv pp len y).length = len := by simp [hVec]

theorem hNew_eq (pp : PP G) (len : Nat) (y : ℤ) (yInv : List ℤ) (hl : len ≤ pp.vecH.length)
    (h : haveI := cv.fact; residues cv.order yInv = (List.range len).map fun i => ((y : ZMod cv.order)⁻¹) ^ i) :
    ecVecProduct (pp.vecH.take len) yInv = some (hVec cv pp len y) := by
  haveI := cv.fact
  letI := cv.toModule
  have hlen := length_of_residues h
  unfold ecVecProduct
  rw [if_neg (by simp [hlen, hl]), Option.some.injEq]
  apply List.ext_getElem (by simp [hlen, hl, hVec])
  intro i h1 h2
  have hi : i < len := by simpa [hVec] using h2
  have hg := residues_get h i hi
  rw [List.getElem?_eq_getElem (by omega), Option.getD_some] at hg
  simp only [List.getElem_zipWith, hVec, List.getElem_map, List.getElem_range, List.getElem_take]
  rw [cv.cast_smul, hg, List.getElem?_eq_getElem (by omega), Option.getD_some]

theorem yInv_spec (len : Nat) (h : len ≠ 0) (y : ℤ) :
    haveI := cv.fact
    ∃ l, powerVec cv.order len (BigInt.modInverse y cv.order) = some l ∧
      residues cv.order l = (List.range len).map fun i => ((y : ZMod cv.order)⁻¹) ^ i := by
  haveI := cv.fact
  obtain ⟨l, h1, h2⟩ := powerVec_spec cv len h (BigInt.modInverse y cv.order)
  refine ⟨l, h1, ?_⟩
  rw [h2, cv.cast_modInverse]

theorem rr_spec (R n : Nat) (hR : 0 < R) (hn : 0 < n) (y z : ℤ) (pow2 yPow : List ℤ)
    (h2 : residues cv.order pow2 = (List.range (R * n)).map fun i => (2 : ZMod cv.order) ^ i)
    (hy : residues cv.order yPow = (List.range (R * n)).map fun i => (y : ZMod cv.order) ^ i) :
    haveI := cv.fact
    residues cv.order (vecRR cv.order R z pow2 (BigInt.vecModScalar yPow z cv.order) n) =
      (List.range (R * n)).map (rrF R (y : ZMod cv.order) z) := by
  haveI := cv.fact
  rw [vecRR_spec cv R n hR hn z pow2 _ _ h2 (modScalar_range cv z hy)]
  apply map_range_congr
  intro k hk
  rw [if_pos (Nat.div_lt_of_lt_mul hk)]
  rfl

variable [DecidableEq G]

/-- Shape of an instance both verifiers handle: `RANGE_LEN * n` a power of two, enough generators, and exactly one `L` and `R` per
round. -/
structure Fits (pp : PP G) (n : Nat) (pf : Proof G) (k : Nat) : Prop where
  pow : pp.rangeLen * n = 2 ^ k
  small : k < 64
  g : pp.rangeLen * n ≤ pp.vecG.length
  h : pp.rangeLen * n ≤ pp.vecH.length
  L : pf.ip.vecL.length = k
  R : pf.ip.vecR.length = k

theorem verify_spec (H : Bytes → ℤ) (pp : PP G) (C : List G) (tr : Bytes) (pf : Proof G) (k : Nat) (hf : Fits pp C.length pf k) :
    let y := H (tr1 cv pf tr)
    let z := H (tr2 cv pf tr)
    let x := H (tr3 cv pf tr)
    let e := H (tr4 cv H pf tr)
    ∃ b xs tr', InnerProduct.challenges cv H k pf.ip.vecL pf.ip.vecR (tr4 cv H pf tr) = some (xs, tr') ∧
      verify cv H pp C tr pf = some (b, tr') ∧
      (b = true ↔ D1 cv pp C pf y z x = 0 ∧ D2 cv pp C.length pf y z x e xs = 0) := by
  haveI := cv.fact
  letI := cv.toModule
  intro y z x e
  have hne : pp.rangeLen * C.length ≠ 0 := by rw [hf.pow]; positivity
  have hR : 0 < pp.rangeLen := Nat.pos_of_ne_zero fun h => hne (by rw [h, zero_mul])
  have hn : 0 < C.length := Nat.pos_of_ne_zero fun h => hne (by rw [h, mul_zero])
  have hp2 : powerOfTwo (pp.rangeLen * C.length) = true := by
    rw [powerOfTwo_iff _ (by rw [hf.pow]; exact Nat.pow_lt_pow_right (by omega) hf.small)]
    exact ⟨k, hf.pow⟩
  have hlog : (pp.rangeLen * C.length).log2 = k := by rw [hf.pow]; exact Nat.log2_two_pow
  obtain ⟨pow2l, e1, v1⟩ := powerVec_spec cv (pp.rangeLen * C.length) hne 2
  obtain ⟨pow2, e2, v2⟩ := powerVec_spec cv pp.rangeLen hR.ne' 2
  obtain ⟨yPow, e3, v3⟩ := powerVec_spec cv (pp.rangeLen * C.length) hne y
  push_cast at v1 v2
  obtain ⟨d, e4, v4⟩ := deltaYZ_spec cv pp.rangeLen C.length y z yPow pow2 v3 v2
  obtain ⟨yInv, e5, v5⟩ := yInv_spec cv (pp.rangeLen * C.length) hne y
  have e6 := hNew_eq cv pp (pp.rangeLen * C.length) y yInv hf.h v5
  have v7 := rr_spec cv pp.rangeLen C.length hR hn y z pow2l yPow v1 v3
  have hrl := length_of_residues v7
  have e8 : InnerProduct.setup (pp.rangeLen * C.length) (pp.vecG.take (pp.rangeLen * C.length)) (hVec cv pp (pp.rangeLen * C.length) y)
      (e • pp.u) = some (ipPP cv pp C.length y e) := by
    unfold InnerProduct.setup
    rw [if_neg (by rw [hp2]; simp)]
    rfl
  have hzl := length_of_residues (zPowers_spec cv z C.length)
  have ez := zPowers_spec cv z C.length
  generalize hrr : vecRR cv.order pp.rangeLen z pow2l (BigInt.vecModScalar yPow z cv.order) C.length = rr at *
  generalize hzz : zPowers cv.order z C.length = zp at *
  have hright : vecMul (C ++ [pp.h, pf.T1, pf.T2]) (zp ++ [d, x, BigInt.modSquare x cv.order]) =
      some (msm (C ++ [pp.h, pf.T1, pf.T2]) (zp ++ [d, x, BigInt.modSquare x cv.order])) := by
    unfold vecMul; rw [if_neg (by simp [hzl])]
  have hP : vecMul ((ipPP cv pp C.length y e).vecG ++ (ipPP cv pp C.length y e).vecH ++ [pf.A, pf.S, pp.h, (ipPP cv pp C.length y e).u])
      (List.replicate (pp.rangeLen * C.length) (BigInt.modNegate z cv.order) ++ rr ++ [1, x, -pf.mu, pf.tx]) =
      some (ipP cv pp C.length pf y z x e) := by
    unfold vecMul
    rw [if_neg (by simp [ipPP, hVec_length, hrl, hf.g]), Option.some.injEq, msm_cast cv, InnerProduct.residues_append,
      InnerProduct.residues_append, residues_replicate, v7, dot_append _ _ _ _ (by simp [ipPP, hVec_length, hf.g]),
      dot_append _ _ _ _ (by simp [ipPP, hf.g])]
    unfold ipP
    rw [cast_modNegate]
    simp only [residues, List.map_cons, List.map_nil, dot_cons, dot_nil, ipPP, Int.cast_one, Int.cast_neg, cv.cast_smul]
    module
  obtain ⟨b2, xs, tr', hch, hfv, hb2⟩ := InnerProduct.fastVerify_iff cv H (ipPP cv pp C.length y e) (ipP cv pp C.length pf y z x e)
    (tr4 cv H pf tr) pf.ip hp2 (by show pp.rangeLen * C.length = 2 ^ (pp.rangeLen * C.length).log2; rw [hlog]; exact hf.pow)
    (by simp [ipPP, hf.g]) (by simp [ipPP, hVec_length]) (by show _ = (pp.rangeLen * C.length).log2; rw [hlog]; exact hf.L)
    (by show _ = (pp.rangeLen * C.length).log2; rw [hlog]; exact hf.R)
  have hch' : InnerProduct.challenges cv H k pf.ip.vecL pf.ip.vecR (tr4 cv H pf tr) = some (xs, tr') := by
    rw [← hch]; show _ = InnerProduct.challenges cv H (pp.rangeLen * C.length).log2 _ _ _; rw [hlog]
  refine ⟨decide (pf.taux • pp.g + pf.tx • pp.h = msm (C ++ [pp.h, pf.T1, pf.T2]) (zp ++ [d, x, BigInt.modSquare x cv.order])) && b2,
    xs, tr', hch', ?_, ?_⟩
  · unfold verify
    simp only [Option.bind_eq_bind, Option.pure_def]
    change (powerVec cv.order (pp.rangeLen * C.length) 2).bind _ = _
    rw [e1, Option.bind_some, e2, Option.bind_some]
    change (powerVec cv.order (pp.rangeLen * C.length) y).bind _ = _
    rw [e3, Option.bind_some]
    change (deltaYZ cv.order pp.rangeLen C.length z yPow pow2).bind _ = _
    rw [e4, Option.bind_some]
    change (vecMul (C ++ [pp.h, pf.T1, pf.T2]) (zPowers cv.order z C.length ++ [d, x, BigInt.modSquare x cv.order])).bind _ = _
    rw [hzz, hright, Option.bind_some, if_neg (by have := hf.g; have := hf.h; omega)]
    change (powerVec cv.order (pp.rangeLen * C.length) (BigInt.modInverse y cv.order)).bind _ = _
    rw [e5, Option.bind_some, e6, Option.bind_some]
    change (InnerProduct.setup (pp.rangeLen * C.length) _ _ (e • pp.u)).bind _ = _
    rw [e8, Option.bind_some]
    change (vecMul _ (List.replicate (pp.rangeLen * C.length) (BigInt.modNegate z cv.order) ++
      vecRR cv.order pp.rangeLen z pow2l (BigInt.vecModScalar yPow z cv.order) C.length ++ [1, x, -pf.mu, pf.tx])).bind _ = _
    rw [hrr, hP, Option.bind_some]
    change (InnerProduct.fastVerify cv H _ _ (tr4 cv H pf tr) pf.ip).bind _ = _
    rw [hfv]
    rfl
  · rw [Bool.and_eq_true, decide_eq_true_eq, hb2]
    apply and_congr
    · rw [msm_cast cv, InnerProduct.residues_append, ez, dot_append _ _ _ _ (by simp), dot_list_range C C.length rfl]
      unfold D1
      simp only [residues, List.map_cons, List.map_nil, dot_cons, dot_nil, cast_modSquare, v4, cv.cast_smul, pow_two]
      generalize (∑ j ∈ Finset.range C.length, ((z : ZMod cv.order) ^ (j + 2)) • (C[j]?).getD 0) = SC
      rw [eq_comm, ← sub_eq_zero]
      have : ∀ P Q : G, P = Q → (P = 0 ↔ Q = 0) := by rintro P Q rfl; rfl
      apply this
      abel
    · unfold InnerProduct.Equation D2
      simp only [ipPP, cv.cast_smul]
      rw [sub_eq_zero]

theorem fastVerify_spec (H : Bytes → ℤ) (pp : PP G) (C : List G) (c : ℤ) (tr : Bytes) (pf : Proof G) (k : Nat)
    (hf : Fits pp C.length pf k) :
    let y := H (tr1 cv pf tr)
    let z := H (tr2 cv pf tr)
    let x := H (tr3 cv pf tr)
    let e := H (tr4 cv H pf tr)
    ∃ b xs tr', InnerProduct.challenges cv H k pf.ip.vecL pf.ip.vecR (tr4 cv H pf tr) = some (xs, tr') ∧
      fastVerify cv H pp C c tr pf = some (b, tr') ∧
      (b = true ↔ c • D1 cv pp C pf y z x + D2 cv pp C.length pf y z x e xs = 0) := by
  haveI := cv.fact
  letI := cv.toModule
  intro y z x e
  have hne : pp.rangeLen * C.length ≠ 0 := by rw [hf.pow]; positivity
  have hR : 0 < pp.rangeLen := Nat.pos_of_ne_zero fun h => hne (by rw [h, zero_mul])
  have hn : 0 < C.length := Nat.pos_of_ne_zero fun h => hne (by rw [h, mul_zero])
  have hp2 : powerOfTwo (pp.rangeLen * C.length) = true := by
    rw [powerOfTwo_iff _ (by rw [hf.pow]; exact Nat.pow_lt_pow_right (by omega) hf.small)]
    exact ⟨k, hf.pow⟩
  have hlog : (pp.rangeLen * C.length).log2 = k := by rw [hf.pow]; exact Nat.log2_two_pow
  obtain ⟨pow2l, e1, v1⟩ := powerVec_spec cv (pp.rangeLen * C.length) hne 2
  obtain ⟨pow2, e2, v2⟩ := powerVec_spec cv pp.rangeLen hR.ne' 2
  obtain ⟨yPow, e3, v3⟩ := powerVec_spec cv (pp.rangeLen * C.length) hne y
  push_cast at v1 v2
  obtain ⟨d, e4, v4⟩ := deltaYZ_spec cv pp.rangeLen C.length y z yPow pow2 v3 v2
  obtain ⟨yInv, e5, v5⟩ := yInv_spec cv (pp.rangeLen * C.length) hne y
  have e6 := hNew_eq cv pp (pp.rangeLen * C.length) y yInv hf.h v5
  have v7 := rr_spec cv pp.rangeLen C.length hR hn y z pow2l yPow v1 v3
  have hrl := length_of_residues v7
  have ez := zPowers_spec cv z C.length
  have hzl := length_of_residues ez
  obtain ⟨xs, tr', hch⟩ := InnerProduct.challenges_some cv H k pf.ip.vecL pf.ip.vecR (tr4 cv H pf tr) hf.L.ge hf.R.ge
  have hxl := InnerProduct.challenges_length _ _ _ _ _ _ _ _ hch
  have hs := InnerProduct.computeSS_svec cv xs
  have hsl := InnerProduct.computeSS_length cv.order (2 ^ xs.length) xs (xs.map fun x => BigInt.modInverse x cv.order)
  have hss := InnerProduct.fastSS_eq cv xs
  generalize InnerProduct.computeSS cv.order (2 ^ xs.length) xs (xs.map fun x => BigInt.modInverse x cv.order) = s at hs hsl hss
  rw [hxl, ← hf.pow] at hsl
  have hsa : (BigInt.vecScalar s pf.ip.a).length = pp.rangeLen * C.length := by simp [BigInt.vecScalar, hsl]
  have hsb : (BigInt.vecScalar (BigInt.vecModInverse s cv.order) pf.ip.b).length = pp.rangeLen * C.length := by
    simp [BigInt.vecScalar, BigInt.vecModInverse, hsl]
  have hra := residues_scalar cv s pf.ip.a
  have hrb := residues_scalar cv (BigInt.vecModInverse s cv.order) pf.ip.b
  rw [residues_modInverse, hs, svec_inv] at hrb
  rw [hs] at hra
  have hq1 : (xs.map fun x => BigInt.modSquare x cv.order).length = k := by simp [hxl]
  have hr1 := InnerProduct.residues_sq cv xs
  have hq2 : ((xs.map fun x => BigInt.modInverse x cv.order).map fun x => BigInt.modSquare x cv.order).length = k := by simp [hxl]
  have hr2 := InnerProduct.residues_sq cv (xs.map fun x => BigInt.modInverse x cv.order)
  rw [InnerProduct.residues_inv] at hr2
  have hneg : ∀ q : List ℤ, residues cv.order (q.map fun v => -v) = (residues cv.order q).map ((-1 : ZMod cv.order) * ·) := by
    intro q; unfold residues; rw [List.map_map, List.map_map]; apply List.map_congr_left; intro v _; simp
  have hmulc : ∀ q : List ℤ, residues cv.order (q.map (· * c)) = (residues cv.order q).map ((c : ZMod cv.order) * ·) := by
    intro q; unfold residues; rw [List.map_map, List.map_map]; apply List.map_congr_left; intro v _; simp [mul_comm]
  have hzadd : ∀ a b : List ℤ, residues cv.order (List.zipWith (· + ·) a b) = List.zipWith (· + ·) (residues cv.order a) (residues cv.order b) := by
    intro a b; unfold residues; rw [List.map_zipWith, List.zipWith_map]; simp
  have hzsub : ∀ a b : List ℤ, residues cv.order (List.zipWith (· - ·) a b) = List.zipWith (· - ·) (residues cv.order a) (residues cv.order b) := by
    intro a b; unfold residues; rw [List.map_zipWith, List.zipWith_map]; simp
  have hblit1 : blit (List.replicate (2 * k) (0 : G)) pf.ip.vecL 0 = some (pf.ip.vecL ++ List.replicate k 0) := by
    rw [blit_start _ _ (by simp [hf.L]; omega)]
    simp [hf.L]; omega
  have hblit2 : blit (pf.ip.vecL ++ List.replicate k (0 : G)) pf.ip.vecR k = some (pf.ip.vecL ++ pf.ip.vecR) := by
    rw [blit_append _ _ _ (by simp [hf.R]) _ hf.L.symm]
    simp [hf.R]
  refine ⟨decide (msm
    (C ++ [pf.T1, pf.T2, pp.g, pp.h] ++ pp.vecG.take (pp.rangeLen * C.length) ++ hVec cv pp (pp.rangeLen * C.length) y ++
      [pf.A, pf.S, pp.h, e • pp.u] ++ (pf.ip.vecL ++ pf.ip.vecR))
    ((zPowers cv.order z C.length ++ [x, BigInt.modSquare x cv.order, -pf.taux, d - pf.tx]).map (· * c) ++
      List.zipWith (· + ·) (BigInt.vecScalar s pf.ip.a) (List.replicate (pp.rangeLen * C.length) z) ++
      List.zipWith (· - ·) (BigInt.vecScalar (BigInt.vecModInverse s cv.order) pf.ip.b)
        (vecRR cv.order pp.rangeLen z pow2l (BigInt.vecModScalar yPow z cv.order) C.length) ++
      [-1, -x, pf.mu, pf.ip.a * pf.ip.b - pf.tx] ++ (xs.map fun x => BigInt.modSquare x cv.order).map (fun v => -v) ++
      ((xs.map fun x => BigInt.modInverse x cv.order).map fun x => BigInt.modSquare x cv.order).map (fun v => -v)) = 0),
    xs, tr', hch, ?_, ?_⟩
  · unfold fastVerify
    simp only [Option.bind_eq_bind, Option.pure_def]
    rw [if_neg (by rw [hp2]; simp), hlog]
    change (powerVec cv.order (pp.rangeLen * C.length) 2).bind _ = _
    rw [e1, Option.bind_some, e2, Option.bind_some]
    change (powerVec cv.order (pp.rangeLen * C.length) y).bind _ = _
    rw [e3, Option.bind_some]
    change (deltaYZ cv.order pp.rangeLen C.length z yPow pow2).bind _ = _
    rw [e4, Option.bind_some, if_neg (by have := hf.g; have := hf.h; omega)]
    change (powerVec cv.order (pp.rangeLen * C.length) (BigInt.modInverse y cv.order)).bind _ = _
    rw [e5, Option.bind_some, e6, Option.bind_some]
    change (InnerProduct.challenges cv H k pf.ip.vecL pf.ip.vecR (tr4 cv H pf tr)).bind _ = _
    rw [hch, Option.bind_some]
    simp only [hss]
    rw [hblit1, Option.bind_some, hblit2, Option.bind_some]
    unfold vecMul
    have hyl := length_of_residues v3
    rw [if_neg (by simp [hVec_length, vecRR_length, zPowers, BigInt.vecModScalar, hyl, hf.g, hf.L, hf.R, hxl, hsa, hsb]),
      Option.bind_some]
    rfl
  · rw [decide_eq_true_eq, msm_cast cv]
    simp only [InnerProduct.residues_append, ← List.append_assoc]
    rw [dot_append _ _ _ _ (by simp [residues_length, hVec_length, hrl, hf.g, hf.L, hf.R, hxl, hsa, hsb, hzl]; omega),
      dot_append _ _ _ _ (by simp [residues_length, hVec_length, hrl, hf.g, hf.L, hf.R, hxl, hsa, hsb, hzl]; omega),
      dot_append _ _ _ _ (by simp [residues_length, hVec_length, hrl, hf.g, hf.L, hf.R, hxl, hsa, hsb, hzl]; omega),
      dot_append _ _ _ _ (by simp [residues_length, hVec_length, hrl, hf.g, hf.L, hf.R, hxl, hsa, hsb, hzl]; omega),
      dot_append _ _ _ _ (by simp [residues_length, hVec_length, hrl, hf.g, hf.L, hf.R, hxl, hsa, hsb, hzl])]
    rw [hmulc, dot_mul, InnerProduct.residues_append, dot_append _ _ _ _ (by simp [residues_length, hzl]), ez, dot_list_range C C.length rfl,
      hzadd, dot_add_right _ _ _ (by simp [residues_length, hsa]), hzsub, dot_sub_right _ _ _ (by simp [residues_length, hsb, hrl]),
      hra, hrb, v7, residues_replicate, hneg, hneg, hr1, hr2, dot_mul, dot_mul, dot_mul, dot_mul, List.map_map]
    unfold D1 D2 ipP
    simp only [residues, List.map_cons, List.map_nil, dot_cons, dot_nil, cast_modSquare, v4, cv.cast_smul, pow_two, Int.cast_neg,
      Int.cast_one, Int.cast_sub, Int.cast_mul]
    have hzneg : dot (pp.vecG.take (pp.rangeLen * C.length)) ((List.range (pp.rangeLen * C.length)).map fun _ => -(z : ZMod cv.order)) =
        - dot (pp.vecG.take (pp.rangeLen * C.length)) ((List.range (pp.rangeLen * C.length)).map fun _ => (z : ZMod cv.order)) := by
      rw [← neg_one_smul (ZMod cv.order) (dot _ _), ← dot_mul, List.map_map]
      congr 1
      apply List.map_congr_left
      intro _ _
      simp
    have hcomp : ((fun y => y * y) ∘ fun y : ZMod cv.order => y⁻¹) = fun y => y⁻¹ * y⁻¹ := rfl
    rw [hzneg, hcomp]
    have : ∀ P Q : G, P = Q → (P = 0 ↔ Q = 0) := by rintro P Q rfl; rfl
    apply this
    module

end Bullet

end Kunlun
