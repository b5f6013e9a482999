import Verif.Model.BulletProve
/-!
The output of the bulletproof prover in closed form, and how the drawn scalars have to be changed so that another opening of the same
commitments gives the same proof.
-/

namespace Kunlun.Bullet

variable {G : Type} [AddCommGroup G] [DecidableEq G] (cv : Curve G)

/-- Entries that are residues in `[0, q)`. -/
def Canon (q : ℕ) (l : List ℤ) : Prop := ∀ a ∈ l, 0 ≤ a ∧ a < q

omit [DecidableEq G] in
theorem canon_ext {l l' : List ℤ} (h : Canon cv.order l) (h' : Canon cv.order l') (he : residues cv.order l = residues cv.order l') : l = l' := by
  have hl : l.length = l'.length := by
    have := congrArg List.length he
    rwa [residues_length, residues_length] at this
  apply List.ext_getElem hl
  intro i h1 h2
  have h3 := congrArg (fun r => r[i]?) he
  simp only [residues, List.getElem?_map, List.getElem?_eq_getElem h1, List.getElem?_eq_getElem h2, Option.map_some, Option.some.injEq] at h3
  have h4 := (ZMod.intCast_eq_intCast_iff_dvd_sub _ _ _).1 h3
  obtain ⟨a0, a1⟩ := h _ (List.getElem_mem h1)
  obtain ⟨b0, b1⟩ := h' _ (List.getElem_mem h2)
  have := Int.eq_zero_of_abs_lt_dvd h4 (by rw [abs_lt]; constructor <;> omega)
  omega

omit [DecidableEq G] in
theorem canon_modAdd {a b l : List ℤ} (h : BigInt.vecModAdd a b cv.order = some l) : Canon cv.order l := by
  unfold BigInt.vecModAdd at h
  split at h
  · cases h
  · rw [Option.some.injEq] at h
    rw [← h]
    intro x hx
    rw [List.mem_iff_getElem] at hx
    obtain ⟨i, hi, rfl⟩ := hx
    rw [List.getElem_zipWith]
    exact cv.mod_range _

/-- The point `A` or `S`: `⟨a, G⟩ + ⟨b, H⟩ + s h`. -/
def comV (pp : PP G) (len : Nat) (a b : Nat → ZMod cv.order) (s : ZMod cv.order) : G :=
  haveI := cv.fact
  letI := cv.toModule
  (∑ i ∈ Finset.range len, a i • (pp.vecG[i]?).getD 0) + (∑ i ∈ Finset.range len, b i • (pp.vecH[i]?).getD 0) + s • pp.h

/-- `T1` or `T2`: `s g + t h`. -/
def comT (pp : PP G) (s t : ZMod cv.order) : G :=
  haveI := cv.fact
  letI := cv.toModule
  s • pp.g + t • pp.h

/-- The bit at a position of the aggregated vector. -/
def bitV (R : Nat) (v : List ℕ) (i : Nat) : ZMod cv.order := bitF cv v (i / R) (i % R)

/-- A list of scalars as residues. -/
def seqF (l : List ℤ) (i : Nat) : ZMod cv.order := (((l[i]?).getD 0 : ℤ) : ZMod cv.order)

/-- The constant coefficient of `r(X)`. -/
def r0F {F : Type} [Field F] (R : Nat) (y z : F) (b : Nat → F) (i : Nat) : F :=
  y ^ i * (z + (b i - 1)) + z ^ (i / R + 2) * 2 ^ (i % R)

/-- The linear coefficient of `t(X)`. -/
def t1F {F : Type} [Field F] (R len : Nat) (y z : F) (b sL sR : Nat → F) : F :=
  (∑ i ∈ Finset.range len, sL i * r0F R y z b i) + ∑ i ∈ Finset.range len, (b i - z) * (y ^ i * sR i)

/-- The quadratic coefficient of `t(X)`. -/
def t2F {F : Type} [Field F] (len : Nat) (y : F) (sL sR : Nat → F) : F := ∑ i ∈ Finset.range len, sL i * (y ^ i * sR i)

/-- The prover's output, piece by piece: the four points, the two vectors handed to the inner-product argument and the three scalars. -/
theorem prove_parts (H : Bytes → ℤ) (pp : PP G) (n k : Nat) (r : List ℤ) (v : List ℕ) (c : Coins) (tr : Bytes)
    (hpow : pp.rangeLen * n = 2 ^ k) (hk : k < 64) (hg : pp.rangeLen * n ≤ pp.vecG.length) (hh : pp.rangeLen * n ≤ pp.vecH.length)
    (hv : v.length = n) (hr : r.length = n) (hsL : c.sL.length = pp.rangeLen * n) (hsR : c.sR.length = pp.rangeLen * n)
    (A S T1 T2 : G) (y z x : ℤ)
    (hA : A = comV cv pp (pp.rangeLen * n) (bitV cv pp.rangeLen v) (fun i => bitV cv pp.rangeLen v i - 1) c.alpha)
    (hS : S = comV cv pp (pp.rangeLen * n) (seqF cv c.sL) (seqF cv c.sR) c.rho)
    (hy : H (tr ++ cv.toBytes A) = y) (hz : H (tr ++ cv.toBytes A ++ cv.toBytes S) = z)
    (hT1 : haveI := cv.fact
      T1 = comT cv pp c.tau1 (t1F pp.rangeLen (pp.rangeLen * n) (y : ZMod cv.order) z (bitV cv pp.rangeLen v) (seqF cv c.sL) (seqF cv c.sR)))
    (hT2 : haveI := cv.fact
      T2 = comT cv pp c.tau2 (t2F (pp.rangeLen * n) (y : ZMod cv.order) (seqF cv c.sL) (seqF cv c.sR)))
    (hx : H (tr ++ cv.toBytes A ++ cv.toBytes S ++ (cv.toBytes T1 ++ cv.toBytes T2)) = x) :
    haveI := cv.fact
    ∃ llx rrx tx ip tr', Canon cv.order llx ∧ Canon cv.order rrx ∧
      residues cv.order llx = ((List.range (pp.rangeLen * n)).map fun i => bitV cv pp.rangeLen v i - z + x * seqF cv c.sL i) ∧
      residues cv.order rrx = ((List.range (pp.rangeLen * n)).map fun i => r0F pp.rangeLen (y : ZMod cv.order) z (bitV cv pp.rangeLen v) i +
        x * ((y : ZMod cv.order) ^ i * seqF cv c.sR i)) ∧
      BigInt.vecModInnerProduct llx rrx cv.order = some tx ∧
      InnerProduct.prove cv H (ipPP cv pp n y (H (tr ++ cv.toBytes A ++ cv.toBytes S ++ (cv.toBytes T1 ++ cv.toBytes T2) ++
        BigInt.toByteString x))) llx rrx
        (tr ++ cv.toBytes A ++ cv.toBytes S ++ (cv.toBytes T1 ++ cv.toBytes T2) ++ BigInt.toByteString x) = some (ip, tr') ∧
      prove cv H pp n r (v.map (Nat.cast : ℕ → ℤ)) c tr = some
      (⟨A, S, T1, T2, tauLoop cv.order z r (BigInt.mod (c.tau1 * x + c.tau2 * BigInt.modSquare x cv.order) cv.order) n,
        BigInt.mod (c.alpha + c.rho * x) cv.order, tx, ip⟩, tr') := by
  haveI := cv.fact
  letI := cv.toModule
  have hne : pp.rangeLen * n ≠ 0 := by rw [hpow]; positivity
  have hR : 0 < pp.rangeLen := Nat.pos_of_ne_zero fun h => hne (by rw [h, zero_mul])
  have hp2 : powerOfTwo (pp.rangeLen * n) = true := by
    rw [powerOfTwo_iff _ (by rw [hpow]; exact Nat.pow_lt_pow_right (by omega) hk)]
    exact ⟨k, hpow⟩
  have hlog : (pp.rangeLen * n).log2 = k := by rw [hpow]; exact Nat.log2_two_pow
  have vaL : residues cv.order (bits pp.rangeLen n (v.map (Nat.cast : ℕ → ℤ))) = (List.range (pp.rangeLen * n)).map fun k =>
      bitF cv v (k / pp.rangeLen) (k % pp.rangeLen) := bits_spec cv pp.rangeLen n v
  generalize hbits : bits pp.rangeLen n (v.map (Nat.cast : ℕ → ℤ)) = aL at *
  obtain ⟨aR, eaR, vaR⟩ := modSub_range cv vaL (residues_replicate cv.order (pp.rangeLen * n) 1)
  have vsL := residues_range (q := cv.order) hsL
  have vsR := residues_range (q := cv.order) hsR
  have eA : ∀ (a b : List ℤ) (s : ℤ), a.length = pp.rangeLen * n → b.length = pp.rangeLen * n →
      vecMul (pp.vecG.take (pp.rangeLen * n) ++ pp.vecH.take (pp.rangeLen * n) ++ [pp.h]) (a ++ b ++ [s]) =
        some (dot (pp.vecG.take (pp.rangeLen * n)) (residues cv.order a) + dot (pp.vecH.take (pp.rangeLen * n)) (residues cv.order b) +
          (s : ZMod cv.order) • pp.h) := by
    intro a b s ha hb
    unfold vecMul
    rw [if_neg (by simp [ha, hb, hg, hh]), msm_cast cv, InnerProduct.residues_append, InnerProduct.residues_append,
      dot_append _ _ _ _ (by simp [residues_length, ha, hb, hg, hh]), dot_append _ _ _ _ (by simp [residues_length, ha, hg]),
      InnerProduct.residues_single, dot_cons, dot_nil, add_zero]
  have eA1 := eA aL aR c.alpha (length_of_residues vaL) (length_of_residues vaR)
  have eA2 := eA c.sL c.sR c.rho hsL hsR
  have hA' : dot (pp.vecG.take (pp.rangeLen * n)) (residues cv.order aL) + dot (pp.vecH.take (pp.rangeLen * n)) (residues cv.order aR) +
      (c.alpha : ZMod cv.order) • pp.h =
      (∑ i ∈ Finset.range (pp.rangeLen * n), bitF cv v (i / pp.rangeLen) (i % pp.rangeLen) • (pp.vecG[i]?).getD 0) +
      (∑ i ∈ Finset.range (pp.rangeLen * n), (bitF cv v (i / pp.rangeLen) (i % pp.rangeLen) - 1) • (pp.vecH[i]?).getD 0) +
      (c.alpha : ZMod cv.order) • pp.h := by
    rw [vaL, vaR, dot_take cv _ _ hg, dot_take cv _ _ hh]; push_cast; rfl
  have hS' : dot (pp.vecG.take (pp.rangeLen * n)) (residues cv.order c.sL) + dot (pp.vecH.take (pp.rangeLen * n)) (residues cv.order c.sR) +
      (c.rho : ZMod cv.order) • pp.h =
      (∑ i ∈ Finset.range (pp.rangeLen * n), (((c.sL[i]?).getD 0 : ℤ) : ZMod cv.order) • (pp.vecG[i]?).getD 0) +
      (∑ i ∈ Finset.range (pp.rangeLen * n), (((c.sR[i]?).getD 0 : ℤ) : ZMod cv.order) • (pp.vecH[i]?).getD 0) +
      (c.rho : ZMod cv.order) • pp.h := by
    rw [vsL, vsR, dot_take cv _ _ hg, dot_take cv _ _ hh]
  rw [hA'] at eA1
  rw [hS'] at eA2
  replace eA1 := eA1.trans (congrArg some hA.symm)
  replace eA2 := eA2.trans (congrArg some hS.symm)
  clear hA' hS'
  have ecommit : proveCommit cv.order pp n r (v.map (Nat.cast : ℕ → ℤ)) c = some (aL, aR, A, S) := by
    unfold proveCommit
    simp only [Option.bind_eq_bind, Option.pure_def]
    rw [if_neg (by simp only [List.length_map]; omega), hbits, eaR, Option.bind_some, eA1, Option.bind_some, eA2, Option.bind_some]
  clear eA eA1 eA2
  obtain ⟨yInv, e5, v5⟩ := yInv_spec cv (pp.rangeLen * n) hne y
  obtain ⟨ll0, e6, v6⟩ := modSub_range cv vaL (residues_replicate cv.order (pp.rangeLen * n) z)
  obtain ⟨yPow, e7, v7⟩ := powerVec_spec cv (pp.rangeLen * n) hne y
  obtain ⟨zz, e8, v8⟩ := modAdd_range cv (residues_replicate cv.order (pp.rangeLen * n) z) vaR
  obtain ⟨rr00, e9, v9⟩ := modProduct_range cv v7 v8
  obtain ⟨pow2, e10, v10⟩ := powerVec_spec cv pp.rangeLen hR.ne' 2
  push_cast at v10
  obtain ⟨rr0, e11, v11'⟩ := rrLoop_spec cv pp.rangeLen n hR z pow2 rr00 _ v10 v9 n
  have v11 : residues cv.order rr0 = (List.range (pp.rangeLen * n)).map fun k => (y : ZMod cv.order) ^ k *
      (z + (bitF cv v (k / pp.rangeLen) (k % pp.rangeLen) - 1)) + (z : ZMod cv.order) ^ (k / pp.rangeLen + 2) * 2 ^ (k % pp.rangeLen) := by
    rw [v11']
    apply map_range_congr
    intro k hk
    rw [if_pos (Nat.div_lt_of_lt_mul hk)]
    push_cast
    rfl
  obtain ⟨rr1, e12, v12⟩ := modProduct_range cv v7 vsR
  obtain ⟨s1, e13, v13⟩ := inner_range cv vsL v11
  obtain ⟨s2, e14, v14⟩ := inner_range cv v6 v12
  obtain ⟨t2, e15, v15⟩ := inner_range cv vsL v12
  have epolys : provePolys cv.order pp.rangeLen n aL aR c.sR y z = some (ll0, rr0, rr1) := by
    unfold provePolys
    simp only [Option.bind_eq_bind, Option.pure_def]
    rw [e6, Option.bind_some, e7, Option.bind_some, e8, Option.bind_some, e9, Option.bind_some, e10, Option.bind_some,
      e11, Option.bind_some, e12, Option.bind_some]
  have eT : ∀ a b : ℤ, vecMul [pp.g, pp.h] [a, b] = some ((a : ZMod cv.order) • pp.g + (b : ZMod cv.order) • pp.h) := by
    intro a b
    unfold vecMul
    rw [if_neg (by simp), msm_two, cv.cast_smul, cv.cast_smul]
  have eT1 := eT c.tau1 (BigInt.mod (s1 + s2) cv.order)
  have eT2 := eT c.tau2 t2
  have hT1' : (c.tau1 : ZMod cv.order) • pp.g + ((BigInt.mod (s1 + s2) cv.order : ℤ) : ZMod cv.order) • pp.h = T1 := by
    rw [cv.cast_mod, Int.cast_add, v13, v14, hT1]; rfl
  have hT2' : (c.tau2 : ZMod cv.order) • pp.g + (t2 : ZMod cv.order) • pp.h = T2 := by rw [v15, hT2]; rfl
  rw [hT1'] at eT1
  rw [hT2'] at eT2
  have eTs : proveT cv.order pp c ll0 rr0 rr1 = some (T1, T2) := by
    unfold proveT
    simp only [Option.bind_eq_bind, Option.pure_def]
    rw [e13, Option.bind_some, e14, Option.bind_some, e15, Option.bind_some, eT1, Option.bind_some, eT2, Option.bind_some]
  obtain ⟨llx, e16, v16⟩ := modAdd_range cv v6 (modScalar_range cv x vsL)
  obtain ⟨rrx, e17, v17⟩ := modAdd_range cv v11 (modScalar_range cv x v12)
  obtain ⟨tx, e18, v18⟩ := inner_range cv v16 v17
  have eeval : proveEval cv.order ll0 c.sL rr0 rr1 x = some (llx, rrx, tx) := by
    unfold proveEval
    simp only [Option.bind_eq_bind, Option.pure_def]
    rw [e16, Option.bind_some, e17, Option.bind_some, e18, Option.bind_some]
  have ehNew := hNew_eq cv pp _ y yInv hh v5
  generalize htr4 : tr ++ cv.toBytes A ++ cv.toBytes S ++ (cv.toBytes T1 ++ cv.toBytes T2) ++ BigInt.toByteString x = t4
  generalize he : H t4 = e
  have e19 : InnerProduct.setup (pp.rangeLen * n) (pp.vecG.take (pp.rangeLen * n)) (hVec cv pp (pp.rangeLen * n) y) (e • pp.u) =
      some (ipPP cv pp n y e) := by
    unfold InnerProduct.setup
    rw [if_neg (by rw [hp2]; simp)]
    rfl
  obtain ⟨ip, tr', xs, hip, l1, l2, hch, heq⟩ := InnerProduct.proveLoop_spec cv H (e • pp.u) k (pp.vecG.take (pp.rangeLen * n))
    (hVec cv pp (pp.rangeLen * n) y) llx rrx t4 (by simp [hg]; omega) (by rw [hVec_length, hpow])
    (by rw [length_of_residues v16, hpow]) (by rw [length_of_residues v17, hpow])
  have e20 : InnerProduct.prove cv H (ipPP cv pp n y e) llx rrx t4 = some (ip, tr') := by
    unfold InnerProduct.prove
    rw [if_neg]
    · show InnerProduct.proveLoop cv H _ (pp.rangeLen * n).log2 _ _ _ _ _ = _
      rw [hlog]
      exact hip
    · simp only [ipPP, hVec_length, List.length_take, hp2, length_of_residues v16, length_of_residues v17]
      simp [hg]
  have eprove : prove cv H pp n r (v.map (Nat.cast : ℕ → ℤ)) c tr = some
      (⟨A, S, T1, T2, tauLoop cv.order z r (BigInt.mod (c.tau1 * x + c.tau2 * BigInt.modSquare x cv.order) cv.order) n,
        BigInt.mod (c.alpha + c.rho * x) cv.order, tx, ip⟩, tr') := by
    unfold prove
    simp only [Option.bind_eq_bind, Option.pure_def, ecommit, Option.bind_some, hy, e5, hz, epolys, eTs, hx, eeval, ehNew, htr4, he,
      e19, e20]
  exact ⟨llx, rrx, tx, ip, tr', canon_modAdd cv e16, canon_modAdd cv e17, v16, v17, e18, e20, eprove⟩
/-- The representative of a residue that `GenRandomBigIntLessThan(order)` can return. -/
def ofF (a : ZMod cv.order) : ℤ := (a.val : ℤ)

omit [DecidableEq G] in
theorem cast_ofF (a : ZMod cv.order) : ((ofF cv a : ℤ) : ZMod cv.order) = a := by
  haveI := cv.fact
  unfold ofF
  rw [Int.cast_natCast, ZMod.natCast_val, ZMod.cast_id]

omit [DecidableEq G] in
theorem ofF_range (a : ZMod cv.order) : 0 ≤ ofF cv a ∧ ofF cv a < cv.order := by
  haveI := cv.fact
  unfold ofF
  have := ZMod.val_lt a
  omega

/-- Drawn scalars of the right number and in `[0, order)`. -/
def Coins.Ok (q len : Nat) (c : Coins) : Prop :=
  c.sL.length = len ∧ c.sR.length = len ∧ Canon q c.sL ∧ Canon q c.sR ∧ Canon q [c.alpha, c.rho, c.tau1, c.tau2]

/-- The scalars that give the same proof for another opening: `b`, `b'` are the bits of the two openings, `η` the discrete logarithm of
`h` to the base `g`, `δ` that of the change of `A` to the base `h`. -/
def shift (R len : Nat) (y z x : ZMod cv.order) (b b' : Nat → ZMod cv.order) (η δ : ZMod cv.order) (c : Coins) : Coins :=
  haveI := cv.fact
  let sL := fun i => seqF cv c.sL i + x⁻¹ * (b i - b' i)
  let sR := fun i => seqF cv c.sR i + x⁻¹ * (b i - b' i)
  ⟨ofF cv (c.alpha + δ), (List.range len).map fun i => ofF cv (sL i), (List.range len).map fun i => ofF cv (sR i),
    ofF cv (c.rho - x⁻¹ * δ),
    ofF cv (c.tau1 + η * (t1F R len y z b (seqF cv c.sL) (seqF cv c.sR) - t1F R len y z b' sL sR)),
    ofF cv (c.tau2 + η * (t2F len y (seqF cv c.sL) (seqF cv c.sR) - t2F len y sL sR))⟩

theorem shift_ok (R len : Nat) (y z x : ZMod cv.order) (b b' : Nat → ZMod cv.order) (η δ : ZMod cv.order) (c : Coins) :
    (shift cv R len y z x b b' η δ c).Ok cv.order len := by
  refine ⟨by simp [shift], by simp [shift], ?_, ?_, ?_⟩
  · intro a ha
    simp only [shift, List.mem_map] at ha
    obtain ⟨i, _, rfl⟩ := ha
    exact ofF_range cv _
  · intro a ha
    simp only [shift, List.mem_map] at ha
    obtain ⟨i, _, rfl⟩ := ha
    exact ofF_range cv _
  · intro a ha
    simp only [shift, List.mem_cons, List.not_mem_nil, or_false] at ha
    rcases ha with rfl | rfl | rfl | rfl <;> exact ofF_range cv _

theorem seqF_map (len i : Nat) (hi : i < len) (f : Nat → ZMod cv.order) : seqF cv ((List.range len).map fun i => ofF cv (f i)) i = f i := by
  unfold seqF
  rw [List.getElem?_map, List.getElem?_range hi, Option.map_some, Option.getD_some, cast_ofF]

omit [DecidableEq G] in
theorem t1F_congr {F : Type} [Field F] (R len : Nat) (y z : F) (b sL sR sL' sR' : Nat → F) (h1 : ∀ i < len, sL i = sL' i)
    (h2 : ∀ i < len, sR i = sR' i) : t1F R len y z b sL sR = t1F R len y z b sL' sR' := by
  unfold t1F
  congr 1 <;> apply Finset.sum_congr rfl <;> intro i hi
  · rw [h1 i (Finset.mem_range.1 hi)]
  · rw [h2 i (Finset.mem_range.1 hi)]

omit [DecidableEq G] in
theorem t2F_congr {F : Type} [Field F] (len : Nat) (y : F) (sL sR sL' sR' : Nat → F) (h1 : ∀ i < len, sL i = sL' i)
    (h2 : ∀ i < len, sR i = sR' i) : t2F len y sL sR = t2F len y sL' sR' := by
  unfold t2F
  apply Finset.sum_congr rfl
  intro i hi
  rw [h1 i (Finset.mem_range.1 hi), h2 i (Finset.mem_range.1 hi)]

theorem comV_congr (pp : PP G) (len : Nat) (a b a' b' : Nat → ZMod cv.order) (s : ZMod cv.order) (h1 : ∀ i < len, a i = a' i)
    (h2 : ∀ i < len, b i = b' i) : comV cv pp len a b s = comV cv pp len a' b' s := by
  unfold comV
  congr 2 <;> apply Finset.sum_congr rfl <;> intro i hi
  · rw [h1 i (Finset.mem_range.1 hi)]
  · rw [h2 i (Finset.mem_range.1 hi)]

/-- `t(x)` splits into its three coefficients. -/
theorem tx_split (R n : Nat) (hR : 0 < R) (y z x : ZMod cv.order) (v : List ℕ) (hv : ∀ j < n, (v[j]?).getD 0 < 2 ^ R) (sL sR : Nat → ZMod cv.order) :
    haveI := cv.fact
    ∑ i ∈ Finset.range (R * n), (bitV cv R v i - z + x * sL i) * (r0F R y z (bitV cv R v) i + x * (y ^ i * sR i)) =
      delta R n y z + (∑ j ∈ Finset.range n, z ^ (j + 2) * (((v[j]?).getD 0 : ℕ) : ZMod cv.order)) +
        x * t1F R (R * n) y z (bitV cv R v) sL sR + x ^ 2 * t2F (R * n) y sL sR := by
  haveI := cv.fact
  have ht0 := t0_eq R n hR y z (bitF cv v) (bitF_bool cv v)
  have hs : ∑ j ∈ Finset.range n, z ^ (j + 2) * ∑ i ∈ Finset.range R, bitF cv v j i * 2 ^ i =
      ∑ j ∈ Finset.range n, z ^ (j + 2) * (((v[j]?).getD 0 : ℕ) : ZMod cv.order) := by
    apply Finset.sum_congr rfl
    intro j hj
    rw [bitF_sum, Nat.mod_eq_of_lt (hv j (Finset.mem_range.1 hj))]
  rw [← hs, ← ht0]
  unfold t1F t2F
  rw [mul_add, Finset.mul_sum, Finset.mul_sum, Finset.mul_sum, ← Finset.sum_add_distrib, ← Finset.sum_add_distrib,
    ← Finset.sum_add_distrib]
  apply Finset.sum_congr rfl
  intro i _
  unfold r0F bitV
  ring

/-- The shifted scalars give the same proof for the other opening. -/
theorem shift_prove (H : Bytes → ℤ) (pp : PP G) (n k : Nat) (r r' : List ℤ) (v v' : List ℕ) (c : Coins) (tr : Bytes)
    (hpow : pp.rangeLen * n = 2 ^ k) (hk : k < 64) (hg : pp.rangeLen * n ≤ pp.vecG.length) (hh : pp.rangeLen * n ≤ pp.vecH.length)
    (hv : v.length = n) (hr : r.length = n) (hv' : v'.length = n) (hr' : r'.length = n)
    (hsL : c.sL.length = pp.rangeLen * n) (hsR : c.sR.length = pp.rangeLen * n)
    (hb : ∀ j < n, (v[j]?).getD 0 < 2 ^ pp.rangeLen) (hb' : ∀ j < n, (v'[j]?).getD 0 < 2 ^ pp.rangeLen)
    (η δ : ZMod cv.order)
    (hη : haveI := cv.fact
      letI := cv.toModule
      pp.h = η • pp.g)
    (hδ : haveI := cv.fact
      letI := cv.toModule
      δ • pp.h = (∑ i ∈ Finset.range (pp.rangeLen * n), (bitV cv pp.rangeLen v i - bitV cv pp.rangeLen v' i) • (pp.vecG[i]?).getD 0) +
        ∑ i ∈ Finset.range (pp.rangeLen * n), (bitV cv pp.rangeLen v i - bitV cv pp.rangeLen v' i) • (pp.vecH[i]?).getD 0)
    (hC : ∀ j < n, (((r[j]?).getD 0 : ℤ) : ZMod cv.order) + η * (((v[j]?).getD 0 : ℕ) : ZMod cv.order) =
      (((r'[j]?).getD 0 : ℤ) : ZMod cv.order) + η * (((v'[j]?).getD 0 : ℕ) : ZMod cv.order)) :
    ∃ pf tr', prove cv H pp n r (v.map (Nat.cast : ℕ → ℤ)) c tr = some (pf, tr') ∧
      (¬ (cv.order : ℤ) ∣ H (tr3 cv pf tr) →
        prove cv H pp n r' (v'.map (Nat.cast : ℕ → ℤ)) (shift cv pp.rangeLen (pp.rangeLen * n) (H (tr1 cv pf tr)) (H (tr2 cv pf tr))
          (H (tr3 cv pf tr)) (bitV cv pp.rangeLen v) (bitV cv pp.rangeLen v') η δ c) tr = some (pf, tr')) := by
  haveI := cv.fact
  letI := cv.toModule
  have hne : pp.rangeLen * n ≠ 0 := by rw [hpow]; positivity
  have hR : 0 < pp.rangeLen := Nat.pos_of_ne_zero fun h => hne (by rw [h, zero_mul])
  have hn : n ≠ 0 := fun h => hne (by rw [h, mul_zero])
  obtain ⟨A, hA⟩ : ∃ A, A = comV cv pp (pp.rangeLen * n) (bitV cv pp.rangeLen v) (fun i => bitV cv pp.rangeLen v i - 1) c.alpha := ⟨_, rfl⟩
  obtain ⟨S, hS⟩ : ∃ S, S = comV cv pp (pp.rangeLen * n) (seqF cv c.sL) (seqF cv c.sR) c.rho := ⟨_, rfl⟩
  obtain ⟨y, hy⟩ : ∃ y, H (tr ++ cv.toBytes A) = y := ⟨_, rfl⟩
  obtain ⟨z, hz⟩ : ∃ z, H (tr ++ cv.toBytes A ++ cv.toBytes S) = z := ⟨_, rfl⟩
  obtain ⟨T1, hT1⟩ : ∃ T1, T1 = comT cv pp c.tau1 (t1F pp.rangeLen (pp.rangeLen * n) (y : ZMod cv.order) z (bitV cv pp.rangeLen v)
    (seqF cv c.sL) (seqF cv c.sR)) := ⟨_, rfl⟩
  obtain ⟨T2, hT2⟩ : ∃ T2, T2 = comT cv pp c.tau2 (t2F (pp.rangeLen * n) (y : ZMod cv.order) (seqF cv c.sL) (seqF cv c.sR)) := ⟨_, rfl⟩
  obtain ⟨x, hx⟩ : ∃ x, H (tr ++ cv.toBytes A ++ cv.toBytes S ++ (cv.toBytes T1 ++ cv.toBytes T2)) = x := ⟨_, rfl⟩
  obtain ⟨llx, rrx, tx, ip, tr', cl, cr, el, er, etx, eip, ep⟩ := prove_parts cv H pp n k r v c tr hpow hk hg hh hv hr hsL hsR A S T1 T2 y z x
    hA hS hy hz hT1 hT2 hx
  refine ⟨_, _, ep, ?_⟩
  unfold tr3 tr2 tr1
  simp only [hx, hy, hz]
  intro hx0
  have hx0' : (x : ZMod cv.order) ≠ 0 := cv.cast_ne_zero hx0
  obtain ⟨c', hc'⟩ : ∃ c', c' = shift cv pp.rangeLen (pp.rangeLen * n) y z x (bitV cv pp.rangeLen v) (bitV cv pp.rangeLen v') η δ c := ⟨_, rfl⟩
  rw [← hc']
  have hok := shift_ok cv pp.rangeLen (pp.rangeLen * n) y z x (bitV cv pp.rangeLen v) (bitV cv pp.rangeLen v') η δ c
  rw [← hc'] at hok
  have qL : ∀ i < pp.rangeLen * n, seqF cv c'.sL i = seqF cv c.sL i + (x : ZMod cv.order)⁻¹ * (bitV cv pp.rangeLen v i - bitV cv pp.rangeLen v' i) := by
    intro i hi
    rw [hc']
    exact seqF_map cv _ i hi _
  have qR : ∀ i < pp.rangeLen * n, seqF cv c'.sR i = seqF cv c.sR i + (x : ZMod cv.order)⁻¹ * (bitV cv pp.rangeLen v i - bitV cv pp.rangeLen v' i) := by
    intro i hi
    rw [hc']
    exact seqF_map cv _ i hi _
  have qa : (c'.alpha : ZMod cv.order) = c.alpha + δ := by rw [hc']; exact cast_ofF cv _
  have qr : (c'.rho : ZMod cv.order) = c.rho - (x : ZMod cv.order)⁻¹ * δ := by rw [hc']; exact cast_ofF cv _
  have q1 : (c'.tau1 : ZMod cv.order) = c.tau1 + η * (t1F pp.rangeLen (pp.rangeLen * n) (y : ZMod cv.order) z (bitV cv pp.rangeLen v) (seqF cv c.sL) (seqF cv c.sR) -
      t1F pp.rangeLen (pp.rangeLen * n) (y : ZMod cv.order) z (bitV cv pp.rangeLen v') (seqF cv c'.sL) (seqF cv c'.sR)) := by
    rw [t1F_congr _ _ _ _ (bitV cv pp.rangeLen v') _ _ _ _ qL qR, hc']
    exact cast_ofF cv _
  have q2 : (c'.tau2 : ZMod cv.order) = c.tau2 + η * (t2F (pp.rangeLen * n) (y : ZMod cv.order) (seqF cv c.sL) (seqF cv c.sR) -
      t2F (pp.rangeLen * n) (y : ZMod cv.order) (seqF cv c'.sL) (seqF cv c'.sR)) := by
    rw [t2F_congr _ _ _ _ _ _ qL qR, hc']
    exact cast_ofF cv _
  have hA' : A = comV cv pp (pp.rangeLen * n) (bitV cv pp.rangeLen v') (fun i => bitV cv pp.rangeLen v' i - 1) c'.alpha := by
    rw [hA, qa]
    unfold comV
    rw [add_smul, hδ]
    have e1 : ∀ (f f' : Nat → ZMod cv.order) (l : List G), (∑ i ∈ Finset.range (pp.rangeLen * n), f i • (l[i]?).getD 0) =
        (∑ i ∈ Finset.range (pp.rangeLen * n), f' i • (l[i]?).getD 0) + ∑ i ∈ Finset.range (pp.rangeLen * n), (f i - f' i) • (l[i]?).getD 0 := by
      intro f f' l
      rw [← Finset.sum_add_distrib]
      exact Finset.sum_congr rfl fun i _ => by module
    rw [e1 (bitV cv pp.rangeLen v) (bitV cv pp.rangeLen v') pp.vecG,
      e1 (fun i => bitV cv pp.rangeLen v i - 1) (fun i => bitV cv pp.rangeLen v' i - 1) pp.vecH]
    have e2 : ∀ i, (bitV cv pp.rangeLen v i - 1 - (bitV cv pp.rangeLen v' i - 1)) = bitV cv pp.rangeLen v i - bitV cv pp.rangeLen v' i := by
      intro i; ring
    simp only [e2]
    abel
  have hS' : S = comV cv pp (pp.rangeLen * n) (seqF cv c'.sL) (seqF cv c'.sR) c'.rho := by
    rw [hS, qr, comV_congr cv pp _ _ _ _ _ _ qL qR]
    unfold comV
    rw [sub_smul, mul_smul, hδ]
    simp only [add_smul, Finset.sum_add_distrib, mul_smul, ← Finset.smul_sum]
    module
  have hT1' : T1 = comT cv pp c'.tau1 (t1F pp.rangeLen (pp.rangeLen * n) (y : ZMod cv.order) z (bitV cv pp.rangeLen v')
      (seqF cv c'.sL) (seqF cv c'.sR)) := by
    rw [hT1, q1]
    unfold comT
    rw [hη]
    module
  have hT2' : T2 = comT cv pp c'.tau2 (t2F (pp.rangeLen * n) (y : ZMod cv.order) (seqF cv c'.sL) (seqF cv c'.sR)) := by
    rw [hT2, q2]
    unfold comT
    rw [hη]
    module
  obtain ⟨llx', rrx', tx', ip', tr'', cl', cr', el', er', etx', eip', ep'⟩ := prove_parts cv H pp n k r' v' c' tr hpow hk hg hh hv' hr'
    hok.1 hok.2.1 A S T1 T2 y z x hA' hS' hy hz hT1' hT2' hx
  have hll : llx' = llx := by
    apply canon_ext cv cl' cl
    rw [el, el']
    apply map_range_congr
    intro i hi
    rw [qL i hi, mul_add, ← mul_assoc, mul_inv_cancel₀ hx0']
    ring
  have hrr : rrx' = rrx := by
    apply canon_ext cv cr' cr
    rw [er, er']
    apply map_range_congr
    intro i hi
    rw [qR i hi]
    unfold r0F
    have := mul_inv_cancel₀ hx0'
    linear_combination ((y : ZMod cv.order) ^ i * (bitV cv pp.rangeLen v i - bitV cv pp.rangeLen v' i)) * this
  subst hll hrr
  rw [etx, Option.some.injEq] at etx'
  subst etx'
  rw [eip, Option.some.injEq, Prod.mk.injEq] at eip'
  obtain ⟨i1, i2⟩ := eip'
  rw [ep', Option.some.injEq, Prod.mk.injEq, Proof.mk.injEq]
  refine ⟨⟨rfl, rfl, rfl, rfl, ?_, ?_, rfl, i1.symm⟩, i2.symm⟩
  · have htau : ∀ r t, 0 ≤ tauLoop cv.order z r t n ∧ tauLoop cv.order z r t n < cv.order := by
      intro r t
      obtain ⟨m, rfl⟩ := Nat.exists_eq_succ_of_ne_zero hn
      exact cv.mod_range _
    have hcast : ((tauLoop cv.order z r' (BigInt.mod (c'.tau1 * x + c'.tau2 * BigInt.modSquare x cv.order) cv.order) n : ℤ) : ZMod cv.order) =
        ((tauLoop cv.order z r (BigInt.mod (c.tau1 * x + c.tau2 * BigInt.modSquare x cv.order) cv.order) n : ℤ) : ZMod cv.order) := by
      rw [tauLoop_cast, tauLoop_cast, cv.cast_mod, cv.cast_mod]
      push_cast
      rw [cast_modSquare, q1, q2]
      have s1 := tx_split cv pp.rangeLen n hR y z x v hb (seqF cv c.sL) (seqF cv c.sR)
      have s2 := tx_split cv pp.rangeLen n hR y z x v' hb' (seqF cv c'.sL) (seqF cv c'.sR)
      have s3 : ∑ i ∈ Finset.range (pp.rangeLen * n), (bitV cv pp.rangeLen v i - z + x * seqF cv c.sL i) *
          (r0F pp.rangeLen (y : ZMod cv.order) z (bitV cv pp.rangeLen v) i + x * ((y : ZMod cv.order) ^ i * seqF cv c.sR i)) =
          ∑ i ∈ Finset.range (pp.rangeLen * n), (bitV cv pp.rangeLen v' i - z + x * seqF cv c'.sL i) *
          (r0F pp.rangeLen (y : ZMod cv.order) z (bitV cv pp.rangeLen v') i + x * ((y : ZMod cv.order) ^ i * seqF cv c'.sR i)) := by
        apply Finset.sum_congr rfl
        intro i hi
        have hi' := Finset.mem_range.1 hi
        have h1 : bitV cv pp.rangeLen v i - z + x * seqF cv c.sL i = bitV cv pp.rangeLen v' i - z + x * seqF cv c'.sL i := by
          rw [qL i hi']
          linear_combination (-(bitV cv pp.rangeLen v i - bitV cv pp.rangeLen v' i)) * mul_inv_cancel₀ hx0'
        have h2 : r0F pp.rangeLen (y : ZMod cv.order) z (bitV cv pp.rangeLen v) i + x * ((y : ZMod cv.order) ^ i * seqF cv c.sR i) =
            r0F pp.rangeLen (y : ZMod cv.order) z (bitV cv pp.rangeLen v') i + x * ((y : ZMod cv.order) ^ i * seqF cv c'.sR i) := by
          rw [qR i hi']
          unfold r0F
          linear_combination (-((y : ZMod cv.order) ^ i * (bitV cv pp.rangeLen v i - bitV cv pp.rangeLen v' i))) * mul_inv_cancel₀ hx0'
        rw [h1, h2]
      rw [s1, s2] at s3
      have s4 : (∑ j ∈ Finset.range n, (z : ZMod cv.order) ^ (j + 2) * (((r[j]?).getD 0 : ℤ) : ZMod cv.order)) +
          η * (∑ j ∈ Finset.range n, (z : ZMod cv.order) ^ (j + 2) * (((v[j]?).getD 0 : ℕ) : ZMod cv.order)) =
          (∑ j ∈ Finset.range n, (z : ZMod cv.order) ^ (j + 2) * (((r'[j]?).getD 0 : ℤ) : ZMod cv.order)) +
          η * (∑ j ∈ Finset.range n, (z : ZMod cv.order) ^ (j + 2) * (((v'[j]?).getD 0 : ℕ) : ZMod cv.order)) := by
        rw [Finset.mul_sum, Finset.mul_sum, ← Finset.sum_add_distrib, ← Finset.sum_add_distrib]
        apply Finset.sum_congr rfl
        intro j hj
        linear_combination ((z : ZMod cv.order) ^ (j + 2)) * hC j (Finset.mem_range.1 hj)
      linear_combination (-1 : ZMod cv.order) * s4 + η * s3
    have := canon_ext cv (l := [_]) (l' := [_]) (fun a ha => by rw [List.mem_singleton.1 ha]; exact htau _ _)
      (fun a ha => by rw [List.mem_singleton.1 ha]; exact htau _ _) (congrArg (fun t => [t]) hcast)
    simpa using this
  · have hcast : ((BigInt.mod (c'.alpha + c'.rho * x) cv.order : ℤ) : ZMod cv.order) = ((BigInt.mod (c.alpha + c.rho * x) cv.order : ℤ) : ZMod cv.order) := by
      rw [cv.cast_mod, cv.cast_mod]
      push_cast
      rw [qa, qr]
      linear_combination (-δ) * mul_inv_cancel₀ hx0'
    have := canon_ext cv (l := [_]) (l' := [_]) (fun a ha => by rw [List.mem_singleton.1 ha]; exact cv.mod_range _)
      (fun a ha => by rw [List.mem_singleton.1 ha]; exact cv.mod_range _) (congrArg (fun t => [t]) hcast)
    simpa using this

end Kunlun.Bullet
