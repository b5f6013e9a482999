import Verif.Model.BulletSpec
/-!
What the bulletproof prover outputs, over `Z_q`.
-/

namespace Kunlun.Bullet

theorem nat_bits_sum (v R : Nat) : ∑ i ∈ Finset.range R, v / 2 ^ i % 2 * 2 ^ i = v % 2 ^ R := by
  induction R with
  | zero => simp [Nat.mod_one]
  | succ R ih => rw [Finset.sum_range_succ, ih, pow_succ, Nat.mod_mul]; ring

/-- The constant coefficient of `t(X)`. -/
theorem t0_eq {F : Type} [Field F] (R n : Nat) (hR : 0 < R) (y z : F) (b : Nat → Nat → F) (hb : ∀ j i, b j i * (b j i - 1) = 0) :
    ∑ k ∈ Finset.range (R * n), (b (k / R) (k % R) - z) * (y ^ k * (z + (b (k / R) (k % R) - 1)) + z ^ (k / R + 2) * 2 ^ (k % R)) =
      delta R n y z + ∑ j ∈ Finset.range n, z ^ (j + 2) * ∑ i ∈ Finset.range R, b j i * 2 ^ i := by
  have hsplit : ∀ k, (b (k / R) (k % R) - z) * (y ^ k * (z + (b (k / R) (k % R) - 1)) + z ^ (k / R + 2) * 2 ^ (k % R)) =
      (z - z ^ 2) * y ^ k + (b (k / R) (k % R) * 2 ^ (k % R) * z ^ (k / R + 2) - z ^ (k / R + 3) * 2 ^ (k % R)) := by
    intro k
    linear_combination (y ^ k) * hb (k / R) (k % R)
  rw [Finset.sum_congr rfl fun k _ => hsplit k, Finset.sum_add_distrib, ← Finset.mul_sum,
    sum_blocks R n hR (fun j i => b j i * 2 ^ i * z ^ (j + 2) - z ^ (j + 3) * 2 ^ i)]
  unfold delta
  have : ∀ j, ∑ i ∈ Finset.range R, (b j i * 2 ^ i * z ^ (j + 2) - z ^ (j + 3) * 2 ^ i) =
      z ^ (j + 2) * ∑ i ∈ Finset.range R, b j i * 2 ^ i - z ^ (j + 3) * ∑ i ∈ Finset.range R, 2 ^ i := by
    intro j
    rw [Finset.sum_sub_distrib, Finset.mul_sum, Finset.mul_sum]
    congr 1
    apply Finset.sum_congr rfl
    intro i _
    ring
  rw [Finset.sum_congr rfl fun j _ => this j, Finset.sum_sub_distrib, Finset.sum_mul]
  ring

variable {G : Type} [AddCommGroup G] [DecidableEq G] (cv : Curve G)

/-- The committed value's bits as residues. -/
def bitF (v : List ℕ) (j i : Nat) : ZMod cv.order := (((v[j]?).getD 0 / 2 ^ i % 2 : ℕ) : ZMod cv.order)

theorem bitF_bool (v : List ℕ) (j i : Nat) : bitF cv v j i * (bitF cv v j i - 1) = 0 := by
  unfold bitF
  rcases Nat.mod_two_eq_zero_or_one ((v[j]?).getD 0 / 2 ^ i) with h | h <;> simp [h]

theorem bitF_sum (v : List ℕ) (j R : Nat) :
    ∑ i ∈ Finset.range R, bitF cv v j i * 2 ^ i = (((v[j]?).getD 0 % 2 ^ R : ℕ) : ZMod cv.order) := by
  rw [← nat_bits_sum]
  push_cast
  rfl

theorem dot_hVec (pp : PP G) (len : Nat) (y : ℤ) (f : Nat → ZMod cv.order) :
    haveI := cv.fact
    letI := cv.toModule
    dot (hVec cv pp len y) ((List.range len).map f) =
      ∑ i ∈ Finset.range len, (f i * (y : ZMod cv.order)⁻¹ ^ i) • (pp.vecH[i]?).getD 0 := by
  haveI := cv.fact
  letI := cv.toModule
  unfold hVec
  rw [dot_range]
  apply Finset.sum_congr rfl
  intro i _
  rw [smul_smul]

theorem dot_take (l : List G) (len : Nat) (h : len ≤ l.length) (f : Nat → ZMod cv.order) :
    haveI := cv.fact
    letI := cv.toModule
    dot (l.take len) ((List.range len).map f) = ∑ i ∈ Finset.range len, f i • (l[i]?).getD 0 := by
  haveI := cv.fact
  letI := cv.toModule
  rw [dot_list_range _ len (by simp [h])]
  apply Finset.sum_congr rfl
  intro i hi
  rw [List.getElem?_take, if_pos (Finset.mem_range.1 hi)]

/-- The outcome of `Prove` on values `v`, blinding factors `r`: its proof has the right shape; the second check always holds when `y`
and the round challenges are invertible; and the first check measures exactly how far the commitments are from
`g^{r_j} h^{v_j mod 2^R}`. -/
theorem prove_spec (H : Bytes → ℤ) (pp : PP G) (n k : Nat) (r : List ℤ) (v : List ℕ) (c : Coins) (tr : Bytes)
    (hpow : pp.rangeLen * n = 2 ^ k) (hk : k < 64) (hg : pp.rangeLen * n ≤ pp.vecG.length) (hh : pp.rangeLen * n ≤ pp.vecH.length)
    (hv : v.length = n) (hr : r.length = n) (hsL : c.sL.length = pp.rangeLen * n) (hsR : c.sR.length = pp.rangeLen * n) :
    ∃ pf tr' xs, prove cv H pp n r (v.map (Nat.cast : ℕ → ℤ)) c tr = some (pf, tr') ∧ Fits pp n pf k ∧
      InnerProduct.challenges cv H k pf.ip.vecL pf.ip.vecR (tr4 cv H pf tr) = some (xs, tr') ∧
      (¬ (cv.order : ℤ) ∣ H (tr1 cv pf tr) → (∀ x ∈ xs, ¬ (cv.order : ℤ) ∣ x) →
        D2 cv pp n pf (H (tr1 cv pf tr)) (H (tr2 cv pf tr)) (H (tr3 cv pf tr)) (H (tr4 cv H pf tr)) xs = 0) ∧
      ∀ C : List G, C.length = n →
        D1 cv pp C pf (H (tr1 cv pf tr)) (H (tr2 cv pf tr)) (H (tr3 cv pf tr)) =
          ∑ j ∈ Finset.range n, (H (tr2 cv pf tr) ^ (j + 2)) •
            ((C[j]?).getD 0 - (r[j]?).getD 0 • pp.g - (((v[j]?).getD 0 % 2 ^ pp.rangeLen : ℕ) : ℤ) • pp.h) := by
  haveI := cv.fact
  letI := cv.toModule
  have hne : pp.rangeLen * n ≠ 0 := by rw [hpow]; positivity
  have hR : 0 < pp.rangeLen := Nat.pos_of_ne_zero fun h => hne (by rw [h, zero_mul])
  have hp2 : powerOfTwo (pp.rangeLen * n) = true := by
    rw [powerOfTwo_iff _ (by rw [hpow]; exact Nat.pow_lt_pow_right (by omega) hk)]
    exact ⟨k, hpow⟩
  have hlog : (pp.rangeLen * n).log2 = k := by rw [hpow]; exact Nat.log2_two_pow
  have vaL : residues cv.order (bits pp.rangeLen n (v.map (Nat.cast : ℕ → ℤ))) = (List.range (pp.rangeLen * n)).map fun k =>
      bitF cv v (k / pp.rangeLen) (k % pp.rangeLen) := bits_spec cv pp.rangeLen n v
  generalize hbits : bits pp.rangeLen n (v.map (Nat.cast : ℕ → ℤ)) = aL at *
  obtain ⟨aR, eaR, vaR⟩ := modSub_range cv vaL (residues_replicate cv.order (pp.rangeLen * n) 1)
  have vsL := residues_range (q := cv.order) hsL
  have vsR := residues_range (q := cv.order) hsR
  have eA : ∀ (a b : List ℤ) (s : ℤ), a.length = pp.rangeLen * n → b.length = pp.rangeLen * n →
      vecMul (pp.vecG.take (pp.rangeLen * n) ++ pp.vecH.take (pp.rangeLen * n) ++ [pp.h]) (a ++ b ++ [s]) =
        some (dot (pp.vecG.take (pp.rangeLen * n)) (residues cv.order a) + dot (pp.vecH.take (pp.rangeLen * n)) (residues cv.order b) +
          (s : ZMod cv.order) • pp.h) := by
    intro a b s ha hb
    unfold vecMul
    rw [if_neg (by simp [ha, hb, hg, hh]), msm_cast cv, InnerProduct.residues_append, InnerProduct.residues_append,
      dot_append _ _ _ _ (by simp [residues_length, ha, hb, hg, hh]), dot_append _ _ _ _ (by simp [residues_length, ha, hg]),
      InnerProduct.residues_single, dot_cons, dot_nil, add_zero]
  have eA1 := eA aL aR c.alpha (length_of_residues vaL) (length_of_residues vaR)
  have eA2 := eA c.sL c.sR c.rho hsL hsR
  have hA : dot (pp.vecG.take (pp.rangeLen * n)) (residues cv.order aL) + dot (pp.vecH.take (pp.rangeLen * n)) (residues cv.order aR) +
      (c.alpha : ZMod cv.order) • pp.h =
      (∑ i ∈ Finset.range (pp.rangeLen * n), bitF cv v (i / pp.rangeLen) (i % pp.rangeLen) • (pp.vecG[i]?).getD 0) +
      (∑ i ∈ Finset.range (pp.rangeLen * n), (bitF cv v (i / pp.rangeLen) (i % pp.rangeLen) - 1) • (pp.vecH[i]?).getD 0) +
      (c.alpha : ZMod cv.order) • pp.h := by
    rw [vaL, vaR, dot_take cv _ _ hg, dot_take cv _ _ hh]; push_cast; rfl
  have hS : dot (pp.vecG.take (pp.rangeLen * n)) (residues cv.order c.sL) + dot (pp.vecH.take (pp.rangeLen * n)) (residues cv.order c.sR) +
      (c.rho : ZMod cv.order) • pp.h =
      (∑ i ∈ Finset.range (pp.rangeLen * n), (((c.sL[i]?).getD 0 : ℤ) : ZMod cv.order) • (pp.vecG[i]?).getD 0) +
      (∑ i ∈ Finset.range (pp.rangeLen * n), (((c.sR[i]?).getD 0 : ℤ) : ZMod cv.order) • (pp.vecH[i]?).getD 0) +
      (c.rho : ZMod cv.order) • pp.h := by
    rw [vsL, vsR, dot_take cv _ _ hg, dot_take cv _ _ hh]
  generalize dot (pp.vecG.take (pp.rangeLen * n)) (residues cv.order aL) + dot (pp.vecH.take (pp.rangeLen * n)) (residues cv.order aR) +
      (c.alpha : ZMod cv.order) • pp.h = A at *
  generalize dot (pp.vecG.take (pp.rangeLen * n)) (residues cv.order c.sL) + dot (pp.vecH.take (pp.rangeLen * n)) (residues cv.order c.sR) +
      (c.rho : ZMod cv.order) • pp.h = S at *
  have ecommit : proveCommit cv.order pp n r (v.map (Nat.cast : ℕ → ℤ)) c = some (aL, aR, A, S) := by
    unfold proveCommit
    simp only [Option.bind_eq_bind, Option.pure_def]
    rw [if_neg (by simp only [List.length_map]; omega), hbits, eaR, Option.bind_some, eA1, Option.bind_some, eA2, Option.bind_some]
  clear eA eA1 eA2
  generalize hy : H (tr ++ cv.toBytes A) = y
  generalize hz : H (tr ++ cv.toBytes A ++ cv.toBytes S) = z
  obtain ⟨yInv, e5, v5⟩ := yInv_spec cv (pp.rangeLen * n) hne y
  obtain ⟨ll0, e6, v6⟩ := modSub_range cv vaL (residues_replicate cv.order (pp.rangeLen * n) z)
  obtain ⟨yPow, e7, v7⟩ := powerVec_spec cv (pp.rangeLen * n) hne y
  obtain ⟨zz, e8, v8⟩ := modAdd_range cv (residues_replicate cv.order (pp.rangeLen * n) z) vaR
  obtain ⟨rr00, e9, v9⟩ := modProduct_range cv v7 v8
  obtain ⟨pow2, e10, v10⟩ := powerVec_spec cv pp.rangeLen hR.ne' 2
  push_cast at v10
  obtain ⟨rr0, e11, v11'⟩ := rrLoop_spec cv pp.rangeLen n hR z pow2 rr00 _ v10 v9 n
  have v11 : residues cv.order rr0 = (List.range (pp.rangeLen * n)).map fun k => (y : ZMod cv.order) ^ k *
      (z + (bitF cv v (k / pp.rangeLen) (k % pp.rangeLen) - 1)) + (z : ZMod cv.order) ^ (k / pp.rangeLen + 2) * 2 ^ (k % pp.rangeLen) := by
    rw [v11']
    apply map_range_congr
    intro k hk
    rw [if_pos (Nat.div_lt_of_lt_mul hk)]
    push_cast
    rfl
  obtain ⟨rr1, e12, v12⟩ := modProduct_range cv v7 vsR
  obtain ⟨s1, e13, v13⟩ := inner_range cv vsL v11
  obtain ⟨s2, e14, v14⟩ := inner_range cv v6 v12
  obtain ⟨t2, e15, v15⟩ := inner_range cv vsL v12
  have epolys : provePolys cv.order pp.rangeLen n aL aR c.sR y z = some (ll0, rr0, rr1) := by
    unfold provePolys
    simp only [Option.bind_eq_bind, Option.pure_def]
    rw [e6, Option.bind_some, e7, Option.bind_some, e8, Option.bind_some, e9, Option.bind_some, e10, Option.bind_some,
      e11, Option.bind_some, e12, Option.bind_some]
  have eT : ∀ a b : ℤ, vecMul [pp.g, pp.h] [a, b] = some ((a : ZMod cv.order) • pp.g + (b : ZMod cv.order) • pp.h) := by
    intro a b
    unfold vecMul
    rw [if_neg (by simp), msm_two, cv.cast_smul, cv.cast_smul]
  have eT1 := eT c.tau1 (BigInt.mod (s1 + s2) cv.order)
  have eT2 := eT c.tau2 t2
  have hT1 : (c.tau1 : ZMod cv.order) • pp.g + ((BigInt.mod (s1 + s2) cv.order : ℤ) : ZMod cv.order) • pp.h =
    (c.tau1 : ZMod cv.order) • pp.g + ((s1 : ZMod cv.order) + s2) • pp.h := by rw [cv.cast_mod]; push_cast; rfl
  generalize (c.tau1 : ZMod cv.order) • pp.g + ((BigInt.mod (s1 + s2) cv.order : ℤ) : ZMod cv.order) • pp.h = T1 at *
  generalize hT2 : (c.tau2 : ZMod cv.order) • pp.g + (t2 : ZMod cv.order) • pp.h = T2 at *
  have eTs : proveT cv.order pp c ll0 rr0 rr1 = some (T1, T2) := by
    unfold proveT
    simp only [Option.bind_eq_bind, Option.pure_def]
    rw [e13, Option.bind_some, e14, Option.bind_some, e15, Option.bind_some, eT1, Option.bind_some, eT2, Option.bind_some]
  generalize hx : H (tr ++ cv.toBytes A ++ cv.toBytes S ++ (cv.toBytes T1 ++ cv.toBytes T2)) = x
  obtain ⟨llx, e16, v16⟩ := modAdd_range cv v6 (modScalar_range cv x vsL)
  obtain ⟨rrx, e17, v17⟩ := modAdd_range cv v11 (modScalar_range cv x v12)
  obtain ⟨tx, e18, v18⟩ := inner_range cv v16 v17
  have eeval : proveEval cv.order ll0 c.sL rr0 rr1 x = some (llx, rrx, tx) := by
    unfold proveEval
    simp only [Option.bind_eq_bind, Option.pure_def]
    rw [e16, Option.bind_some, e17, Option.bind_some, e18, Option.bind_some]
  have ehNew := hNew_eq cv pp _ y yInv hh v5
  generalize htr4 : tr ++ cv.toBytes A ++ cv.toBytes S ++ (cv.toBytes T1 ++ cv.toBytes T2) ++ BigInt.toByteString x = t4
  generalize he : H t4 = e
  have e19 : InnerProduct.setup (pp.rangeLen * n) (pp.vecG.take (pp.rangeLen * n)) (hVec cv pp (pp.rangeLen * n) y) (e • pp.u) =
      some (ipPP cv pp n y e) := by
    unfold InnerProduct.setup
    rw [if_neg (by rw [hp2]; simp)]
    rfl
  obtain ⟨ip, tr', xs, hip, l1, l2, hch, heq⟩ := InnerProduct.proveLoop_spec cv H (e • pp.u) k (pp.vecG.take (pp.rangeLen * n))
    (hVec cv pp (pp.rangeLen * n) y) llx rrx t4 (by simp [hg]; omega) (by rw [hVec_length, hpow])
    (by rw [length_of_residues v16, hpow]) (by rw [length_of_residues v17, hpow])
  have e20 : InnerProduct.prove cv H (ipPP cv pp n y e) llx rrx t4 = some (ip, tr') := by
    unfold InnerProduct.prove
    rw [if_neg]
    · show InnerProduct.proveLoop cv H _ (pp.rangeLen * n).log2 _ _ _ _ _ = _
      rw [hlog]
      exact hip
    · simp only [ipPP, hVec_length, List.length_take, hp2, length_of_residues v16, length_of_residues v17]
      simp [hg]
  have eprove : prove cv H pp n r (v.map (Nat.cast : ℕ → ℤ)) c tr = some
      (⟨A, S, T1, T2, tauLoop cv.order z r (BigInt.mod (c.tau1 * x + c.tau2 * BigInt.modSquare x cv.order) cv.order) n,
        BigInt.mod (c.alpha + c.rho * x) cv.order, tx, ip⟩, tr') := by
    unfold prove
    simp only [Option.bind_eq_bind, Option.pure_def, ecommit, Option.bind_some, hy, e5, hz, epolys, eTs, hx, eeval, ehNew, htr4, he,
      e19, e20]
  have htaux := tauLoop_cast cv z r (BigInt.mod (c.tau1 * x + c.tau2 * BigInt.modSquare x cv.order) cv.order) n
  rw [cv.cast_mod] at htaux
  push_cast at htaux
  rw [cast_modSquare] at htaux
  have hmu := cv.cast_mod (c.alpha + c.rho * x)
  push_cast at hmu
  generalize tauLoop cv.order z r (BigInt.mod (c.tau1 * x + c.tau2 * BigInt.modSquare x cv.order) cv.order) n = taux at *
  generalize BigInt.mod (c.alpha + c.rho * x) cv.order = mu at *
  refine ⟨⟨A, S, T1, T2, taux, mu, tx, ip⟩, tr', xs, eprove, ⟨hpow, hk, hg, hh, l1, l2⟩, ?_, ?_, ?_⟩
  · unfold tr4 tr3 tr2 tr1
    simp only [hx, htr4]
    exact hch
  · unfold tr4 tr3 tr2 tr1
    simp only [hx, hy, hz, htr4, he]
    intro hy0 hxs
    have hy0' : (y : ZMod cv.order) ≠ 0 := cv.cast_ne_zero hy0
    have heq' := heq hxs
    unfold D2 ipP
    simp only
    rw [cv.cast_smul] at heq'
    rw [heq', v16, v17, dot_range, dot_take cv _ _ hg, dot_hVec, dot_take cv _ _ hg, dot_hVec]
    have htx : ∑ i ∈ Finset.range (pp.rangeLen * n),
        ((y : ZMod cv.order) ^ i * (z + (bitF cv v (i / pp.rangeLen) (i % pp.rangeLen) - 1)) +
          (z : ZMod cv.order) ^ (i / pp.rangeLen + 2) * 2 ^ (i % pp.rangeLen) +
          x * ((y : ZMod cv.order) ^ i * (((c.sR[i]?).getD 0 : ℤ) : ZMod cv.order))) •
        (bitF cv v (i / pp.rangeLen) (i % pp.rangeLen) - z + x * (((c.sL[i]?).getD 0 : ℤ) : ZMod cv.order)) = (tx : ZMod cv.order) := by
      rw [v18]
      apply Finset.sum_congr rfl
      intro i _
      rw [smul_eq_mul, mul_comm]
    rw [htx]
    have hsumG : ∑ i ∈ Finset.range (pp.rangeLen * n),
        (bitF cv v (i / pp.rangeLen) (i % pp.rangeLen) - z + x * (((c.sL[i]?).getD 0 : ℤ) : ZMod cv.order)) • (pp.vecG[i]?).getD 0 =
        (∑ i ∈ Finset.range (pp.rangeLen * n), (-(z : ZMod cv.order)) • (pp.vecG[i]?).getD 0) +
        (∑ i ∈ Finset.range (pp.rangeLen * n), bitF cv v (i / pp.rangeLen) (i % pp.rangeLen) • (pp.vecG[i]?).getD 0) +
        (x : ZMod cv.order) • ∑ i ∈ Finset.range (pp.rangeLen * n), (((c.sL[i]?).getD 0 : ℤ) : ZMod cv.order) • (pp.vecG[i]?).getD 0 := by
      rw [Finset.smul_sum, ← Finset.sum_add_distrib, ← Finset.sum_add_distrib]
      apply Finset.sum_congr rfl
      intro i _
      module
    have hsumH : ∑ i ∈ Finset.range (pp.rangeLen * n),
        (((y : ZMod cv.order) ^ i * (z + (bitF cv v (i / pp.rangeLen) (i % pp.rangeLen) - 1)) +
          (z : ZMod cv.order) ^ (i / pp.rangeLen + 2) * 2 ^ (i % pp.rangeLen) +
          x * ((y : ZMod cv.order) ^ i * (((c.sR[i]?).getD 0 : ℤ) : ZMod cv.order))) * (y : ZMod cv.order)⁻¹ ^ i) • (pp.vecH[i]?).getD 0 =
        (∑ i ∈ Finset.range (pp.rangeLen * n), (rrF pp.rangeLen (y : ZMod cv.order) z i * (y : ZMod cv.order)⁻¹ ^ i) • (pp.vecH[i]?).getD 0) +
        (∑ i ∈ Finset.range (pp.rangeLen * n), (bitF cv v (i / pp.rangeLen) (i % pp.rangeLen) - 1) • (pp.vecH[i]?).getD 0) +
        (x : ZMod cv.order) • ∑ i ∈ Finset.range (pp.rangeLen * n), (((c.sR[i]?).getD 0 : ℤ) : ZMod cv.order) • (pp.vecH[i]?).getD 0 := by
      rw [Finset.smul_sum, ← Finset.sum_add_distrib, ← Finset.sum_add_distrib]
      apply Finset.sum_congr rfl
      intro i _
      rw [smul_smul, ← add_smul, ← add_smul]
      congr 1
      have hyi : (y : ZMod cv.order) ^ i * (y : ZMod cv.order)⁻¹ ^ i = 1 := by rw [← mul_pow, mul_inv_cancel₀ hy0', one_pow]
      unfold rrF
      linear_combination ((bitF cv v (i / pp.rangeLen) (i % pp.rangeLen) - 1) + x * (((c.sR[i]?).getD 0 : ℤ) : ZMod cv.order)) * hyi
    rw [hsumG, hsumH, hA, hS, hmu]
    module
  · unfold tr3 tr2 tr1
    simp only [hx, hy, hz]
    intro C hC
    unfold D1
    simp only
    rw [hC, htaux, ← hT2, hT1]
    have ht0 := t0_eq pp.rangeLen n hR (y : ZMod cv.order) z (bitF cv v) (bitF_bool cv v)
    have htx : (tx : ZMod cv.order) = (delta pp.rangeLen n (y : ZMod cv.order) z +
        ∑ j ∈ Finset.range n, (z : ZMod cv.order) ^ (j + 2) * ∑ i ∈ Finset.range pp.rangeLen, bitF cv v j i * 2 ^ i) +
        x * (s1 + s2) + x ^ 2 * t2 := by
      rw [v18, ← ht0, v13, v14, v15, mul_add, Finset.mul_sum, Finset.mul_sum, Finset.mul_sum, ← Finset.sum_add_distrib,
        ← Finset.sum_add_distrib, ← Finset.sum_add_distrib]
      apply Finset.sum_congr rfl
      intro i _
      ring
    rw [htx]
    have hsum : ∑ j ∈ Finset.range n, (z ^ (j + 2)) •
            ((C[j]?).getD 0 - (r[j]?).getD 0 • pp.g - (((v[j]?).getD 0 % 2 ^ pp.rangeLen : ℕ) : ℤ) • pp.h) =
        (∑ j ∈ Finset.range n, (z : ZMod cv.order) ^ (j + 2) • (C[j]?).getD 0) -
        (∑ j ∈ Finset.range n, (z : ZMod cv.order) ^ (j + 2) * (((r[j]?).getD 0 : ℤ) : ZMod cv.order)) • pp.g -
        (∑ j ∈ Finset.range n, (z : ZMod cv.order) ^ (j + 2) * ∑ i ∈ Finset.range pp.rangeLen, bitF cv v j i * 2 ^ i) • pp.h := by
      rw [Finset.sum_smul, Finset.sum_smul, ← Finset.sum_sub_distrib, ← Finset.sum_sub_distrib]
      apply Finset.sum_congr rfl
      intro j _
      rw [bitF_sum, cv.cast_smul, cv.cast_smul, cv.cast_smul, Int.cast_natCast, Int.cast_pow]
      module
    rw [hsum]
    module

end Kunlun.Bullet
