import Verif.Model.BulletProve
/-!
C38, C39: aggregated range proofs.
-/

namespace Kunlun.Bullet

variable {G : Type} [AddCommGroup G] [DecidableEq G]

/-- C38, exact form: run `Prove` on any values `v` and blinding factors `r`; if `y` and the round challenges are invertible, `Verify`
accepts the proof for commitments `C` exactly when `Σ_j z^{j+1} (C_j − r_j g − (v_j mod 2^RANGE_LEN) h) = 0`, and `FastVerify` for each
drawn `c` exactly when `c` times that sum is zero. -/
theorem bulletproof_honest_iff (cv : Curve G) (H : Bytes → ℤ) (pp : PP G) (n k : Nat) (r : List ℤ) (v : List ℕ) (c : Coins) (tr : Bytes)
    (hpow : pp.rangeLen * n = 2 ^ k) (hk : k < 64) (hg : pp.rangeLen * n ≤ pp.vecG.length) (hh : pp.rangeLen * n ≤ pp.vecH.length)
    (hv : v.length = n) (hr : r.length = n) (hsL : c.sL.length = pp.rangeLen * n) (hsR : c.sR.length = pp.rangeLen * n) :
    ∃ pf tr' xs, prove cv H pp n r (v.map (Nat.cast : ℕ → ℤ)) c tr = some (pf, tr') ∧
      InnerProduct.challenges cv H k pf.ip.vecL pf.ip.vecR (tr4 cv H pf tr) = some (xs, tr') ∧
      (¬ (cv.order : ℤ) ∣ H (tr ++ cv.toBytes pf.A) → (∀ x ∈ xs, ¬ (cv.order : ℤ) ∣ x) → ∀ C : List G, C.length = n →
        let z := H (tr ++ cv.toBytes pf.A ++ cv.toBytes pf.S)
        let gap := ∑ j ∈ Finset.range n, (z ^ (j + 2)) •
          ((C[j]?).getD 0 - (r[j]?).getD 0 • pp.g - (((v[j]?).getD 0 % 2 ^ pp.rangeLen : ℕ) : ℤ) • pp.h)
        verify cv H pp C tr pf = some (decide (gap = 0), tr') ∧
        ∀ s, fastVerify cv H pp C s tr pf = some (decide (s • gap = 0), tr')) := by
  obtain ⟨pf, tr', xs, hp, hf, hch, h2, h1⟩ := prove_spec cv H pp n k r v c tr hpow hk hg hh hv hr hsL hsR
  refine ⟨pf, tr', xs, hp, hch, ?_⟩
  intro hy hxs C hC z gap
  have h2' := h2 hy hxs
  have h1' := h1 C hC
  subst hC
  constructor
  · obtain ⟨b, xs', tr'', hch', hv', hb⟩ := verify_spec cv H pp C tr pf k hf
    rw [hch, Option.some.injEq, Prod.mk.injEq] at hch'
    obtain ⟨rfl, rfl⟩ := hch'
    rw [hv']
    have : b = decide (gap = 0) := by
      rw [Bool.eq_iff_iff, hb, h2', h1', decide_eq_true_eq]
      simp [gap, z, tr2, tr1]
    rw [this]
  · intro s
    obtain ⟨b, xs', tr'', hch', hv', hb⟩ := fastVerify_spec cv H pp C s tr pf k hf
    rw [hch, Option.some.injEq, Prod.mk.injEq] at hch'
    obtain ⟨rfl, rfl⟩ := hch'
    rw [hv']
    have : b = decide (s • gap = 0) := by
      rw [Bool.eq_iff_iff, hb, h2', h1', decide_eq_true_eq, add_zero]
      rfl
    rw [this]

/-- C38: values in `[0, 2^RANGE_LEN)` committed as `g^{r_j} h^{v_j}`: the honest proof is accepted by `Verify`, and by `FastVerify`
whatever scalar it draws; prover and verifiers end with the same transcript. -/
theorem bulletproof_complete (cv : Curve G) (H : Bytes → ℤ) (pp : PP G) (n k : Nat) (r : List ℤ) (v : List ℕ) (c : Coins) (tr : Bytes)
    (hpow : pp.rangeLen * n = 2 ^ k) (hk : k < 64) (hg : pp.rangeLen * n ≤ pp.vecG.length) (hh : pp.rangeLen * n ≤ pp.vecH.length)
    (hv : v.length = n) (hr : r.length = n) (hsL : c.sL.length = pp.rangeLen * n) (hsR : c.sR.length = pp.rangeLen * n)
    (hrange : ∀ a ∈ v, a < 2 ^ pp.rangeLen) :
    ∃ pf tr' xs, prove cv H pp n r (v.map (Nat.cast : ℕ → ℤ)) c tr = some (pf, tr') ∧
      InnerProduct.challenges cv H k pf.ip.vecL pf.ip.vecR (tr4 cv H pf tr) = some (xs, tr') ∧
      (¬ (cv.order : ℤ) ∣ H (tr ++ cv.toBytes pf.A) → (∀ x ∈ xs, ¬ (cv.order : ℤ) ∣ x) →
        let C := List.zipWith (fun (a : ℤ) (b : ℕ) => a • pp.g + (b : ℤ) • pp.h) r v
        verify cv H pp C tr pf = some (true, tr') ∧ ∀ s, fastVerify cv H pp C s tr pf = some (true, tr')) := by
  obtain ⟨pf, tr', xs, hp, hch, h⟩ := bulletproof_honest_iff cv H pp n k r v c tr hpow hk hg hh hv hr hsL hsR
  refine ⟨pf, tr', xs, hp, hch, ?_⟩
  intro hy hxs C
  have hC : C.length = n := by simp [C, hr, hv]
  obtain ⟨h1, h2⟩ := h hy hxs C hC
  have hz : (∑ j ∈ Finset.range n, (H (tr ++ cv.toBytes pf.A ++ cv.toBytes pf.S) ^ (j + 2)) •
          ((C[j]?).getD 0 - (r[j]?).getD 0 • pp.g - (((v[j]?).getD 0 % 2 ^ pp.rangeLen : ℕ) : ℤ) • pp.h)) = 0 := by
    apply Finset.sum_eq_zero
    intro j hj
    have hj' := Finset.mem_range.1 hj
    have e1 : (C[j]?).getD 0 = (r[j]?).getD 0 • pp.g + (((v[j]?).getD 0 : ℕ) : ℤ) • pp.h := by
      simp only [C, List.getElem?_zipWith]
      rw [List.getElem?_eq_getElem (by omega), List.getElem?_eq_getElem (by omega)]
      rfl
    have e2 : (v[j]?).getD 0 % 2 ^ pp.rangeLen = (v[j]?).getD 0 := by
      apply Nat.mod_eq_of_lt
      rw [List.getElem?_eq_getElem (by omega)]
      exact hrange _ (List.getElem_mem _)
    rw [e1, e2]
    simp
  rw [hz] at h1 h2
  refine ⟨by simpa using h1, fun s => by simpa using h2 s⟩

/-- C38, the fast verifier against the slow one, on every proof with the right number of rounds: what `Verify` accepts, `FastVerify`
accepts for every drawn scalar; and if `FastVerify` accepts for two scalars that differ modulo the order, `Verify` accepts. -/
theorem bulletproof_fast_agrees (cv : Curve G) (H : Bytes → ℤ) (pp : PP G) (C : List G) (tr : Bytes) (pf : Proof G) (k : Nat)
    (hf : Fits pp C.length pf k) :
    ∃ ok tr', verify cv H pp C tr pf = some (ok, tr') ∧ (∀ s, ∃ b, fastVerify cv H pp C s tr pf = some (b, tr')) ∧
      (ok = true → ∀ s, fastVerify cv H pp C s tr pf = some (true, tr')) ∧
      (∀ s s', ¬ (cv.order : ℤ) ∣ s - s' → fastVerify cv H pp C s tr pf = some (true, tr') →
        fastVerify cv H pp C s' tr pf = some (true, tr') → ok = true) := by
  obtain ⟨ok, xs, tr', hch, hv, hok⟩ := verify_spec cv H pp C tr pf k hf
  have hfast : ∀ s, ∃ b, fastVerify cv H pp C s tr pf = some (b, tr') ∧ (b = true ↔
      s • D1 cv pp C pf (H (tr1 cv pf tr)) (H (tr2 cv pf tr)) (H (tr3 cv pf tr)) +
        D2 cv pp C.length pf (H (tr1 cv pf tr)) (H (tr2 cv pf tr)) (H (tr3 cv pf tr)) (H (tr4 cv H pf tr)) xs = 0) := by
    intro s
    obtain ⟨b, xs', tr'', hch', hv', hb⟩ := fastVerify_spec cv H pp C s tr pf k hf
    rw [hch, Option.some.injEq, Prod.mk.injEq] at hch'
    obtain ⟨rfl, rfl⟩ := hch'
    exact ⟨b, hv', hb⟩
  generalize D1 cv pp C pf (H (tr1 cv pf tr)) (H (tr2 cv pf tr)) (H (tr3 cv pf tr)) = d1 at *
  generalize D2 cv pp C.length pf (H (tr1 cv pf tr)) (H (tr2 cv pf tr)) (H (tr3 cv pf tr)) (H (tr4 cv H pf tr)) xs = d2 at *
  refine ⟨ok, tr', hv, fun s => ?_, fun h s => ?_, fun s s' hne h h' => ?_⟩
  · obtain ⟨b, hb, -⟩ := hfast s
    exact ⟨b, hb⟩
  · obtain ⟨b, hb, hiff⟩ := hfast s
    obtain ⟨e1, e2⟩ := hok.1 h
    have : b = true := hiff.2 (by rw [e1, e2]; simp)
    rw [hb, this]
  · obtain ⟨b, hb, hiff⟩ := hfast s
    obtain ⟨b', hb', hiff'⟩ := hfast s'
    have t1 : b = true := by rw [h] at hb; simpa using hb.symm
    have t2 : b' = true := by rw [h'] at hb'; simpa using hb'.symm
    have e1 := hiff.1 t1
    have e2 := hiff'.1 t2
    have e3 : (s - s') • d1 = 0 := by
      have : (s - s') • d1 = (s • d1 + d2) - (s' • d1 + d2) := by rw [sub_smul]; abel
      rw [this, e1, e2, sub_zero]
    have e4 : d1 = 0 := by
      by_contra hd
      exact hne ((cv.smul_eq_zero_iff _ _ hd).1 e3)
    rw [e4, smul_zero, zero_add] at e1
    exact hok.2 ⟨e4, e1⟩

/-- The commitment for which a finished proof passes the first check, the other commitments being given: bullet_proof.hpp:394-410
solved for `C_1`. -/
def commitmentFor (cv : Curve G) (H : Bytes → ℤ) (pp : PP G) (rest : List G) (tr : Bytes) (pf : Proof G) : G :=
  let y := H (tr1 cv pf tr)
  let z := H (tr2 cv pf tr)
  let x := H (tr3 cv pf tr)
  BigInt.modInverse (z * z) cv.order • (-(D1 cv pp (0 :: rest) pf y z x))

theorem D1_cons (cv : Curve G) (pp : PP G) (C : G) (rest : List G) (pf : Proof G) (y z x : ℤ) :
    D1 cv pp (C :: rest) pf y z x = (z ^ 2) • C + D1 cv pp (0 :: rest) pf y z x := by
  haveI := cv.fact
  letI := cv.toModule
  unfold D1
  simp only [List.length_cons]
  rw [Finset.sum_range_succ' _ rest.length, Finset.sum_range_succ' _ rest.length]
  simp only [List.getElem?_cons_succ, List.getElem?_cons_zero, Option.getD_some, smul_zero, add_zero, zero_add, cv.cast_smul, Int.cast_pow]
  abel

theorem commitmentFor_spec (cv : Curve G) (H : Bytes → ℤ) (pp : PP G) (rest : List G) (tr : Bytes) (pf : Proof G)
    (hz : ¬ (cv.order : ℤ) ∣ H (tr ++ cv.toBytes pf.A ++ cv.toBytes pf.S)) :
    D1 cv pp (commitmentFor cv H pp rest tr pf :: rest) pf (H (tr1 cv pf tr)) (H (tr2 cv pf tr)) (H (tr3 cv pf tr)) = 0 := by
  haveI := cv.fact
  letI := cv.toModule
  rw [D1_cons]
  unfold commitmentFor
  simp only
  have hz' : ((H (tr2 cv pf tr) : ℤ) : ZMod cv.order) ≠ 0 := cv.cast_ne_zero hz
  rw [cv.cast_smul, cv.cast_smul (BigInt.modInverse _ _), cv.cast_modInverse, smul_smul]
  push_cast
  rw [pow_two, mul_inv_cancel₀ (mul_ne_zero hz' hz'), one_smul, neg_add_cancel]

/-- C39 fails. Take any proof that passes the second check for *some* commitments (the second check does not read them): whatever the
other commitments are, the computed `C_1` makes the same proof verify. The commitments are not hashed, so nothing else changes. -/
theorem bulletproof_commitment_after_proof (cv : Curve G) (H : Bytes → ℤ) (pp : PP G) (C rest : List G) (tr : Bytes) (pf : Proof G)
    (k : Nat) (hf : Fits pp C.length pf k) (hlen : C.length = rest.length + 1) (tr' : Bytes)
    (hacc : verify cv H pp C tr pf = some (true, tr')) (hz : ¬ (cv.order : ℤ) ∣ H (tr ++ cv.toBytes pf.A ++ cv.toBytes pf.S)) :
    verify cv H pp (commitmentFor cv H pp rest tr pf :: rest) tr pf = some (true, tr') := by
  obtain ⟨ok, xs, t1, hch, hv, hok⟩ := verify_spec cv H pp C tr pf k hf
  rw [hacc, Option.some.injEq, Prod.mk.injEq] at hv
  obtain ⟨rfl, rfl⟩ := hv
  have h2 := (hok.1 rfl).2
  have hl : (commitmentFor cv H pp rest tr pf :: rest).length = C.length := by simp [hlen]
  obtain ⟨ok', xs', t2, hch', hv', hok'⟩ := verify_spec cv H pp (commitmentFor cv H pp rest tr pf :: rest) tr pf k (by rw [hl]; exact hf)
  rw [hch, Option.some.injEq, Prod.mk.injEq] at hch'
  obtain ⟨rfl, rfl⟩ := hch'
  rw [hv']
  have : ok' = true := hok'.2 ⟨commitmentFor_spec cv H pp rest tr pf hz, by rw [hl]; exact h2⟩
  rw [this]

/-- A forger's proof for one value, needing no witness: all commitments zero, `l_i = −z`, `r_i = z y^i + z^2 2^i`. -/
def forge (cv : Curve G) (H : Bytes → ℤ) (pp : PP G) (t : ℤ) (tr : Bytes) : Option (Proof G × Bytes) := do
  let tr := tr ++ cv.toBytes (0 : G)
  let y := H tr
  let tr := tr ++ cv.toBytes (0 : G)
  let z := H tr
  let tr := tr ++ (cv.toBytes (0 : G) ++ cv.toBytes (0 : G))
  let x := H tr
  let tr := tr ++ BigInt.toByteString x
  let e := H tr
  let R := pp.rangeLen
  let yInv ← powerVec cv.order R (BigInt.modInverse y cv.order)
  let hNew ← ecVecProduct (pp.vecH.take R) yInv
  let ipp ← InnerProduct.setup R (pp.vecG.take R) hNew (e • pp.u)
  let yPow ← powerVec cv.order R y
  let pow2 ← powerVec cv.order R 2
  let l := List.replicate R (-z)
  let r := vecRR cv.order R z pow2 (BigInt.vecModScalar yPow z cv.order) 1
  let tx ← BigInt.vecModInnerProduct l r cv.order
  let (ip, tr) ← InnerProduct.prove cv H ipp l r tr
  return (⟨0, 0, 0, 0, t, 0, tx, ip⟩, tr)

/-- C39 fails, with a known opening: without any witness the forger outputs a proof accepted for `C = g^{t/z²} h^w` where
`w = −z^{-1} Σ_{i<RANGE_LEN} y^i mod q`; nothing forces `w` into `[0, 2^RANGE_LEN)`. -/
theorem bulletproof_forgery (cv : Curve G) (H : Bytes → ℤ) (pp : PP G) (t : ℤ) (tr : Bytes) (k : Nat)
    (hpow : pp.rangeLen = 2 ^ k) (hk : k < 64) (hg : pp.rangeLen ≤ pp.vecG.length) (hh : pp.rangeLen ≤ pp.vecH.length) :
    ∃ pf tr' xs, forge cv H pp t tr = some (pf, tr') ∧
      InnerProduct.challenges cv H k pf.ip.vecL pf.ip.vecR (tr4 cv H pf tr) = some (xs, tr') ∧
      let y := H (tr ++ cv.toBytes (0 : G))
      let z := H (tr ++ cv.toBytes (0 : G) ++ cv.toBytes (0 : G))
      (¬ (cv.order : ℤ) ∣ z → (∀ x ∈ xs, ¬ (cv.order : ℤ) ∣ x) →
        ∀ w : ℤ, (cv.order : ℤ) ∣ z * w + ∑ i ∈ Finset.range pp.rangeLen, y ^ i →
        verify cv H pp [(t * BigInt.modInverse (z * z) cv.order) • pp.g + w • pp.h] tr pf = some (true, tr')) := by
  haveI := cv.fact
  letI := cv.toModule
  have hne : pp.rangeLen ≠ 0 := by rw [hpow]; positivity
  have hp2 : powerOfTwo pp.rangeLen = true := by
    rw [powerOfTwo_iff _ (by rw [hpow]; exact Nat.pow_lt_pow_right (by omega) hk)]
    exact ⟨k, hpow⟩
  have hlog : pp.rangeLen.log2 = k := by rw [hpow]; exact Nat.log2_two_pow
  generalize hy : H (tr ++ cv.toBytes (0 : G)) = y
  generalize hz : H (tr ++ cv.toBytes (0 : G) ++ cv.toBytes (0 : G)) = z
  generalize hx : H (tr ++ cv.toBytes (0 : G) ++ cv.toBytes (0 : G) ++ (cv.toBytes (0 : G) ++ cv.toBytes (0 : G))) = x
  generalize htr4 : tr ++ cv.toBytes (0 : G) ++ cv.toBytes (0 : G) ++ (cv.toBytes (0 : G) ++ cv.toBytes (0 : G)) ++ BigInt.toByteString x = t4
  generalize he : H t4 = e
  obtain ⟨yInv, e1, v1⟩ := yInv_spec cv pp.rangeLen hne y
  have e2 := hNew_eq cv pp _ y yInv hh v1
  have e3 : InnerProduct.setup pp.rangeLen (pp.vecG.take pp.rangeLen) (hVec cv pp pp.rangeLen y) (e • pp.u) =
      some (⟨pp.rangeLen, pp.rangeLen.log2, pp.vecG.take pp.rangeLen, hVec cv pp pp.rangeLen y, e • pp.u⟩) := by
    unfold InnerProduct.setup
    rw [if_neg (by rw [hp2]; simp)]
  obtain ⟨yPow, e4, v4⟩ := powerVec_spec cv pp.rangeLen hne y
  obtain ⟨pow2, e5, v5⟩ := powerVec_spec cv pp.rangeLen hne 2
  push_cast at v5
  have v6 := rr_spec cv pp.rangeLen 1 (Nat.pos_of_ne_zero hne) (by omega) y z pow2 yPow (by rw [mul_one]; exact v5) (by rw [mul_one]; exact v4)
  rw [mul_one] at v6
  have v7 := residues_replicate cv.order pp.rangeLen (-z)
  generalize hr : vecRR cv.order pp.rangeLen z pow2 (BigInt.vecModScalar yPow z cv.order) 1 = r at *
  obtain ⟨tx, e8, v8⟩ := inner_range cv v7 v6
  obtain ⟨ip, tr', xs, hip, l1, l2, hch, heq⟩ := InnerProduct.proveLoop_spec cv H (e • pp.u) k (pp.vecG.take pp.rangeLen)
    (hVec cv pp pp.rangeLen y) (List.replicate pp.rangeLen (-z)) r t4 (by simp [hg]; omega) (by rw [hVec_length, hpow])
    (by rw [length_of_residues v7, hpow]) (by rw [length_of_residues v6, hpow])
  have e9 : InnerProduct.prove cv H ⟨pp.rangeLen, pp.rangeLen.log2, pp.vecG.take pp.rangeLen, hVec cv pp pp.rangeLen y, e • pp.u⟩
      (List.replicate pp.rangeLen (-z)) r t4 = some (ip, tr') := by
    unfold InnerProduct.prove
    rw [if_neg, hlog]
    · exact hip
    · simp only [hVec_length, List.length_take, hp2, length_of_residues v7, length_of_residues v6]
      simp [hg]
  have eforge : forge cv H pp t tr = some (⟨0, 0, 0, 0, t, 0, tx, ip⟩, tr') := by
    unfold forge
    simp only [Option.bind_eq_bind, Option.pure_def, Option.bind_some, hy, hz, hx, htr4, he, e1, e2, e3, e4, e5, hr, e8, e9]
  refine ⟨⟨0, 0, 0, 0, t, 0, tx, ip⟩, tr', xs, eforge, ?_, ?_⟩
  · unfold tr4 tr3 tr2 tr1
    simp only [hx, htr4]
    exact hch
  · dsimp only
    intro hz0 hxs w hw
    have hz0' : (z : ZMod cv.order) ≠ 0 := cv.cast_ne_zero hz0
    have hf : Fits pp [(t * BigInt.modInverse (z * z) cv.order) • pp.g + w • pp.h].length (⟨0, 0, 0, 0, t, 0, tx, ip⟩ : Proof G) k := by
      refine ⟨?_, hk, ?_, ?_, l1, l2⟩ <;> simp [hpow] <;> omega
    obtain ⟨ok, xs', t1, hch', hv, hok⟩ := verify_spec cv H pp _ tr _ k hf
    rw [hv]
    have hx' : xs' = xs ∧ t1 = tr' := by
      unfold tr4 tr3 tr2 tr1 at hch'
      simp only [hx, htr4] at hch'
      rw [hch, Option.some.injEq, Prod.mk.injEq] at hch'
      exact ⟨hch'.1.symm, hch'.2.symm⟩
    obtain ⟨rfl, rfl⟩ := hx'
    suffices hok' : ok = true by rw [hok']
    rw [hok]
    unfold tr4 tr3 tr2 tr1
    simp only [hy, hz, hx, htr4, he]
    constructor
    · unfold D1
      simp only [List.length_singleton, Finset.sum_range_one, List.getElem?_cons_zero, Option.getD_some, smul_zero, add_zero]
      have hw' : (z : ZMod cv.order) * w = - ∑ i ∈ Finset.range pp.rangeLen, (y : ZMod cv.order) ^ i := by
        have := (ZMod.intCast_zmod_eq_zero_iff_dvd _ _).2 hw
        push_cast at this
        exact eq_neg_of_add_eq_zero_left this
      have htx : (tx : ZMod cv.order) = delta pp.rangeLen 1 (y : ZMod cv.order) z + (z : ZMod cv.order) ^ 2 * w := by
        rw [v8]
        unfold delta rrF
        rw [mul_one]
        have : ∀ i ∈ Finset.range pp.rangeLen, ((-z : ℤ) : ZMod cv.order) * ((z : ZMod cv.order) * (y : ZMod cv.order) ^ i +
            (z : ZMod cv.order) ^ (i / pp.rangeLen + 2) * 2 ^ (i % pp.rangeLen)) =
            (-(z : ZMod cv.order) ^ 2) * (y : ZMod cv.order) ^ i - (z : ZMod cv.order) ^ 3 * 2 ^ i := by
          intro i hi
          have hi' := Finset.mem_range.1 hi
          rw [Nat.div_eq_of_lt hi', Nat.mod_eq_of_lt hi']
          push_cast
          ring
        rw [Finset.sum_congr rfl this, Finset.sum_sub_distrib, ← Finset.mul_sum, ← Finset.mul_sum, Finset.sum_range_one]
        linear_combination (-(z : ZMod cv.order)) * hw'
      rw [htx, cv.cast_smul, cv.cast_smul]
      push_cast
      rw [cv.cast_modInverse]
      push_cast
      have hzz : (z : ZMod cv.order) ^ 2 * ((t : ZMod cv.order) * ((z : ZMod cv.order) * z)⁻¹) = t := by
        rw [pow_two, mul_comm (t : ZMod cv.order), ← mul_assoc, mul_inv_cancel₀ (mul_ne_zero hz0' hz0'), one_mul]
      rw [smul_add, smul_smul, smul_smul, hzz]
      module
    · have heq' := heq hxs
      rw [cv.cast_smul] at heq'
      unfold D2 ipP
      simp only [List.length_singleton, mul_one]
      rw [heq', v7, v6]
      have htx : dot ((List.range pp.rangeLen).map fun _ => ((-z : ℤ) : ZMod cv.order))
          ((List.range pp.rangeLen).map (rrF pp.rangeLen (y : ZMod cv.order) z)) = (tx : ZMod cv.order) := by
        rw [dot_range, v8]
        apply Finset.sum_congr rfl
        intro i _
        rw [smul_eq_mul, mul_comm]
      rw [htx]
      push_cast
      module

/-- A proof accepted for a single commitment is accepted for no other one (if `z ≢ 0`): the proof does determine the commitment,
it just does not have to be chosen first. What is missing for C39: the commitments are not hashed. -/
theorem bulletproof_determines_commitment_partial (cv : Curve G) (H : Bytes → ℤ) (pp : PP G) (C C' : G) (tr : Bytes) (pf : Proof G)
    (k : Nat) (hf : Fits pp 1 pf k) (hz : ¬ (cv.order : ℤ) ∣ H (tr ++ cv.toBytes pf.A ++ cv.toBytes pf.S)) (tr' tr'' : Bytes)
    (h : verify cv H pp [C] tr pf = some (true, tr')) (h' : verify cv H pp [C'] tr pf = some (true, tr'')) : C = C' := by
  obtain ⟨ok, xs, t1, hch, hv, hok⟩ := verify_spec cv H pp [C] tr pf k hf
  obtain ⟨ok', xs', t2, hch', hv', hok'⟩ := verify_spec cv H pp [C'] tr pf k hf
  rw [h, Option.some.injEq, Prod.mk.injEq] at hv
  rw [h', Option.some.injEq, Prod.mk.injEq] at hv'
  have e1 := (hok.1 hv.1.symm).1
  have e2 := (hok'.1 hv'.1.symm).1
  rw [D1_cons] at e1 e2
  have e3 : (H (tr2 cv pf tr) ^ 2) • (C - C') = 0 := by
    rw [smul_sub, sub_eq_zero]
    exact add_right_cancel (e1.trans e2.symm)
  by_contra hne
  have hd := (cv.smul_eq_zero_iff _ _ (sub_ne_zero.2 hne)).1 e3
  haveI := cv.fact
  have h0 := (ZMod.intCast_zmod_eq_zero_iff_dvd _ _).2 hd
  push_cast at h0
  exact hz ((ZMod.intCast_zmod_eq_zero_iff_dvd _ _).1 (pow_eq_zero_iff (two_ne_zero) |>.1 h0))

/-- `RANGE_LEN * n` that is no power of two is refused (`exit`) by both verifiers, and by the prover. -/
theorem bulletproof_refuses (cv : Curve G) (H : Bytes → ℤ) (pp : PP G) (C : List G) (tr : Bytes) (pf : Proof G) (r v : List ℤ) (c : Coins)
    (s : ℤ) (hsmall : pp.rangeLen * C.length < 2 ^ 64) (hno : ¬ ∃ k, pp.rangeLen * C.length = 2 ^ k) :
    prove cv H pp C.length r v c tr = none ∧ verify cv H pp C tr pf = none ∧ fastVerify cv H pp C s tr pf = none := by
  have hp : powerOfTwo (pp.rangeLen * C.length) = false := by
    rw [← powerOfTwo_iff _ hsmall] at hno
    simpa using hno
  have hs : ∀ a b (u : G), InnerProduct.setup (pp.rangeLen * C.length) a b u = none := by
    intro a b u; unfold InnerProduct.setup; rw [if_pos hp]
  refine ⟨?_, ?_, ?_⟩
  · unfold prove
    simp only [Option.bind_eq_bind, Option.pure_def, hs]
    simp
  · unfold verify
    simp only [Option.bind_eq_bind, Option.pure_def, hs]
    simp
  · unfold fastVerify
    simp only [Option.bind_eq_bind, hp]
    simp

/-- Small parameters for the examples: two-bit ranges over a group of order 7. -/
def exPP : PP (ZMod 7) := ⟨2, 2, 1, 5, 2, [3, 4, 6, 1], [2, 3, 5, 4]⟩

/-- The hash of the examples: depends on the length of the transcript. -/
def exHash (b : Bytes) : ℤ := 1 + b.length % 5

/-- Two values `3, 1` in `[0, 4)`: the honest proof is accepted by both verifiers. -/
example : ((prove toyCurve exHash exPP 2 [10, 20] [3, 1] ⟨100, [1, 2, 3, 4], [5, 6, 7, 8], 9, 40, 50⟩ []).bind fun p =>
    (verify toyCurve exHash exPP [10 + 3 * 5, 20 + 1 * 5] [] p.1).map fun q =>
      (q.1, (fastVerify toyCurve exHash exPP [10 + 3 * 5, 20 + 1 * 5] 77 [] p.1).map Prod.fst, q.2 == p.2)) =
    some (true, some true, true) := by
  decide +kernel

/-- The hypotheses of `bulletproof_complete` hold for that run. -/
example : exPP.rangeLen * 2 = 2 ^ 2 ∧ exPP.rangeLen * 2 ≤ exPP.vecG.length ∧ (∀ a ∈ [3, 1], a < 2 ^ exPP.rangeLen) ∧
    ∀ b : Bytes, ¬ (7 : ℤ) ∣ exHash b := by
  refine ⟨rfl, by decide, by decide, fun b => ?_⟩
  unfold exHash
  omega

/-- C39 fails concretely: the forger's proof is accepted for a commitment whose known opening `4` is outside `[0, 4)`. -/
theorem bulletproof_forgery_out_of_range :
    ((forge toyCurve (fun _ => 4) exPP 0 []).bind fun p =>
      (verify toyCurve (fun _ => 4) exPP [(0 : ℤ) • exPP.g + (4 : ℤ) • exPP.h] [] p.1).map Prod.fst) = some true ∧
    ¬ (4 : ℤ) < 2 ^ exPP.rangeLen := by
  decide +kernel

end Kunlun.Bullet
