import Verif.Props.BulletBind

/-!
C92: is there one accepted form of a proof only? A verifier that checks the form of a proof accepts one first message per key, one pair
of points per round and scalars below the order. The verifiers of the code look neither at surplus points nor at the size of the scalars.
-/

namespace Kunlun

variable {G : Type} [AddCommGroup G] [DecidableEq G]

namespace InnerProduct

omit [DecidableEq G] in
theorem challenges_extra (cv : Curve G) (H : Bytes → ℤ) (ex : List G) : ∀ (n : Nat) (Ls Rs : List G) (tr : Bytes),
    n ≤ Ls.length → challenges cv H n (Ls ++ ex) Rs tr = challenges cv H n Ls Rs tr
  | 0, _, _, _, _ => rfl
  | n + 1, [], _, _, h => by simp at h
  | n + 1, _ :: _, [], _, _ => rfl
  | n + 1, L :: Ls, R :: Rs, tr, h => by
    simp only [List.cons_append, challenges]
    rw [challenges_extra cv H ex n Ls Rs _ (by simpa using h)]

omit [DecidableEq G] in
theorem challenges_enough (cv : Curve G) (H : Bytes → ℤ) : ∀ (n : Nat) (Ls Rs : List G) (tr : Bytes) (r : List ℤ × Bytes),
    challenges cv H n Ls Rs tr = some r → n ≤ Ls.length ∧ n ≤ Rs.length
  | 0, _, _, _, _, _ => by simp
  | n + 1, [], _, _, _, h => by simp [challenges] at h
  | n + 1, _ :: _, [], _, _, h => by simp [challenges] at h
  | n + 1, L :: Ls, R :: Rs, tr, r, h => by
    simp only [challenges, Option.map_eq_some_iff] at h
    obtain ⟨p, hp, -⟩ := h
    have := challenges_enough cv H n Ls Rs _ p hp
    simp only [List.length_cons]
    omega

end InnerProduct

/-- Points copied to places that are overwritten afterwards leave no trace. -/
theorem blit_extra {α β : Type} (Z L ex R : List α) (o k : Nat) (hL : L.length = k) (hR : R.length = k) (hex : ex.length ≤ k)
    (hZ : o + 2 * k ≤ Z.length) (f : List α → Option β) :
    ((blit Z (L ++ ex) o).bind fun A => (blit A R (o + k)).bind f) = ((blit Z L o).bind fun A => (blit A R (o + k)).bind f) := by
  have key : ∀ Y : List α, Y.length ≤ k →
      ((blit Z (L ++ Y) o).bind fun A => (blit A R (o + k)).bind f) = f (Z.take o ++ L ++ R ++ Z.drop (o + 2 * k)) := by
    intro Y hY
    have e1 : blit Z (L ++ Y) o = some (Z.take o ++ (L ++ Y) ++ Z.drop (o + (L ++ Y).length)) := by
      unfold blit
      rw [if_neg (by simp only [List.length_append]; omega)]
    have hl : (Z.take o ++ L).length = o + k := by simp only [List.length_append, List.length_take]; omega
    have e2 : blit (Z.take o ++ (L ++ Y) ++ Z.drop (o + (L ++ Y).length)) R (o + k) =
        some (Z.take o ++ L ++ R ++ Z.drop (o + 2 * k)) := by
      unfold blit
      rw [if_neg (by simp only [List.length_append, List.length_take, List.length_drop]; omega), ← List.append_assoc (Z.take o) L Y,
        List.append_assoc (Z.take o ++ L) Y]
      have h1 : (Z.take o ++ L ++ (Y ++ Z.drop (o + (L ++ Y).length))).take (o + k) = Z.take o ++ L := by
        rw [← hl]; exact List.take_left
      have h2 : (Z.take o ++ L ++ (Y ++ Z.drop (o + (L ++ Y).length))).drop (o + k + R.length) = Z.drop (o + 2 * k) := by
        rw [← List.drop_drop, ← hl, List.drop_left, List.drop_append, List.drop_eq_nil_of_le (by omega), List.nil_append, List.drop_drop]
        congr 1
        simp only [List.length_append]
        omega
      rw [h1, h2]
    rw [e1, Option.bind_some, e2, Option.bind_some]
  rw [key ex hex]
  simpa using (key [] (by simp)).symm

theorem blit_fits {α : Type} {Z L A : List α} {k : Nat} (h : blit Z L k = some A) : k + L.length ≤ Z.length ∧ A.length = Z.length := by
  unfold blit at h
  split at h
  · cases h
  · obtain rfl := Option.some.inj h
    simp
    omega

namespace InnerProduct

/-- **C92 (violation: extra points, the inner-product argument).** Up to `LOG_VECTOR_LEN` further points after the `L` points change
neither verifier's answer nor its transcript. -/
theorem innerproduct_extra_points (cv : Curve G) (H : Bytes → ℤ) (pp : PP G) (P : G) (tr : Bytes) (pf : Proof G) (ex : List G)
    (hL : pf.vecL.length = pp.logLen) (hR : pf.vecR.length = pp.logLen) (hex : ex.length ≤ pp.logLen) :
    verify cv H pp P tr { pf with vecL := pf.vecL ++ ex } = verify cv H pp P tr pf ∧
      fastVerify cv H pp P tr { pf with vecL := pf.vecL ++ ex } = fastVerify cv H pp P tr pf := by
  have hc : ∀ t, challenges cv H pp.logLen (pf.vecL ++ ex) pf.vecR t = challenges cv H pp.logLen pf.vecL pf.vecR t :=
    fun t => challenges_extra cv H ex _ _ _ t (by omega)
  constructor
  · unfold verify
    simp only [hc]
    split
    · rfl
    refine Bullet.bindCongr fun _ _ => Bullet.bindCongr fun A1 _ => Bullet.bindCongr fun A2 _ => Bullet.bindCongr fun _ _ =>
      Bullet.bindCongr fun _ _ => Bullet.bindCongr fun _ _ => ?_
    have := fun (f : List G → Option (Bool × Bytes)) =>
      blit_extra (resize (A2.set (2 * pp.len) pp.u) (2 * pp.logLen + 1) 0) pf.vecL ex pf.vecR 0 pp.logLen hL hR hex
        (by simp only [resize, List.length_append, List.length_take, List.length_replicate]; omega) f
    simp only [Nat.zero_add] at this
    exact this _
  · unfold fastVerify
    simp only [hc]
    split
    · rfl
    refine Bullet.bindCongr fun _ _ => Bullet.bindCongr fun A1 h1 => Bullet.bindCongr fun A2 h2 => ?_
    have h1 := blit_fits h1
    have h2 := blit_fits h2
    simp only [List.length_replicate] at h1
    exact blit_extra A2 pf.vecL ex pf.vecR (2 * pp.len) pp.logLen hL hR hex (by omega) _

/-- **C92 (what is checked, the inner-product argument).** When a verifier returns at all there is at least one point of each kind per
round; one `R` point too many is taken, and `L` points up to twice the number of rounds and one. -/
theorem innerproduct_points_partial (cv : Curve G) (H : Bytes → ℤ) (pp : PP G) (P : G) (tr : Bytes) (pf : Proof G) (r : Bool × Bytes)
    (h : verify cv H pp P tr pf = some r ∨ fastVerify cv H pp P tr pf = some r) :
    pp.logLen ≤ pf.vecL.length ∧ pf.vecL.length ≤ 2 * pp.logLen + 1 ∧ pp.logLen ≤ pf.vecR.length ∧ pf.vecR.length ≤ pp.logLen + 1 := by
  rcases h with h | h
  · unfold verify at h
    simp only [] at h
    split at h
    · cases h
    obtain ⟨_, hc, h⟩ := Option.bind_eq_some_iff.1 h
    obtain ⟨_, -, h⟩ := Option.bind_eq_some_iff.1 h
    obtain ⟨_, -, h⟩ := Option.bind_eq_some_iff.1 h
    obtain ⟨_, -, h⟩ := Option.bind_eq_some_iff.1 h
    obtain ⟨_, -, h⟩ := Option.bind_eq_some_iff.1 h
    obtain ⟨_, -, h⟩ := Option.bind_eq_some_iff.1 h
    obtain ⟨_, h1, h⟩ := Option.bind_eq_some_iff.1 h
    obtain ⟨_, h2, h⟩ := Option.bind_eq_some_iff.1 h
    have hc := challenges_enough cv H _ _ _ _ _ hc
    have h1 := blit_fits h1
    have h2 := blit_fits h2
    simp only [resize, List.length_append, List.length_take, List.length_replicate] at h1
    omega
  · unfold fastVerify at h
    simp only [] at h
    split at h
    · cases h
    obtain ⟨_, hc, h⟩ := Option.bind_eq_some_iff.1 h
    obtain ⟨_, h0, h⟩ := Option.bind_eq_some_iff.1 h
    obtain ⟨_, h0', h⟩ := Option.bind_eq_some_iff.1 h
    obtain ⟨_, h1, h⟩ := Option.bind_eq_some_iff.1 h
    obtain ⟨_, h2, h⟩ := Option.bind_eq_some_iff.1 h
    have hc := challenges_enough cv H _ _ _ _ _ hc
    have h0 := blit_fits h0
    have h0' := blit_fits h0'
    have h1 := blit_fits h1
    have h2 := blit_fits h2
    simp only [List.length_replicate] at h0
    omega

end InnerProduct

namespace Bullet

/-- **C92 (violation: extra points).** Up to `log2(n)` further points after the `L` points of a proof change neither the answers of
`Verify` and `FastVerify` nor the transcripts they hand on. -/
theorem bulletproof_extra_points (cv : Curve G) (H : Bytes → ℤ) (pp : PP G) (C : List G) (c : ℤ) (tr : Bytes) (pf : Proof G)
    (ex : List G) (hL : pf.ip.vecL.length = (pp.rangeLen * C.length).log2) (hR : pf.ip.vecR.length = (pp.rangeLen * C.length).log2)
    (hex : ex.length ≤ (pp.rangeLen * C.length).log2) :
    let pf' : Proof G := { pf with ip := { pf.ip with vecL := pf.ip.vecL ++ ex } }
    fastVerify cv H pp C c tr pf' = fastVerify cv H pp C c tr pf ∧ verify cv H pp C tr pf' = verify cv H pp C tr pf := by
  intro pf'
  have hc : ∀ t, InnerProduct.challenges cv H (pp.rangeLen * C.length).log2 (pf.ip.vecL ++ ex) pf.ip.vecR t =
      InnerProduct.challenges cv H (pp.rangeLen * C.length).log2 pf.ip.vecL pf.ip.vecR t :=
    fun t => InnerProduct.challenges_extra cv H ex _ _ _ t (by omega)
  have hb := fun (f : List G → Option (Bool × Bytes)) =>
    blit_extra (List.replicate (2 * (pp.rangeLen * C.length).log2) (0 : G)) pf.ip.vecL ex pf.ip.vecR 0 _ hL hR hex (by simp) f
  simp only [Nat.zero_add] at hb
  constructor
  · unfold fastVerify
    simp only [pf', hc, Option.bind_eq_bind, hb]
  · unfold verify
    simp only []
    refine bindCongr fun _ _ => bindCongr fun _ _ => bindCongr fun _ _ => bindCongr fun _ _ => bindCongr fun _ _ => ?_
    split
    · rfl
    refine bindCongr fun _ _ => bindCongr fun _ _ => bindCongr fun ipp hs => bindCongr fun P _ => ?_
    have hl : ipp.logLen = (pp.rangeLen * C.length).log2 := by
      unfold InnerProduct.setup at hs
      split at hs
      · cases hs
      · obtain rfl := Option.some.inj hs
        rfl
    rw [(InnerProduct.innerproduct_extra_points cv H ipp P _ pf.ip ex (by rw [hl, hL]) (by rw [hl, hR]) (by rw [hl]; exact hex)).2]

/-- **C92 (what is checked).** When `FastVerify` returns at all, the proof has one `R` point per round, and at least one and at most two
`L` points per round: every other number is read or written outside the vectors. -/
theorem bulletproof_points_partial (cv : Curve G) (H : Bytes → ℤ) (pp : PP G) (C : List G) (c : ℤ) (tr : Bytes) (pf : Proof G)
    (r : Bool × Bytes) (h : fastVerify cv H pp C c tr pf = some r) :
    pf.ip.vecR.length = (pp.rangeLen * C.length).log2 ∧ (pp.rangeLen * C.length).log2 ≤ pf.ip.vecL.length ∧
      pf.ip.vecL.length ≤ 2 * (pp.rangeLen * C.length).log2 := by
  unfold fastVerify at h
  simp only [] at h
  split at h
  · cases h
  obtain ⟨_, -, h⟩ := Option.bind_eq_some_iff.1 h
  obtain ⟨_, -, h⟩ := Option.bind_eq_some_iff.1 h
  obtain ⟨_, -, h⟩ := Option.bind_eq_some_iff.1 h
  obtain ⟨_, -, h⟩ := Option.bind_eq_some_iff.1 h
  split at h
  · cases h
  obtain ⟨_, -, h⟩ := Option.bind_eq_some_iff.1 h
  obtain ⟨_, -, h⟩ := Option.bind_eq_some_iff.1 h
  obtain ⟨_, hc, h⟩ := Option.bind_eq_some_iff.1 h
  obtain ⟨_, h1, h⟩ := Option.bind_eq_some_iff.1 h
  obtain ⟨_, h2, h⟩ := Option.bind_eq_some_iff.1 h
  have hc := InnerProduct.challenges_enough cv H _ _ _ _ _ hc
  have h1 := blit_fits h1
  have h2 := blit_fits h2
  simp only [List.length_replicate] at h1
  omega

/-- **C92 (violation: scalars).** Multiples of the order added to the five scalars of a proof change neither the answers of the two
verifiers nor the transcripts. -/
theorem bulletproof_scalars_malleable (cv : Curve G) (H : Bytes → ℤ) (pp : PP G) (C : List G) (c : ℤ) (tr : Bytes) (pf : Proof G) (k : Nat)
    (hf : Fits pp C.length pf k) (i1 i2 i3 i4 i5 : ℤ) :
    let pf' : Proof G := { pf with
      taux := pf.taux + i1 * cv.order
      mu := pf.mu + i2 * cv.order
      tx := pf.tx + i3 * cv.order
      ip := { pf.ip with a := pf.ip.a + i4 * cv.order, b := pf.ip.b + i5 * cv.order } }
    fastVerify cv H pp C c tr pf' = fastVerify cv H pp C c tr pf ∧ verify cv H pp C tr pf' = verify cv H pp C tr pf := by
  intro pf'
  haveI := cv.fact
  have hf' : Fits pp C.length pf' k := ⟨hf.pow, hf.small, hf.g, hf.h, hf.L, hf.R⟩
  have e1 : ∀ y z x, D1 cv pp C pf' y z x = D1 cv pp C pf y z x := by
    intro y z x
    simp [D1, pf']
  have e2 : ∀ y z x e xs, D2 cv pp C.length pf' y z x e xs = D2 cv pp C.length pf y z x e xs := by
    intro y z x e xs
    simp [D2, ipP, pf']
  obtain ⟨b, xs, t, h1, h2, h3⟩ := fastVerify_spec cv H pp C c tr pf k hf
  obtain ⟨b', xs', t', h1', h2', h3'⟩ := fastVerify_spec cv H pp C c tr pf' k hf'
  obtain ⟨v, ys, s, g1, g2, g3⟩ := verify_spec cv H pp C tr pf k hf
  obtain ⟨v', ys', s', g1', g2', g3'⟩ := verify_spec cv H pp C tr pf' k hf'
  have q1 : (xs, t) = (xs', t') := Option.some.inj (h1.symm.trans h1')
  have q2 : (ys, s) = (ys', s') := Option.some.inj (g1.symm.trans g1')
  obtain ⟨rfl, rfl⟩ := Prod.mk.inj q1
  obtain ⟨rfl, rfl⟩ := Prod.mk.inj q2
  rw [h2, h2', g2, g2']
  rw [e1, e2] at h3' g3'
  constructor
  · congr 2
    exact Bool.eq_iff_iff.2 (h3'.trans h3.symm)
  · congr 2
    exact Bool.eq_iff_iff.2 (g3'.trans g3.symm)

/-- The proof of a range of two bits: it is accepted, with one more point and with other scalars too, and has one point per round. -/
example : fastVerify sCurve (sHash 1 1 1 1 1) sPP [7 + 2 * 5] 3 [] (sProof 0 0 0 0 0) =
      some (true, query sCurve (sHash 1 1 1 1 1) [] (sProof 0 0 0 0 0) 4) ∧
    (sProof 0 0 0 0 0).ip.vecL.length = 1 ∧ (sProof 0 0 0 0 0).ip.vecR.length = 1 ∧ (sPP.rangeLen * 1) = 2 ^ 1 ∧ sPP.vecG.length = 2 ∧
    sPP.vecH.length = 2 := by
  decide +kernel

end Bullet

/-! ### The sigma protocols -/

omit [DecidableEq G] in
theorem smul_shift (cv : Curve G) (z i : ℤ) (P : G) : (z + i * cv.order) • P = z • P := by
  have : ((cv.order : ℤ)) • P = 0 := by rw [natCast_zsmul, cv.smul_order]
  rw [add_smul, mul_smul, this, smul_zero, add_zero]

omit [DecidableEq G] in
theorem msm_shift (cv : Curve G) (z t i j : ℤ) (P Q : G) : msm [P, Q] [z + i * cv.order, t + j * cv.order] = msm [P, Q] [z, t] := by
  simp only [msm, List.zipWith_cons_cons, smul_shift]

omit [DecidableEq G] in
theorem scalar_unique (cv : Curve G) (z z' : ℤ) (P : G) (hP : P ≠ 0) (hz : 0 ≤ z ∧ z < cv.order) (hz' : 0 ≤ z' ∧ z' < cv.order)
    (h : z • P = z' • P) : z = z' := by
  have h1 := (cv.smul_eq_iff z z' P hP).1 h
  have := Int.emod_eq_emod_iff_emod_sub_eq_zero.2 (Int.emod_eq_zero_of_dvd h1)
  rwa [Int.emod_eq_of_lt hz.1 hz.2, Int.emod_eq_of_lt hz'.1 hz'.2] at this

/-- **C92** equality of discrete logarithms: to one pair of first messages at most one response below the order is accepted. -/
theorem DLOGEquality.response_unique_partial (cv : Curve G) (H : Bytes → ℤ) (x : DLOGEquality.Instance G) (tr : Bytes) (A1 A2 : G)
    (z z' : ℤ) (hg : x.g1 ≠ 0 ∨ x.g2 ≠ 0) (hz : 0 ≤ z ∧ z < cv.order) (hz' : 0 ≤ z' ∧ z' < cv.order)
    (h1 : (DLOGEquality.verify cv H x tr ⟨A1, A2, z⟩).1 = true) (h2 : (DLOGEquality.verify cv H x tr ⟨A1, A2, z'⟩).1 = true) : z = z' := by
  simp only [DLOGEquality.verify, Bool.and_eq_true, decide_eq_true_eq] at h1 h2
  rcases hg with hg | hg
  · exact scalar_unique cv z z' _ hg hz hz' (h1.1.trans h2.1.symm)
  · exact scalar_unique cv z z' _ hg hz hz' (h1.2.trans h2.2.symm)

/-- **C92 (violation)** the size of the response is not looked at. -/
theorem DLOGEquality.response_malleable (cv : Curve G) (H : Bytes → ℤ) (x : DLOGEquality.Instance G) (tr : Bytes)
    (pf : DLOGEquality.Proof G) (i : ℤ) :
    DLOGEquality.verify cv H x tr { pf with z := pf.z + i * cv.order } = DLOGEquality.verify cv H x tr pf := by
  simp only [DLOGEquality.verify, smul_shift]

/-- **C92** knowledge of a discrete logarithm. -/
theorem DLOGKnowledge.response_unique_partial (cv : Curve G) (H : Bytes → ℤ) (x : DLOGKnowledge.Instance G) (tr : Bytes) (A : G)
    (z z' : ℤ) (hg : x.g ≠ 0) (hz : 0 ≤ z ∧ z < cv.order) (hz' : 0 ≤ z' ∧ z' < cv.order)
    (h1 : (DLOGKnowledge.verify cv H x tr ⟨A, z⟩).1 = true) (h2 : (DLOGKnowledge.verify cv H x tr ⟨A, z'⟩).1 = true) : z = z' := by
  simp only [DLOGKnowledge.verify, decide_eq_true_eq] at h1 h2
  exact scalar_unique cv z z' _ hg hz hz' (h1.trans h2.symm)

/-- **C92 (violation)** the size of the response is not looked at. -/
theorem DLOGKnowledge.response_malleable (cv : Curve G) (H : Bytes → ℤ) (x : DLOGKnowledge.Instance G) (tr : Bytes)
    (pf : DLOGKnowledge.Proof G) (i : ℤ) :
    DLOGKnowledge.verify cv H x tr { pf with z := pf.z + i * cv.order } = DLOGKnowledge.verify cv H x tr pf := by
  simp only [DLOGKnowledge.verify, smul_shift]

/-- **C92** knowledge of a plaintext: to one pair of first messages at most one pair of responses below the order is accepted. -/
theorem PlaintextKnowledge.responses_unique_partial (cv : Curve G) (pp : Twisted.PP G) (H : Bytes → ℤ) (x : PlaintextKnowledge.Instance G)
    (tr : Bytes) (A B : G) (z1 z2 z1' z2' : ℤ) (hk : x.pk ≠ 0) (hh : pp.h ≠ 0) (hz1 : 0 ≤ z1 ∧ z1 < cv.order)
    (hz2 : 0 ≤ z2 ∧ z2 < cv.order) (hz1' : 0 ≤ z1' ∧ z1' < cv.order) (hz2' : 0 ≤ z2' ∧ z2' < cv.order)
    (h1 : (PlaintextKnowledge.verify cv pp H x tr ⟨A, B, z1, z2⟩).1 = true)
    (h2 : (PlaintextKnowledge.verify cv pp H x tr ⟨A, B, z1', z2'⟩).1 = true) : z1 = z1' ∧ z2 = z2' := by
  simp only [PlaintextKnowledge.verify, Bool.and_eq_true, decide_eq_true_eq, msm, List.zipWith_cons_cons, List.zipWith_nil_left,
    List.sum_cons, List.sum_nil, add_zero] at h1 h2
  obtain rfl := scalar_unique cv z1 z1' _ hk hz1 hz1' (h1.1.trans h2.1.symm)
  exact ⟨rfl, scalar_unique cv z2 z2' _ hh hz2 hz2' (add_left_cancel (h1.2.trans h2.2.symm))⟩

/-- **C92 (violation)** the size of the responses is not looked at. -/
theorem PlaintextKnowledge.responses_malleable (cv : Curve G) (pp : Twisted.PP G) (H : Bytes → ℤ) (x : PlaintextKnowledge.Instance G)
    (tr : Bytes) (pf : PlaintextKnowledge.Proof G) (i j : ℤ) :
    PlaintextKnowledge.verify cv pp H x tr { pf with z1 := pf.z1 + i * cv.order, z2 := pf.z2 + j * cv.order } =
      PlaintextKnowledge.verify cv pp H x tr pf := by
  unfold PlaintextKnowledge.verify
  rw [msm_shift]
  simp only [smul_shift]

omit [DecidableEq G] in
theorem PlaintextEquality.addPoints_extra (cv : Curve G) (n : Nat) (v ex : List G) (tr : Bytes) (h : n ≤ v.length) :
    PlaintextEquality.addPoints cv n (v ++ ex) tr = PlaintextEquality.addPoints cv n v tr := by
  unfold PlaintextEquality.addPoints
  rw [if_neg (by simp only [List.length_append]; omega), if_neg (by omega), List.take_append_of_le_length h]

theorem PlaintextEquality.conditions_extra (cv : Curve G) (e z i : ℤ) (ex : List G) : ∀ (pks As Xs : List G), pks.length ≤ As.length →
    PlaintextEquality.conditions e (z + i * cv.order) pks (As ++ ex) Xs = PlaintextEquality.conditions e z pks As Xs
  | [], _, _, _ => by simp [PlaintextEquality.conditions]
  | _ :: _, [], _, h => by simp at h
  | _ :: _, _ :: _, [], _ => rfl
  | pk :: pks, A :: As, X :: Xs, h => by
    simp only [List.cons_append, PlaintextEquality.conditions, smul_shift]
    rw [PlaintextEquality.conditions_extra cv e z i ex pks As Xs (by simpa using h)]

/-- **C92 (violation)** equality of plaintexts: neither the size of the responses is looked at nor further first messages after the one
for the last key. -/
theorem PlaintextEquality.responses_malleable (cv : Curve G) (pp : Twisted.PP G) (H : Bytes → ℤ) (x : PlaintextEquality.Instance G)
    (tr : Bytes) (pf : PlaintextEquality.Proof G) (hA : x.vecPk.length ≤ pf.vecA.length) (ex : List G) (i j : ℤ) :
    PlaintextEquality.verify cv pp H x tr ⟨pf.vecA ++ ex, pf.B, pf.z + i * cv.order, pf.t + j * cv.order⟩ =
      PlaintextEquality.verify cv pp H x tr pf := by
  unfold PlaintextEquality.verify
  refine Bullet.bindCongr fun tr1 _ => ?_
  rw [msm_shift]
  simp only [PlaintextEquality.addPoints_extra cv _ _ ex tr1 hA, PlaintextEquality.conditions_extra cv _ _ i ex _ _ _ hA]

/-- **C92** equality of plaintexts: to one choice of first messages at most one pair of responses below the order is accepted. -/
theorem PlaintextEquality.responses_unique_partial (cv : Curve G) (pp : Twisted.PP G) (H : Bytes → ℤ) (x : PlaintextEquality.Instance G)
    (tr t1 t2 : Bytes) (As : List G) (B : G) (z t z' t' : ℤ) (hk : ∃ pk ∈ x.vecPk, pk ≠ 0) (hh : pp.h ≠ 0) (hz : 0 ≤ z ∧ z < cv.order)
    (ht : 0 ≤ t ∧ t < cv.order) (hz' : 0 ≤ z' ∧ z' < cv.order) (ht' : 0 ≤ t' ∧ t' < cv.order)
    (h1 : PlaintextEquality.verify cv pp H x tr ⟨As, B, z, t⟩ = some (true, t1))
    (h2 : PlaintextEquality.verify cv pp H x tr ⟨As, B, z', t'⟩ = some (true, t2)) : z = z' ∧ t = t' := by
  have key : ∀ (e : ℤ) (pks As Xs : List G) (cs cs' : List Bool), PlaintextEquality.conditions e z pks As Xs = some cs →
      PlaintextEquality.conditions e z' pks As Xs = some cs' → cs.all id = true → cs'.all id = true → (∃ pk ∈ pks, pk ≠ 0) → z = z' := by
    intro e pks
    induction pks with
    | nil => rintro As Xs cs cs' - - - - ⟨pk, hm, -⟩; cases hm
    | cons pk pks ih =>
      rintro As Xs cs cs' g1 g2 g3 g4 ⟨qk, hm, hq⟩
      cases As with
      | nil => cases g1
      | cons A As =>
        cases Xs with
        | nil => cases g1
        | cons X Xs =>
          simp only [PlaintextEquality.conditions, Option.map_eq_some_iff] at g1 g2
          obtain ⟨ds, hd, rfl⟩ := g1
          obtain ⟨ds', hd', rfl⟩ := g2
          simp only [List.all_cons, id, Bool.and_eq_true, decide_eq_true_eq] at g3 g4
          rcases List.mem_cons.1 hm with rfl | hm
          · exact scalar_unique cv z z' _ hq hz hz' (g3.1.trans g4.1.symm)
          · exact ih As Xs ds ds' hd hd' (by simpa using g3.2) (by simpa using g4.2) ⟨qk, hm, hq⟩
  unfold PlaintextEquality.verify at h1 h2
  obtain ⟨a, ha, h1⟩ := Option.bind_eq_some_iff.1 h1
  obtain ⟨b, hb, h1⟩ := Option.bind_eq_some_iff.1 h1
  obtain ⟨cs, hc, h1⟩ := Option.bind_eq_some_iff.1 h1
  obtain ⟨a', ha', h2⟩ := Option.bind_eq_some_iff.1 h2
  obtain ⟨b', hb', h2⟩ := Option.bind_eq_some_iff.1 h2
  obtain ⟨cs', hc', h2⟩ := Option.bind_eq_some_iff.1 h2
  obtain rfl := Option.some.inj (ha.symm.trans ha')
  obtain rfl := Option.some.inj (hb.symm.trans hb')
  have q1 := congrArg Prod.fst (Option.some.inj h1)
  have q2 := congrArg Prod.fst (Option.some.inj h2)
  simp only [List.all_append, Bool.and_eq_true, List.all_cons, List.all_nil, id, decide_eq_true_eq, msm, List.zipWith_cons_cons,
    List.zipWith_nil_left, List.sum_cons, List.sum_nil, add_zero, and_true] at q1 q2
  obtain rfl := key _ _ _ _ _ _ hc hc' (by simpa using q1.1) (by simpa using q2.1) hk
  exact ⟨rfl, scalar_unique cv t t' _ hh ht ht' (add_left_cancel (q1.2.trans q2.2.symm))⟩

/-- Accepted proofs with responses in range, over the group of seven elements. -/
example : (DLOGKnowledge.verify toyCurve (fun _ => 2) ⟨1, 3⟩ [] ⟨5, 4⟩).1 = true ∧
    (DLOGEquality.verify toyCurve (fun _ => 2) ⟨1, 3, 2, 6⟩ [] ⟨5, 3, 4⟩).1 = true ∧ toyCurve.order = 7 ∧
    (PlaintextKnowledge.verify toyCurve ⟨1, 2⟩ (fun _ => 2) ⟨3, ⟨6, 1⟩⟩ [] ⟨3, 0, 5, 2⟩).1 = true := by
  decide +kernel

end Kunlun
