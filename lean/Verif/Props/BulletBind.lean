import Verif.Props.FiatShamir
import Verif.Props.BulletSound

/-!
C89: what the challenges of the inner-product argument and of the range proof are computed from. The strings hashed by the prover and by
both verifiers are written down here without the loops of the code. Nothing else is asked of the hash function, and each string determines
every message sent before its challenge, so no message of a proof can be chosen after the challenge that tests it.
-/

namespace Kunlun

variable {G : Type} [AddCommGroup G] [DecidableEq G]

namespace InnerProduct

/-- The bytes of the first `j` pairs of round messages. -/
def pairBytes (cv : Curve G) (Ls Rs : List G) (j : Nat) : Bytes :=
  (((Ls.zip Rs).take j).map fun p => cv.toBytes p.1 ++ cv.toBytes p.2).flatten

/-- The string hashed in round `j` (counted from 0): the transcript and the messages of the rounds `0 … j`. -/
def roundQuery (cv : Curve G) (tr : Bytes) (pf : Proof G) (j : Nat) : Bytes := tr ++ pairBytes cv pf.vecL pf.vecR (j + 1)

omit [DecidableEq G] in
theorem pairBytes_zero (cv : Curve G) (Ls Rs : List G) : pairBytes cv Ls Rs 0 = [] := by simp [pairBytes]

omit [DecidableEq G] in
theorem pairBytes_cons (cv : Curve G) (L R : G) (Ls Rs : List G) (j : Nat) :
    pairBytes cv (L :: Ls) (R :: Rs) (j + 1) = (cv.toBytes L ++ cv.toBytes R) ++ pairBytes cv Ls Rs j := by simp [pairBytes]

omit [DecidableEq G] in
theorem challenges_congr (cv : Curve G) (H H' : Bytes → ℤ) : ∀ (n : Nat) (Ls Rs : List G) (tr : Bytes),
    (∀ j < n, H (tr ++ pairBytes cv Ls Rs (j + 1)) = H' (tr ++ pairBytes cv Ls Rs (j + 1))) →
    challenges cv H n Ls Rs tr = challenges cv H' n Ls Rs tr
  | 0, _, _, _, _ => rfl
  | n + 1, [], _, _, _ => rfl
  | n + 1, _ :: _, [], _, _ => rfl
  | n + 1, L :: Ls, R :: Rs, tr, h => by
    have h0 := h 0 (by omega)
    rw [pairBytes_cons, pairBytes_zero, List.append_nil] at h0
    have ih := challenges_congr cv H H' n Ls Rs (tr ++ (cv.toBytes L ++ cv.toBytes R)) (fun j hj => by
      have := h (j + 1) (by omega)
      rwa [pairBytes_cons, ← List.append_assoc] at this)
    simp only [challenges, ih, h0]

omit [DecidableEq G] in
theorem challenges_tr (cv : Curve G) (H : Bytes → ℤ) : ∀ (n : Nat) (Ls Rs : List G) (tr tr' : Bytes) (xs : List ℤ),
    challenges cv H n Ls Rs tr = some (xs, tr') → tr' = tr ++ pairBytes cv Ls Rs n
  | 0, _, _, _, _, _, h => by
    simp only [challenges, Option.some.injEq, Prod.mk.injEq] at h
    rw [pairBytes_zero, List.append_nil, h.2]
  | n + 1, [], _, _, _, _, h => by simp [challenges] at h
  | n + 1, _ :: _, [], _, _, _, h => by simp [challenges] at h
  | n + 1, L :: Ls, R :: Rs, tr, tr', xs, h => by
    simp only [challenges, Option.map_eq_some_iff] at h
    obtain ⟨⟨ys, t⟩, h1, h2⟩ := h
    simp only [Prod.mk.injEq] at h2
    rw [← h2.2, challenges_tr cv H n Ls Rs _ _ _ h1, pairBytes_cons, List.append_assoc]

/-- **C89** the verifiers of the inner-product argument ask the hash function at the strings `roundQuery` and nowhere else. -/
theorem innerProduct_verify_queries (cv : Curve G) (H H' : Bytes → ℤ) (pp : PP G) (P : G) (tr : Bytes) (pf : Proof G)
    (h : ∀ j < pp.logLen, H (roundQuery cv tr pf j) = H' (roundQuery cv tr pf j)) :
    verify cv H pp P tr pf = verify cv H' pp P tr pf ∧ fastVerify cv H pp P tr pf = fastVerify cv H' pp P tr pf := by
  have e := challenges_congr cv H H' pp.logLen pf.vecL pf.vecR tr h
  constructor
  · unfold verify; rw [e]
  · unfold fastVerify; rw [e]

omit [DecidableEq G] in
theorem proveLoop_congr (cv : Curve G) (H H' : Bytes → ℤ) (u : G) : ∀ (k : Nat) (g h : List G) (a b : List ℤ) (tr tr' : Bytes) (pf : Proof G),
    proveLoop cv H u k g h a b tr = some (pf, tr') →
    (∀ j < k, H (roundQuery cv tr pf j) = H' (roundQuery cv tr pf j)) →
    proveLoop cv H' u k g h a b tr = some (pf, tr') ∧ tr' = tr ++ pairBytes cv pf.vecL pf.vecR k
  | 0, g, h, a, b, tr, tr', pf, hp, _ => by
    have hp' := hp
    simp only [proveLoop] at hp ⊢
    refine ⟨hp, ?_⟩
    simp only [Option.bind_eq_bind, Option.bind_eq_some_iff, Option.pure_def, Option.some.injEq, Prod.mk.injEq] at hp
    obtain ⟨_, _, _, _, _, rfl⟩ := hp
    rw [pairBytes_zero, List.append_nil]
  | k + 1, g, h, a, b, tr, tr', pf, hp, hq => by
    simp only [proveLoop, Option.bind_eq_bind, Option.bind_eq_some_iff, Option.pure_def, Option.some.injEq, Prod.mk.injEq] at hp
    obtain ⟨cL, h1, cR, h2, L, h3, R, h4, g', h5, h', h6, a', h7, b', h8, ⟨pf0, t⟩, h9, rfl, rfl⟩ := hp
    have h0 := hq 0 (by omega)
    simp only [roundQuery, pairBytes_cons, pairBytes_zero, List.append_nil] at h0
    obtain ⟨i1, i2⟩ := proveLoop_congr cv H H' u k g' h' a' b' _ _ pf0 h9 (fun j hj => by
      have := hq (j + 1) (by omega)
      simp only [roundQuery] at this ⊢
      rwa [pairBytes_cons, ← List.append_assoc] at this)
    constructor
    · simp only [proveLoop, Option.bind_eq_bind, Option.bind_eq_some_iff, Option.pure_def, Option.some.injEq, Prod.mk.injEq]
      rw [h0] at h5 h6 h7 h8
      exact ⟨cL, h1, cR, h2, L, h3, R, h4, g', h5, h', h6, a', h7, b', h8, ⟨pf0, t⟩, i1, rfl, rfl⟩
    · rw [pairBytes_cons, i2, List.append_assoc]

omit [DecidableEq G] in
/-- **C89** the prover of the inner-product argument asks the hash function at the same strings, and hands on the transcript with all round
messages. -/
theorem innerProduct_prove_queries (cv : Curve G) (H H' : Bytes → ℤ) (pp : PP G) (a b : List ℤ) (tr tr' : Bytes) (pf : Proof G)
    (hp : prove cv H pp a b tr = some (pf, tr')) (h : ∀ j < pp.len.log2, H (roundQuery cv tr pf j) = H' (roundQuery cv tr pf j)) :
    prove cv H' pp a b tr = some (pf, tr') ∧ tr' = tr ++ pairBytes cv pf.vecL pf.vecR pp.len.log2 := by
  unfold prove at hp ⊢
  split at hp
  · cases hp
  · next hc =>
    rw [if_neg hc]
    exact proveLoop_congr cv H H' pp.u _ _ _ _ _ _ _ _ hp h

omit [DecidableEq G] in
theorem pairBytes_length {cv : Curve G} {W : Nat} (hE : cv.Encodes W) : ∀ (Ls Rs : List G) (j : Nat), j ≤ Ls.length → j ≤ Rs.length →
    (pairBytes cv Ls Rs j).length = 2 * W * j
  | _, _, 0, _, _ => by simp [pairBytes_zero]
  | [], _, j + 1, h, _ => by simp at h
  | _ :: _, [], j + 1, _, h => by simp at h
  | L :: Ls, R :: Rs, j + 1, h1, h2 => by
    simp only [List.length_cons, Nat.add_le_add_iff_right] at h1 h2
    rw [pairBytes_cons, List.length_append, List.length_append, hE.len, hE.len, pairBytes_length hE Ls Rs j h1 h2]
    ring

omit [DecidableEq G] in
theorem pairBytes_inj {cv : Curve G} {W : Nat} (hE : cv.Encodes W) : ∀ (Ls Rs Ls' Rs' : List G) (j : Nat), j ≤ Ls.length → j ≤ Rs.length →
    j ≤ Ls'.length → j ≤ Rs'.length → pairBytes cv Ls Rs j = pairBytes cv Ls' Rs' j → Ls.take j = Ls'.take j ∧ Rs.take j = Rs'.take j
  | _, _, _, _, 0, _, _, _, _, _ => by simp
  | [], _, _, _, j + 1, h, _, _, _, _ => by simp at h
  | _ :: _, [], _, _, j + 1, _, h, _, _, _ => by simp at h
  | _ :: _, _ :: _, [], _, j + 1, _, _, h, _, _ => by simp at h
  | _ :: _, _ :: _, _ :: _, [], j + 1, _, _, _, h, _ => by simp at h
  | L :: Ls, R :: Rs, L' :: Ls', R' :: Rs', j + 1, h1, h2, h3, h4, h => by
    simp only [List.length_cons, Nat.add_le_add_iff_right] at h1 h2 h3 h4
    rw [pairBytes_cons, pairBytes_cons, List.append_assoc, List.append_assoc] at h
    obtain ⟨d1, k1⟩ := hE.append h
    obtain ⟨d2, k2⟩ := hE.append k1
    obtain ⟨e1, e2⟩ := pairBytes_inj hE Ls Rs Ls' Rs' j h1 h2 h3 h4 k2
    simp [d1, d2, e1, e2]

omit [DecidableEq G] in
/-- **C89** the string hashed in round `j` determines the transcript before the argument and the messages of the rounds `0 … j`. -/
theorem innerProduct_round_binds (cv : Curve G) {W : Nat} (hE : cv.Encodes W) (tr tr' : Bytes) (ht : tr.length = tr'.length) (pf pf' : Proof G)
    (j : Nat) (hl : j < pf.vecL.length ∧ j < pf.vecR.length) (hl' : j < pf'.vecL.length ∧ j < pf'.vecR.length)
    (h : roundQuery cv tr pf j = roundQuery cv tr' pf' j) :
    tr = tr' ∧ pf.vecL.take (j + 1) = pf'.vecL.take (j + 1) ∧ pf.vecR.take (j + 1) = pf'.vecR.take (j + 1) := by
  obtain ⟨e1, e2⟩ := List.append_inj h ht
  exact ⟨e1, pairBytes_inj hE _ _ _ _ _ hl.1 hl.2 hl'.1 hl'.2 e2⟩

omit [DecidableEq G] in
/-- **C89** with equal transcripts, strings hashed in different rounds differ. -/
theorem innerProduct_rounds_apart (cv : Curve G) {W : Nat} (hE : cv.Encodes W) (hW : 0 < W) (tr : Bytes) (pf pf' : Proof G)
    (i j : Nat) (hij : i ≠ j) (hl : i < pf.vecL.length ∧ i < pf.vecR.length) (hl' : j < pf'.vecL.length ∧ j < pf'.vecR.length) :
    roundQuery cv tr pf i ≠ roundQuery cv tr pf' j := by
  intro h
  have := congrArg List.length (List.append_cancel_left h)
  rw [pairBytes_length hE _ _ _ hl.1 hl.2, pairBytes_length hE _ _ _ hl'.1 hl'.2] at this
  have := Nat.eq_of_mul_eq_mul_left (by omega : 0 < 2 * W) this
  omega

end InnerProduct

namespace Bullet

/-- The strings hashed in a range proof, in order: for `y`, `z`, `x`, `e`, and for the rounds of the inner-product argument. The third one
determines `x`, whose bytes are part of the later ones. -/
def query (cv : Curve G) (H : Bytes → ℤ) (tr : Bytes) (pf : Proof G) : Nat → Bytes
  | 0 => tr ++ cv.toBytes pf.A
  | 1 => tr ++ cv.toBytes pf.A ++ cv.toBytes pf.S
  | 2 => tr ++ cv.toBytes pf.A ++ cv.toBytes pf.S ++ cv.toBytes pf.T1 ++ cv.toBytes pf.T2
  | j + 3 =>
    let s := tr ++ cv.toBytes pf.A ++ cv.toBytes pf.S ++ cv.toBytes pf.T1 ++ cv.toBytes pf.T2
    s ++ BigInt.toByteString (H s) ++ InnerProduct.pairBytes cv pf.ip.vecL pf.ip.vecR j

theorem bindCongr {α β : Type} {o : Option α} {f g : α → Option β} (h : ∀ a, o = some a → f a = g a) : (o >>= f) = (o >>= g) := by
  cases o with
  | none => rfl
  | some a => exact h a rfl

theorem verify_congr (cv : Curve G) (H H' : Bytes → ℤ) (pp : PP G) (C : List G) (tr : Bytes) (pf : Proof G)
    (h : ∀ j ≤ 3 + (pp.rangeLen * C.length).log2, H (query cv H tr pf j) = H' (query cv H tr pf j)) :
    verify cv H pp C tr pf = verify cv H' pp C tr pf := by
  have h1 := h 0 (by omega)
  have h2 := h 1 (by omega)
  have h3 := h 2 (by omega)
  have h4 := h 3 (by omega)
  have h5 := InnerProduct.challenges_congr cv H H' (pp.rangeLen * C.length).log2 pf.ip.vecL pf.ip.vecR (query cv H tr pf 3) (fun j hj => by
    have := h (j + 4) (by omega)
    simpa only [query, InnerProduct.pairBytes_zero, List.append_nil] using this)
  simp only [query, InnerProduct.pairBytes_zero, List.append_nil] at h1 h2 h3 h4 h5
  simp only [List.append_assoc] at h1 h2 h3 h4 h5
  rw [h3] at h4 h5
  have hf : ∀ (ipp : InnerProduct.PP G) (a b : List G) (u P : G), InnerProduct.setup (pp.rangeLen * C.length) a b u = some ipp →
      InnerProduct.fastVerify cv H ipp P (tr ++ (cv.toBytes pf.A ++ (cv.toBytes pf.S ++ (cv.toBytes pf.T1 ++ (cv.toBytes pf.T2 ++
        BigInt.toByteString (H' (tr ++ (cv.toBytes pf.A ++ (cv.toBytes pf.S ++ (cv.toBytes pf.T1 ++ cv.toBytes pf.T2)))))))))) pf.ip =
      InnerProduct.fastVerify cv H' ipp P (tr ++ (cv.toBytes pf.A ++ (cv.toBytes pf.S ++ (cv.toBytes pf.T1 ++ (cv.toBytes pf.T2 ++
        BigInt.toByteString (H' (tr ++ (cv.toBytes pf.A ++ (cv.toBytes pf.S ++ (cv.toBytes pf.T1 ++ cv.toBytes pf.T2)))))))))) pf.ip := by
    intro ipp a b u P hs
    have hl : ipp.logLen = (pp.rangeLen * C.length).log2 := by
      unfold InnerProduct.setup at hs
      split at hs
      · cases hs
      · simp only [Option.some.injEq] at hs; rw [← hs]
    unfold InnerProduct.fastVerify
    rw [hl, h5]
  unfold verify
  simp only [List.append_assoc, h1, h2, h3, h4]
  refine bindCongr fun _ _ => bindCongr fun _ _ => bindCongr fun _ _ => bindCongr fun _ _ => bindCongr fun _ _ => ?_
  split
  · rfl
  refine bindCongr fun _ _ => bindCongr fun _ _ => bindCongr fun ipp hs => bindCongr fun P _ => ?_
  rw [hf ipp _ _ _ _ hs]

theorem fastVerify_congr (cv : Curve G) (H H' : Bytes → ℤ) (pp : PP G) (C : List G) (c : ℤ) (tr : Bytes) (pf : Proof G)
    (h : ∀ j ≤ 3 + (pp.rangeLen * C.length).log2, H (query cv H tr pf j) = H' (query cv H tr pf j)) :
    fastVerify cv H pp C c tr pf = fastVerify cv H' pp C c tr pf := by
  have h1 := h 0 (by omega)
  have h2 := h 1 (by omega)
  have h3 := h 2 (by omega)
  have h4 := h 3 (by omega)
  have h5 := InnerProduct.challenges_congr cv H H' (pp.rangeLen * C.length).log2 pf.ip.vecL pf.ip.vecR (query cv H tr pf 3) (fun j hj => by
    have := h (j + 4) (by omega)
    simpa only [query, InnerProduct.pairBytes_zero, List.append_nil] using this)
  simp only [query, InnerProduct.pairBytes_zero, List.append_nil] at h1 h2 h3 h4 h5
  simp only [List.append_assoc] at h1 h2 h3 h4 h5
  rw [h3] at h4 h5
  unfold fastVerify
  simp only [List.append_assoc, h1, h2, h3, h4]
  split
  · rfl
  refine bindCongr fun _ _ => bindCongr fun _ _ => bindCongr fun _ _ => bindCongr fun _ _ => ?_
  split
  · rfl
  refine bindCongr fun _ _ => bindCongr fun _ _ => ?_
  rw [h5]

/-- **C89** the verifiers of the range proof ask the hash function at the strings `query` and nowhere else. -/
theorem bulletproof_verify_queries (cv : Curve G) (H H' : Bytes → ℤ) (pp : PP G) (C : List G) (tr : Bytes) (pf : Proof G)
    (h : ∀ j ≤ 3 + (pp.rangeLen * C.length).log2, H (query cv H tr pf j) = H' (query cv H tr pf j)) :
    verify cv H pp C tr pf = verify cv H' pp C tr pf ∧ ∀ c, fastVerify cv H pp C c tr pf = fastVerify cv H' pp C c tr pf :=
  ⟨verify_congr cv H H' pp C tr pf h, fun c => fastVerify_congr cv H H' pp C c tr pf h⟩

/-- **C89** the prover asks the hash function at the same strings, and hands on the transcript with all messages. -/
theorem bulletproof_prove_queries (cv : Curve G) (H H' : Bytes → ℤ) (pp : PP G) (n : Nat) (r v : List ℤ) (co : Coins) (tr tr' : Bytes)
    (pf : Proof G) (hp : prove cv H pp n r v co tr = some (pf, tr'))
    (h : ∀ j ≤ 3 + (pp.rangeLen * n).log2, H (query cv H tr pf j) = H' (query cv H tr pf j)) :
    prove cv H' pp n r v co tr = some (pf, tr') ∧ tr' = query cv H tr pf (3 + (pp.rangeLen * n).log2) := by
  have h1 := h 0 (by omega)
  have h2 := h 1 (by omega)
  have h3 := h 2 (by omega)
  have h4 := h 3 (by omega)
  have h5 : ∀ j < (pp.rangeLen * n).log2, H (query cv H tr pf (j + 4)) = H' (query cv H tr pf (j + 4)) := fun j hj => h (j + 4) (by omega)
  simp only [prove, Option.bind_eq_bind, Option.bind_eq_some_iff, Option.pure_def, Option.some.injEq, Prod.mk.injEq] at hp
  obtain ⟨⟨aL, aR, A, S⟩, k1, yI, k2, ⟨l0, r0, r1⟩, k3, ⟨T1, T2⟩, k4, ⟨lx, rx, tx⟩, k5, hN, k6, ipp, k7, ⟨ip, t⟩, k8, rfl, rfl⟩ := hp
  have hl : ipp.len = pp.rangeLen * n := by
    unfold InnerProduct.setup at k7
    split at k7
    · cases k7
    · simp only [Option.some.injEq] at k7; rw [← k7]
  simp only [query, InnerProduct.pairBytes_zero, List.append_nil] at h1 h2 h3 h4 h5
  simp only [List.append_assoc] at h1 h2 h3 h4 h5 k1 k2 k3 k4 k5 k6 k7 k8
  obtain ⟨q1, q2⟩ := InnerProduct.innerProduct_prove_queries cv H H' ipp lx rx _ _ ip k8 (fun j hj => by
    rw [hl] at hj
    have := h5 j hj
    simpa only [InnerProduct.roundQuery, List.append_assoc] using this)
  rw [hl] at q2
  constructor
  · rw [h3] at h4 q1 k5 k7
    rw [h4] at k7
    rw [h1] at k2 k3
    rw [h2] at k3
    simp only [prove, Option.bind_eq_bind, Option.bind_eq_some_iff, Option.pure_def, Option.some.injEq, Prod.mk.injEq, List.append_assoc]
    refine ⟨(aL, aR, A, S), k1, yI, k2, (l0, r0, r1), k3, (T1, T2), k4, (lx, rx, tx), k5, hN, k6, ipp, k7, (ip, t), q1, ?_, rfl⟩
    rw [h2, h3]
  · rw [q2, show 3 + (pp.rangeLen * n).log2 = (pp.rangeLen * n).log2 + 3 by omega]
    simp only [query, List.append_assoc]

omit [DecidableEq G] in
/-- **C89** the string hashed for a challenge determines the transcript before the proof and every message sent before that challenge. -/
theorem bulletproof_challenge_binds (cv : Curve G) {W : Nat} (hE : cv.Encodes W) (H : Bytes → ℤ) (tr tr' : Bytes) (ht : tr.length = tr'.length)
    (pf pf' : Proof G) :
    (query cv H tr pf 0 = query cv H tr' pf' 0 → tr = tr' ∧ pf.A = pf'.A) ∧
    (query cv H tr pf 1 = query cv H tr' pf' 1 → tr = tr' ∧ pf.A = pf'.A ∧ pf.S = pf'.S) ∧
    (query cv H tr pf 2 = query cv H tr' pf' 2 → tr = tr' ∧ pf.A = pf'.A ∧ pf.S = pf'.S ∧ pf.T1 = pf'.T1 ∧ pf.T2 = pf'.T2) ∧
    ∀ j, j ≤ pf.ip.vecL.length → j ≤ pf.ip.vecR.length → j ≤ pf'.ip.vecL.length → j ≤ pf'.ip.vecR.length →
      query cv H tr pf (j + 3) = query cv H tr' pf' (j + 3) →
      tr = tr' ∧ pf.A = pf'.A ∧ pf.S = pf'.S ∧ pf.T1 = pf'.T1 ∧ pf.T2 = pf'.T2 ∧
        pf.ip.vecL.take j = pf'.ip.vecL.take j ∧ pf.ip.vecR.take j = pf'.ip.vecR.take j := by
  refine ⟨fun h => ?_, fun h => ?_, fun h => ?_, fun j l1 l2 l3 l4 h => ?_⟩
  all_goals simp only [query, List.append_assoc] at h
  · obtain ⟨e0, h⟩ := List.append_inj h ht
    exact ⟨e0, hE.inj h⟩
  · obtain ⟨e0, h⟩ := List.append_inj h ht
    obtain ⟨e1, h⟩ := hE.append h
    exact ⟨e0, e1, hE.inj h⟩
  · obtain ⟨e0, h⟩ := List.append_inj h ht
    obtain ⟨e1, h⟩ := hE.append h
    obtain ⟨e2, h⟩ := hE.append h
    obtain ⟨e3, h⟩ := hE.append h
    exact ⟨e0, e1, e2, e3, hE.inj h⟩
  · obtain ⟨e0, h⟩ := List.append_inj h ht
    obtain ⟨e1, h⟩ := hE.append h
    obtain ⟨e2, h⟩ := hE.append h
    obtain ⟨e3, h⟩ := hE.append h
    obtain ⟨e4, h⟩ := hE.append h
    rw [e0, e1, e2, e3, e4] at h
    obtain ⟨e5, e6⟩ := InnerProduct.pairBytes_inj hE _ _ _ _ j l1 l2 l3 l4 (List.append_cancel_left h)
    exact ⟨e0, e1, e2, e3, e4, e5, e6⟩

/-! ### The hypotheses are met -/

theorem sCurve_encodes : sCurve.Encodes 1 := ⟨fun _ => rfl, by
  intro a b h
  revert a b
  decide⟩

/-- The strings of this proof have 1, 2, 4, 5 and 7 bytes; the second hash function differs from the first on strings of 3 bytes. -/
def exOther (b : Bytes) : ℤ := if b.length = 3 then 9 else sHash 1 1 1 1 1 b

example : prove sCurve (sHash 1 1 1 1 1) sPP 1 [7] [2] ⟨3, [5, 1], [2, 6], 4, 2, 5⟩ [] =
      some (sProof 0 0 0 0 0, query sCurve (sHash 1 1 1 1 1) [] (sProof 0 0 0 0 0) 4) ∧
    (∀ j ≤ 3 + (sPP.rangeLen * 1).log2, sHash 1 1 1 1 1 (query sCurve (sHash 1 1 1 1 1) [] (sProof 0 0 0 0 0) j) =
      exOther (query sCurve (sHash 1 1 1 1 1) [] (sProof 0 0 0 0 0) j)) ∧
    sHash 1 1 1 1 1 [0, 0, 0] ≠ exOther [0, 0, 0] ∧ (sProof 0 0 0 0 0).ip.vecL.length = 1 := by
  have h : (sPP.rangeLen * 1).log2 = 1 := by decide
  rw [h]
  decide +kernel

end Bullet
end Kunlun
