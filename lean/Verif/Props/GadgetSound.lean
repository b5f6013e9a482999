import Verif.Props.Gadget
import Verif.Props.BulletSound
/-!
C40, C45, C88: soundness of the interval gadget, of the limit policy and of transactions, with the openings extracted from the proofs.
-/

namespace Kunlun

open IpExtract BulletExtract

variable {G : Type} [AddCommGroup G] [DecidableEq G]

namespace Bullet

/-- The hash function of a run gives the challenges of a branch of the answers. -/
def Chal (cv : Curve G) (H : Bytes → ℤ) (tr : Bytes) (k : ℕ) (a : Ans ℤ G) (s i c d : ℕ) (p : List (Fin 4)) : Prop :=
  let pf := proofAt a s i c d p
  H (tr1 cv pf tr) = a.y s ∧ H (tr2 cv pf tr) = a.z s i ∧ H (tr3 cv pf tr) = a.x s i c ∧ H (tr4 cv H pf tr) = a.e s i c d ∧
    ∃ tr', InnerProduct.challenges cv H k pf.ip.vecL pf.ip.vecR (tr4 cv H pf tr) = some ((a.ip s i c d).pathX p, tr')

/-- A property for every branch of the answers of a prover with `n` commitments. -/
def Branches (L n k : ℕ) (P : ℕ → ℕ → ℕ → ℕ → List (Fin 4) → Prop) : Prop :=
  ∀ s < L * n, ∀ i < n + 2, ∀ c < 3, ∀ d < 2, ∀ p : List (Fin 4), p.length = k → P s i c d p

/-- Accepted by the fast verifier for two scalars in every branch: accepted by the slow one. -/
theorem answers_of_fast (cv : Curve G) (pp : PP G) (C : List G) (tr : Bytes) (k : ℕ) (a : Ans ℤ G) (hk : k < 64)
    (hpow : pp.rangeLen * C.length = 2 ^ k) (hg : pp.rangeLen * C.length ≤ pp.vecG.length) (hh : pp.rangeLen * C.length ≤ pp.vecH.length)
    (ha : Branches pp.rangeLen C.length k fun s i c d p => ∃ (H : Bytes → ℤ) (s1 s2 : ℤ) (t1 t2 : Bytes), ¬ (cv.order : ℤ) ∣ s1 - s2 ∧
      Chal cv H tr k a s i c d p ∧ fastVerify cv H pp C s1 tr (proofAt a s i c d p) = some (true, t1) ∧
      fastVerify cv H pp C s2 tr (proofAt a s i c d p) = some (true, t2)) :
    Answers cv pp C tr k a := by
  intro s hs i hi c hc d hd p hp pf
  obtain ⟨H, s1, s2, t1, t2, hne, ⟨h1, h2, h3, h4, tr', h5⟩, f1, f2⟩ := ha s hs i hi c hc d hd p hp
  have hf : Fits pp C.length (proofAt a s i c d p) k := ⟨hpow, hk, hg, hh, by
    simp only [proofAt, InnerProduct.proofAt, Tree.pathL_length, hp], by simp only [proofAt, InnerProduct.proofAt, Tree.pathR_length, hp]⟩
  obtain ⟨ok, tr2, g1, g2, -, g4⟩ := bulletproof_fast_agrees cv H pp C tr _ k hf
  obtain ⟨b1, e1⟩ := g2 s1
  obtain ⟨b2, e2⟩ := g2 s2
  rw [f1, Option.some.injEq, Prod.mk.injEq] at e1
  rw [f2, Option.some.injEq, Prod.mk.injEq] at e2
  obtain ⟨rfl, rfl⟩ := e1
  obtain ⟨rfl, rfl⟩ := e2
  have hok := g4 s1 s2 hne f1 f2
  obtain ⟨b, xs, tr3, k1, k2, -⟩ := verify_spec cv H pp C tr _ k hf
  rw [h5, Option.some.injEq, Prod.mk.injEq] at k1
  rw [k2, Option.some.injEq, Prod.mk.injEq] at g1
  refine ⟨H, tr', h1, h2, h3, h4, h5, ?_⟩
  rw [k2, g1.1, hok, k1.2]

/-- One of the relations computed from the answers to `n` commitments is a non-trivial relation between the generators. -/
def Relation (cv : Curve G) (pp : PP G) (n k : ℕ) (a : Ans ℤ G) : Prop :=
  haveI := cv.fact
  letI := cv.toModule
  ∃ ρ ∈ allRels pp.rangeLen n k (a.map (Int.cast : ℤ → ZMod cv.order)),
    ¬ ((∀ i < pp.rangeLen * n, ρ.1.1 i = 0) ∧ (∀ i < pp.rangeLen * n, ρ.1.2.1 i = 0) ∧ ρ.1.2.2 = 0 ∧ ρ.2.1 = 0 ∧ ρ.2.2 = 0) ∧
    (∑ i ∈ Finset.range (pp.rangeLen * n), ρ.1.1 i • (pp.vecG[i]?).getD 0) +
      (∑ i ∈ Finset.range (pp.rangeLen * n), ρ.1.2.1 i • (pp.vecH[i]?).getD 0) + ρ.1.2.2 • pp.u + ρ.2.1 • pp.g + ρ.2.2 • pp.h = 0

/-- The value extracted for the `j`-th commitment. -/
noncomputable def valueOf (cv : Curve G) (pp : PP G) (k : ℕ) (a : Ans ℤ G) (j : ℕ) : ℤ :=
  haveI := cv.fact
  ((value pp.rangeLen k (a.map (Int.cast : ℤ → ZMod cv.order)) j : ℕ) : ℤ)

/-- The randomness extracted for the `j`-th of `n` commitments. -/
noncomputable def randOf (cv : Curve G) (pp : PP G) (n : ℕ) (a : Ans ℤ G) (j : ℕ) : ℤ :=
  haveI := cv.fact
  (((opC pp.rangeLen n (a.map (Int.cast : ℤ → ZMod cv.order)) j).1.val : ℕ) : ℤ)

/-- The challenges of the answers are usable. -/
def GoodAns (cv : Curve G) (L n k : ℕ) (a : Ans ℤ G) : Prop :=
  haveI := cv.fact; (a.map (Int.cast : ℤ → ZMod cv.order)).Good L n k

theorem openings (cv : Curve G) (pp : PP G) (C : List G) (tr : Bytes) (k : ℕ) (a : Ans ℤ G) (hk : k < 64)
    (hpow : pp.rangeLen * C.length = 2 ^ k) (hg : pp.rangeLen * C.length ≤ pp.vecG.length) (hh : pp.rangeLen * C.length ≤ pp.vecH.length)
    (ha : Answers cv pp C tr k a) (hgood : GoodAns cv pp.rangeLen C.length k a) :
    (∀ (j : Nat) (_ : j < C.length), 0 ≤ valueOf cv pp k a j ∧ valueOf cv pp k a j < 2 ^ pp.rangeLen ∧
      C[j] = randOf cv pp C.length a j • pp.g + valueOf cv pp k a j • pp.h) ∨ Relation cv pp C.length k a := by
  rcases bulletproof_sound cv pp C tr k a hk hpow hg hh ha hgood with h | h
  · left
    intro j hj
    obtain ⟨h1, h2⟩ := h j hj
    exact ⟨Int.natCast_nonneg _, by unfold valueOf; exact_mod_cast h1, h2⟩
  · exact Or.inr h

end Bullet

/-- Two openings of one commitment: the values agree modulo the order, or the openings give a relation between `g` and `h`. -/
theorem two_openings (cv : Curve G) (g h Y : G) (r v r' v' : ℤ) (h1 : Y = r • g + v • h) (h2 : Y = r' • g + v' • h) :
    v % cv.order = v' % cv.order ∨ ((r - r') • g + (v - v') • h = 0 ∧ ¬ (cv.order : ℤ) ∣ v - v') := by
  by_cases hd : (cv.order : ℤ) ∣ v - v'
  · exact Or.inl (Int.emod_eq_emod_iff_emod_sub_eq_zero.2 (Int.emod_eq_zero_of_dvd hd))
  · refine Or.inr ⟨?_, hd⟩
    have : (r - r') • g + (v - v') • h = (r • g + v • h) - (r' • g + v' • h) := by module
    rw [this, ← h1, ← h2, sub_self]

namespace Gadget

/-- Enough generators for two commitments, both bases agree with the encryption. -/
structure Fit (pp : PP G) (k : Nat) : Prop where
  base_g : pp.bullet.g = pp.enc.g
  base_h : pp.bullet.h = pp.enc.h
  pow : pp.bullet.rangeLen * 2 = 2 ^ k
  small : k < 64
  lenG : pp.bullet.rangeLen * 2 ≤ pp.bullet.vecG.length
  lenH : pp.bullet.rangeLen * 2 ≤ pp.bullet.vecH.length

/-- What is hashed before the range proof of a type-1 proof. -/
def rangeTr1 (cv : Curve G) (x : Instance G) (tr : Bytes) (pf : PlaintextKnowledge.Proof G) : Bytes :=
  tr ++ (cv.toBytes x.pk ++ cv.toBytes x.ct.X ++ cv.toBytes x.ct.Y) ++ (cv.toBytes pf.A ++ cv.toBytes pf.B)

/-- What is hashed before the range proof of a type-2 proof. -/
def rangeTr2 (cv : Curve G) (pp : PP G) (x : Instance G) (tr : Bytes) (pf : Proof2 G) : Bytes :=
  let y := refreshInstance pp x pf.refresh
  rangeTr1 cv ⟨x.pk, pf.refresh⟩ (tr ++ (cv.toBytes y.g1 ++ cv.toBytes y.g2 ++ cv.toBytes y.h1 ++ cv.toBytes y.h2) ++
    (cv.toBytes pf.dlogeq.A1 ++ cv.toBytes pf.dlogeq.A2)) pf.ptke

/-- The prover answers every choice of the challenges of the range proof, the first part `pf.ptke` of the proof being fixed; every proof
is accepted for two scalars of the verifier. -/
def Rewinds1 (cv : Curve G) (pp : PP G) (x : Instance G) (L R : ℤ) (tr : Bytes) (ptke : PlaintextKnowledge.Proof G) (k : ℕ) (a : Ans ℤ G) : Prop :=
  Bullet.Branches pp.bullet.rangeLen 2 k fun s i c d p => ∃ (H : Bytes → ℤ) (s1 s2 : ℤ) (t1 t2 : Bytes), ¬ (cv.order : ℤ) ∣ s1 - s2 ∧
    Bullet.Chal cv H (rangeTr1 cv x tr ptke) k a s i c d p ∧
    verify1 cv H pp x L R s1 tr ⟨ptke, Bullet.proofAt a s i c d p⟩ = some (true, t1) ∧
    verify1 cv H pp x L R s2 tr ⟨ptke, Bullet.proofAt a s i c d p⟩ = some (true, t2)

/-- The same for type 2. -/
def Rewinds2 (cv : Curve G) (pp : PP G) (x : Instance G) (L R : ℤ) (tr : Bytes) (pf : Proof2 G) (k : ℕ) (a : Ans ℤ G) : Prop :=
  Bullet.Branches pp.bullet.rangeLen 2 k fun s i c d p => ∃ (H : Bytes → ℤ) (s1 s2 : ℤ) (t1 t2 : Bytes), ¬ (cv.order : ℤ) ∣ s1 - s2 ∧
    Bullet.Chal cv H (rangeTr2 cv pp x tr pf) k a s i c d p ∧
    verify2 cv H pp x L R s1 tr { pf with bullet := Bullet.proofAt a s i c d p } = some (true, t1) ∧
    verify2 cv H pp x L R s2 tr { pf with bullet := Bullet.proofAt a s i c d p } = some (true, t2)

/-- What contradicts the value found by the proof of plaintext knowledge: a relation between `g` and `h` from two openings of one of the
commitments, or a relation between the generators of the range proof. -/
def Breaks (cv : Curve G) (pp : PP G) (L R r m : ℤ) (k : ℕ) (a : Ans ℤ G) : Prop :=
  let r0 := Bullet.randOf cv pp.bullet 2 a 0
  let a0 := Bullet.valueOf cv pp.bullet k a 0
  let r1 := Bullet.randOf cv pp.bullet 2 a 1
  let a1 := Bullet.valueOf cv pp.bullet k a 1
  ((r - r0) • pp.bullet.g = (a0 - (m - L)) • pp.bullet.h ∧ ¬ (cv.order : ℤ) ∣ a0 - (m - L)) ∨
  ((r - r1) • pp.bullet.g = (a1 - (m + 2 ^ pp.bullet.rangeLen - R)) • pp.bullet.h ∧
    ¬ (cv.order : ℤ) ∣ a1 - (m + 2 ^ pp.bullet.rangeLen - R)) ∨ Bullet.Relation cv pp.bullet 2 k a

theorem interval_of_answers (cv : Curve G) (pp : PP G) (k : ℕ) (hfit : Fit pp k) (a : Ans ℤ G) (hgood : Bullet.GoodAns cv pp.bullet.rangeLen 2 k a)
    (L R : ℤ) (hq : 2 ^ (pp.bullet.rangeLen + 1) ≤ cv.order) (h0 : 0 ≤ L) (hLR : L ≤ R) (hR : R ≤ 2 ^ pp.bullet.rangeLen) (Y : G) (tr : Bytes) (r m : ℤ)
    (hY : Y = r • pp.enc.g + m • pp.enc.h) (ha : Bullet.Answers cv pp.bullet (adjustInstance pp.bullet L R Y Y) tr k a) :
    (L ≤ m % cv.order ∧ m % cv.order < R) ∨ Breaks cv pp L R r m k a := by
  rcases Bullet.openings cv pp.bullet (adjustInstance pp.bullet L R Y Y) tr k a hfit.small hfit.pow hfit.lenG hfit.lenH ha hgood with h | h
  · obtain ⟨a1, a2, a3⟩ := h 0 (by simp [adjustInstance])
    obtain ⟨b1, b2, b3⟩ := h 1 (by simp [adjustInstance])
    have hC : adjustInstance pp.bullet L R Y Y = [Bullet.randOf cv pp.bullet 2 a 0 • pp.bullet.g + Bullet.valueOf cv pp.bullet k a 0 • pp.bullet.h,
        Bullet.randOf cv pp.bullet 2 a 1 • pp.bullet.g + Bullet.valueOf cv pp.bullet k a 1 • pp.bullet.h] := by
      simp only [adjustInstance, List.getElem_cons_zero, List.getElem_cons_succ, List.length_cons, List.length_nil, Nat.zero_add, Nat.reduceAdd] at a3 b3 ⊢
      rw [a3, b3]
    rcases gadget_interval_sound cv pp L R r m _ _ _ _ Y hq h0 hLR hR (by rw [hY, hfit.base_g, hfit.base_h]) hC ⟨a1, a2⟩ ⟨b1, b2⟩ with h | h | h
    · exact Or.inl h
    · exact Or.inr (Or.inl h)
    · exact Or.inr (Or.inr (Or.inl h))
  · exact Or.inr (Or.inr (Or.inr h))

theorem accepted1_parts (cv : Curve G) (H : Bytes → ℤ) (pp : PP G) (x : Instance G) (L R s : ℤ) (tr t : Bytes) (pf : Proof1 G)
    (h : verify1 cv H pp x L R s tr pf = some (true, t)) :
    (PlaintextKnowledge.verify cv pp.enc H ⟨x.pk, x.ct⟩ tr pf.ptke).1 = true ∧
    Bullet.fastVerify cv H pp.bullet (adjustInstance pp.bullet L R x.ct.Y x.ct.Y) s (rangeTr1 cv x tr pf.ptke) pf.bullet = some (true, t) := by
  unfold verify1 at h
  simp only [Option.bind_eq_bind, Option.bind_eq_some_iff, Option.pure_def, Option.some.injEq, Prod.mk.injEq, Bool.and_eq_true] at h
  obtain ⟨⟨b, t'⟩, h1, ⟨h2, rfl⟩, rfl⟩ := h
  exact ⟨h2, h1⟩

theorem accepted2_parts (cv : Curve G) (H : Bytes → ℤ) (pp : PP G) (x : Instance G) (L R s : ℤ) (tr t : Bytes) (pf : Proof2 G)
    (h : verify2 cv H pp x L R s tr pf = some (true, t)) :
    (DLOGEquality.verify cv H (refreshInstance pp x pf.refresh) tr pf.dlogeq).1 = true ∧
    (PlaintextKnowledge.verify cv pp.enc H ⟨x.pk, pf.refresh⟩ (DLOGEquality.verify cv H (refreshInstance pp x pf.refresh) tr pf.dlogeq).2 pf.ptke).1 = true ∧
    Bullet.fastVerify cv H pp.bullet (adjustInstance pp.bullet L R pf.refresh.Y pf.refresh.Y) s (rangeTr2 cv pp x tr pf) pf.bullet = some (true, t) := by
  unfold verify2 at h
  simp only [Option.bind_eq_bind, Option.bind_eq_some_iff, Option.pure_def, Option.some.injEq, Prod.mk.injEq, Bool.and_eq_true] at h
  obtain ⟨⟨b, t'⟩, h1, ⟨⟨h2, h3⟩, rfl⟩, rfl⟩ := h
  exact ⟨h2, h3, h1⟩

/-- C40, type 1, soundness: two accepted proofs with one first message of the proof of plaintext knowledge and different challenges, and
answers to the challenges of the range proof. The ciphertext encrypts the extracted `m` with randomness `r`, and `m` modulo the order lies
in `[LEFT, RIGHT)`, or what was extracted gives a relation between the generators. -/
theorem gadget_type1_sound (cv : Curve G) (pp : PP G) (k : ℕ) (hfit : Fit pp k) (x : Instance G) (L R : ℤ)
    (hq : 2 ^ (pp.bullet.rangeLen + 1) ≤ cv.order) (h0 : 0 ≤ L) (hLR : L ≤ R) (hR : R ≤ 2 ^ pp.bullet.rangeLen)
    (H H' : Bytes → ℤ) (s s' : ℤ) (tr tr' t t' : Bytes) (pf pf' : Proof1 G) (a : Ans ℤ G) (hgood : Bullet.GoodAns cv pp.bullet.rangeLen 2 k a)
    (h1 : verify1 cv H pp x L R s tr pf = some (true, t)) (h2 : verify1 cv H' pp x L R s' tr' pf' = some (true, t'))
    (eA : pf'.ptke.A = pf.ptke.A) (eB : pf'.ptke.B = pf.ptke.B)
    (hne : ¬ (cv.order : ℤ) ∣ PlaintextKnowledge.challenge cv H ⟨x.pk, x.ct⟩ tr pf.ptke.A pf.ptke.B -
      PlaintextKnowledge.challenge cv H' ⟨x.pk, x.ct⟩ tr' pf.ptke.A pf.ptke.B)
    (ha : Rewinds1 cv pp x L R tr pf.ptke k a) :
    let e := PlaintextKnowledge.challenge cv H ⟨x.pk, x.ct⟩ tr pf.ptke.A pf.ptke.B
    let e' := PlaintextKnowledge.challenge cv H' ⟨x.pk, x.ct⟩ tr' pf.ptke.A pf.ptke.B
    let m := extract cv pf.ptke.z2 pf'.ptke.z2 e e'
    let r := extract cv pf.ptke.z1 pf'.ptke.z1 e e'
    x.ct = Twisted.enc pp.enc x.pk m r ∧ ((L ≤ m % cv.order ∧ m % cv.order < R) ∨ Breaks cv pp L R r m k a) := by
  intro e e' m r
  obtain ⟨p1, -⟩ := accepted1_parts cv H pp x L R s tr t pf h1
  obtain ⟨p2, -⟩ := accepted1_parts cv H' pp x L R s' tr' t' pf' h2
  have p2' : (PlaintextKnowledge.verify cv pp.enc H' ⟨x.pk, x.ct⟩ tr' ⟨pf.ptke.A, pf.ptke.B, pf'.ptke.z1, pf'.ptke.z2⟩).1 = true := by
    rw [← eA, ← eB]; exact p2
  have hct := PlaintextKnowledge.plaintextKnowledge_special_sound cv pp.enc H H' ⟨x.pk, x.ct⟩ tr tr' pf.ptke.A pf.ptke.B _ _ _ _ p1 p2' hne
  refine ⟨hct, ?_⟩
  have hY : x.ct.Y = r • pp.enc.g + m • pp.enc.h := by
    have := congrArg CT.Y hct
    simpa only [Twisted.enc, msm_two] using this
  refine interval_of_answers cv pp k hfit a hgood L R hq h0 hLR hR x.ct.Y (rangeTr1 cv x tr pf.ptke) r m hY ?_
  refine Bullet.answers_of_fast cv pp.bullet _ _ k a hfit.small hfit.pow hfit.lenG hfit.lenH ?_
  intro s hs i hi c hc d hd p hp
  obtain ⟨H, s1, s2, t1, t2, hn, hch, v1, v2⟩ := ha s hs i hi c hc d hd p hp
  exact ⟨H, s1, s2, t1, t2, hn, hch, (accepted1_parts cv H pp x L R s1 tr t1 _ v1).2, (accepted1_parts cv H pp x L R s2 tr t2 _ v2).2⟩

/-- C40, type 2, soundness: three accepted proofs, the first and second with one first message of the refreshing proof, the first and third
with one first message of the proof of plaintext knowledge, with different challenges, and answers to the challenges of the range proof.
The extracted `w` is the secret key, the ciphertext has under it the extracted plaintext `m`, and `m` modulo the order lies in
`[LEFT, RIGHT)`, or what was extracted gives a relation between the generators. -/
theorem gadget_type2_sound (cv : Curve G) (pp : PP G) (k : ℕ) (hfit : Fit pp k) (x : Instance G) (hpk : x.pk ≠ 0) (L R : ℤ)
    (hq : 2 ^ (pp.bullet.rangeLen + 1) ≤ cv.order) (h0 : 0 ≤ L) (hLR : L ≤ R) (hR : R ≤ 2 ^ pp.bullet.rangeLen)
    (H HD HK : Bytes → ℤ) (s sD sK : ℤ) (tr tD tK t u v : Bytes) (pf pD pK : Proof2 G) (a : Ans ℤ G)
    (hgood : Bullet.GoodAns cv pp.bullet.rangeLen 2 k a)
    (h1 : verify2 cv H pp x L R s tr pf = some (true, t)) (h2 : verify2 cv HD pp x L R sD tD pD = some (true, u))
    (h3 : verify2 cv HK pp x L R sK tK pK = some (true, v))
    (d1 : pD.refresh = pf.refresh) (d2 : pD.dlogeq.A1 = pf.dlogeq.A1) (d3 : pD.dlogeq.A2 = pf.dlogeq.A2)
    (k1 : pK.refresh = pf.refresh) (k2 : pK.ptke.A = pf.ptke.A) (k3 : pK.ptke.B = pf.ptke.B)
    (hD : ¬ (cv.order : ℤ) ∣ DLOGEquality.challenge cv H (refreshInstance pp x pf.refresh) tr pf.dlogeq.A1 pf.dlogeq.A2 -
      DLOGEquality.challenge cv HD (refreshInstance pp x pf.refresh) tD pf.dlogeq.A1 pf.dlogeq.A2)
    (hK : ¬ (cv.order : ℤ) ∣
      PlaintextKnowledge.challenge cv H ⟨x.pk, pf.refresh⟩ (DLOGEquality.verify cv H (refreshInstance pp x pf.refresh) tr pf.dlogeq).2 pf.ptke.A pf.ptke.B -
      PlaintextKnowledge.challenge cv HK ⟨x.pk, pf.refresh⟩ (DLOGEquality.verify cv HK (refreshInstance pp x pf.refresh) tK pK.dlogeq).2
        pf.ptke.A pf.ptke.B)
    (ha : Rewinds2 cv pp x L R tr pf k a) :
    let w := extract cv pf.dlogeq.z pD.dlogeq.z (DLOGEquality.challenge cv H (refreshInstance pp x pf.refresh) tr pf.dlogeq.A1 pf.dlogeq.A2)
      (DLOGEquality.challenge cv HD (refreshInstance pp x pf.refresh) tD pf.dlogeq.A1 pf.dlogeq.A2)
    let e := PlaintextKnowledge.challenge cv H ⟨x.pk, pf.refresh⟩ (DLOGEquality.verify cv H (refreshInstance pp x pf.refresh) tr pf.dlogeq).2
      pf.ptke.A pf.ptke.B
    let e' := PlaintextKnowledge.challenge cv HK ⟨x.pk, pf.refresh⟩ (DLOGEquality.verify cv HK (refreshInstance pp x pf.refresh) tK pK.dlogeq).2
      pf.ptke.A pf.ptke.B
    let m := extract cv pf.ptke.z2 pK.ptke.z2 e e'
    let r := extract cv pf.ptke.z1 pK.ptke.z1 e e'
    x.pk = w • pp.enc.g ∧ Twisted.Holds cv pp.enc w x.ct m ∧ ((L ≤ m % cv.order ∧ m % cv.order < R) ∨ Breaks cv pp L R r m k a) := by
  intro w e e' m r
  obtain ⟨p1, p2, -⟩ := accepted2_parts cv H pp x L R s tr t pf h1
  obtain ⟨q1, -, -⟩ := accepted2_parts cv HD pp x L R sD tD u pD h2
  obtain ⟨-, o2, -⟩ := accepted2_parts cv HK pp x L R sK tK v pK h3
  have q1' : (DLOGEquality.verify cv HD (refreshInstance pp x pf.refresh) tD ⟨pf.dlogeq.A1, pf.dlogeq.A2, pD.dlogeq.z⟩).1 = true := by
    rw [← d1, ← d2, ← d3]; exact q1
  have o2' : (PlaintextKnowledge.verify cv pp.enc HK ⟨x.pk, pf.refresh⟩ (DLOGEquality.verify cv HK (refreshInstance pp x pf.refresh) tK pK.dlogeq).2
      ⟨pf.ptke.A, pf.ptke.B, pK.ptke.z1, pK.ptke.z2⟩).1 = true := by
    rw [← k1, ← k2, ← k3]; exact o2
  obtain ⟨w1, w2⟩ := gadget_type2_refresh_sound cv H HD pp x pf.refresh tr tD pf.dlogeq.A1 pf.dlogeq.A2 pf.dlogeq.z pD.dlogeq.z p1 q1' hpk hD
  have hct := PlaintextKnowledge.plaintextKnowledge_special_sound cv pp.enc H HK ⟨x.pk, pf.refresh⟩ _ _ pf.ptke.A pf.ptke.B _ _ _ _ p2 o2' hK
  have hw : ¬ (cv.order : ℤ) ∣ w := by
    rintro ⟨c, hc⟩
    apply hpk
    have w1' : x.pk = w • pp.enc.g := w1
    rw [w1', hc, mul_comm, mul_smul, Nat.cast_smul_eq_nsmul, cv.smul_order, smul_zero]
  have hold : Twisted.Holds cv pp.enc w pf.refresh m := by
    have := Twisted.twisted_enc_holds cv pp.enc w m r hw
    have e1 : Twisted.keyGen pp.enc w = x.pk := w1.symm
    rw [e1] at this
    rwa [show pf.refresh = Twisted.enc pp.enc x.pk m r from hct]
  refine ⟨w1, ?_, ?_⟩
  · unfold Twisted.Holds at hold ⊢
    rw [← hold]; exact w2.symm
  · have hY : pf.refresh.Y = r • pp.enc.g + m • pp.enc.h := by
      have := congrArg CT.Y hct
      simpa only [Twisted.enc, msm_two] using this
    refine interval_of_answers cv pp k hfit a hgood L R hq h0 hLR hR pf.refresh.Y (rangeTr2 cv pp x tr pf) r m hY ?_
    refine Bullet.answers_of_fast cv pp.bullet _ _ k a hfit.small hfit.pow hfit.lenG hfit.lenH ?_
    intro s hs i hi c hc d hd p hp
    obtain ⟨H, s1, s2, t1, t2, hn, hch, v1, v2⟩ := ha s hs i hi c hc d hd p hp
    exact ⟨H, s1, s2, t1, t2, hn, hch, (accepted2_parts cv H pp x L R s1 tr t1 _ v1).2.2, (accepted2_parts cv H pp x L R s2 tr t2 _ v2).2.2⟩

end Gadget
end Kunlun
