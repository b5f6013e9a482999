import Verif.Props.GadgetSound
import Verif.Props.AdcpPolicy
import Verif.Props.FiatShamir
/-!
C45 (limit policy) and C88: what accepted audits and accepted transactions with one receiver convince of, with all openings extracted.
-/

namespace Kunlun

open IpExtract BulletExtract

variable {G : Type} [AddCommGroup G] [DecidableEq G]

namespace PlaintextEquality

theorem addPoints_take (cv : Curve G) (n : Nat) (v : List G) (tr : Bytes) : addPoints cv n (v.take n) tr = addPoints cv n v tr := by
  unfold addPoints
  by_cases h : v.length < n
  · rw [if_pos h, if_pos (by rw [List.length_take]; omega)]
  · rw [if_neg h, if_neg (by rw [List.length_take]; omega), List.take_take, Nat.min_self]

omit [AddCommGroup G] [DecidableEq G] in
theorem conditions_take [AddCommGroup G] [DecidableEq G] (e z : ℤ) : ∀ (pks As Xs : List G),
    conditions e z pks (As.take pks.length) (Xs.take pks.length) = conditions e z pks As Xs
  | [], _, _ => rfl
  | _ :: _, [], _ => by simp [conditions]
  | _ :: _, _ :: _, [] => by simp [conditions]
  | pk :: pks, A :: As, X :: Xs => by
    simp only [List.length_cons, List.take_succ_cons, conditions, conditions_take e z pks As Xs]

/-- `Verify` reads as many entries as there are keys. -/
theorem verify_take (cv : Curve G) (pp : Twisted.PP G) (H : Bytes → ℤ) (x : Instance G) (tr : Bytes) (pf : Proof G) :
    verify cv pp H ⟨x.vecPk, ⟨x.ct.vecX.take x.vecPk.length, x.ct.Y⟩⟩ tr { pf with vecA := pf.vecA.take x.vecPk.length } =
      verify cv pp H x tr pf := by
  unfold verify initTranscript
  simp only [addPoints_take, conditions_take]

theorem verify_lengths (cv : Curve G) (pp : Twisted.PP G) (H : Bytes → ℤ) (x : Instance G) (tr : Bytes) (pf : Proof G) (b : Bool) (t : Bytes)
    (h : verify cv pp H x tr pf = some (b, t)) : x.vecPk.length ≤ x.ct.vecX.length ∧ x.vecPk.length ≤ pf.vecA.length := by
  unfold verify initTranscript at h
  simp only [Option.bind_eq_bind, Option.bind_eq_some_iff, Option.pure_def] at h
  obtain ⟨_, ⟨_, -, _, h1, -⟩, _, h2, -⟩ := h
  unfold addPoints at h1 h2
  constructor
  · by_contra hc
    rw [if_pos (by omega)] at h1
    cases h1
  · by_contra hc
    rw [if_pos (by omega)] at h2
    cases h2

end PlaintextEquality

namespace ADCP

/-! ### Limit policy -/

/-- The claimer answers every choice of the challenges of the range proof, the rest of the proof being fixed; every audit is accepted for
two scalars of the auditor. -/
def LimitRewinds (cv : Curve G) (pp : PP G) (pk : G) (ctxs : List (ToOne G)) (ct : CT G) (L R : ℤ) (pf : Gadget.Proof2 G) (k : ℕ) (a : Ans ℤ G) : Prop :=
  Bullet.Branches pp.bullet.rangeLen 2 k fun s i c d p => ∃ (H : Bytes → ℤ) (s1 s2 : ℤ), ¬ (cv.order : ℤ) ∣ s1 - s2 ∧
    Bullet.Chal cv H (Gadget.rangeTr2 cv ⟨pp.enc, pp.bullet⟩ ⟨pk, ct⟩ [] pf) k a s i c d p ∧
    auditLimit cv H pp s1 pk ctxs L R { pf with bullet := Bullet.proofAt a s i c d p } = some true ∧
    auditLimit cv H pp s2 pk ctxs L R { pf with bullet := Bullet.proofAt a s i c d p } = some true

theorem auditLimit_parts (cv : Curve G) (H : Bytes → ℤ) (pp : PP G) (s : ℤ) (pk : G) (ctxs : List (ToOne G)) (L R : ℤ) (pf : Gadget.Proof2 G)
    (ct : CT G) (hct : sumLoop ⟨0, 0⟩ ctxs = some ct) (h : auditLimit cv H pp s pk ctxs L R pf = some true) :
    ∃ t, Gadget.verify2 cv H ⟨pp.enc, pp.bullet⟩ ⟨pk, ct⟩ L R s [] pf = some (true, t) := by
  unfold auditLimit at h
  cases hc : ctxs.any (fun ctx => decide (pk ≠ ctx.pks)) with
  | true => rw [hc] at h; simp at h
  | false =>
    rw [hc] at h
    simp only [Bool.false_eq_true, if_false, Option.bind_eq_bind, hct, Option.bind_some, Option.bind_eq_some_iff, Option.pure_def,
      Option.some.injEq] at h
    obtain ⟨⟨ok, t⟩, h1, rfl⟩ := h
    exact ⟨t, h1⟩

/-- C45, limit policy, soundness: `ctxs` transfer the amounts `vs` away from `pk`. Three accepted audits (the first two with one first
message of the refreshing proof, the first and third with one first message of the proof of plaintext knowledge, with different
challenges) and answers to the challenges of the range proof: the sum of the amounts modulo the order lies in `[LEFT, RIGHT)`, or what was
extracted gives a relation between the generators. -/
theorem adcp_limit_sound (cv : Curve G) (pp : PP G) (k : ℕ) (hfit : Gadget.Fit ⟨pp.enc, pp.bullet⟩ k) (pk : G) (ctxs : List (ToOne G))
    (vs : List ℤ) (ct : CT G) (hct : sumLoop ⟨0, 0⟩ ctxs = some ct) (L R : ℤ) (ht : TransfersAll pp pk ctxs vs) (hpk : pk ≠ 0)
    (hh : pp.enc.h ≠ 0) (hq : 2 ^ (pp.bullet.rangeLen + 1) ≤ cv.order) (h0 : 0 ≤ L) (hLR : L ≤ R) (hR : R ≤ 2 ^ pp.bullet.rangeLen)
    (H HD HK : Bytes → ℤ) (s sD sK : ℤ) (pf pD pK : Gadget.Proof2 G) (a : Ans ℤ G) (hgood : Bullet.GoodAns cv pp.bullet.rangeLen 2 k a)
    (h1 : auditLimit cv H pp s pk ctxs L R pf = some true) (h2 : auditLimit cv HD pp sD pk ctxs L R pD = some true)
    (h3 : auditLimit cv HK pp sK pk ctxs L R pK = some true)
    (d1 : pD.refresh = pf.refresh) (d2 : pD.dlogeq.A1 = pf.dlogeq.A1) (d3 : pD.dlogeq.A2 = pf.dlogeq.A2)
    (k1 : pK.refresh = pf.refresh) (k2 : pK.ptke.A = pf.ptke.A) (k3 : pK.ptke.B = pf.ptke.B)
    (hD : let x := Gadget.refreshInstance ⟨pp.enc, pp.bullet⟩ ⟨pk, ct⟩ pf.refresh
      ¬ (cv.order : ℤ) ∣ DLOGEquality.challenge cv H x [] pf.dlogeq.A1 pf.dlogeq.A2 - DLOGEquality.challenge cv HD x [] pf.dlogeq.A1 pf.dlogeq.A2)
    (hK : let x := Gadget.refreshInstance ⟨pp.enc, pp.bullet⟩ ⟨pk, ct⟩ pf.refresh
      ¬ (cv.order : ℤ) ∣ PlaintextKnowledge.challenge cv H ⟨pk, pf.refresh⟩ (DLOGEquality.verify cv H x [] pf.dlogeq).2 pf.ptke.A pf.ptke.B -
        PlaintextKnowledge.challenge cv HK ⟨pk, pf.refresh⟩ (DLOGEquality.verify cv HK x [] pK.dlogeq).2 pf.ptke.A pf.ptke.B)
    (ha : LimitRewinds cv pp pk ctxs ct L R pf k a) :
    (L ≤ vs.sum % cv.order ∧ vs.sum % cv.order < R) ∨
    let x := Gadget.refreshInstance ⟨pp.enc, pp.bullet⟩ ⟨pk, ct⟩ pf.refresh
    let e := PlaintextKnowledge.challenge cv H ⟨pk, pf.refresh⟩ (DLOGEquality.verify cv H x [] pf.dlogeq).2 pf.ptke.A pf.ptke.B
    let e' := PlaintextKnowledge.challenge cv HK ⟨pk, pf.refresh⟩ (DLOGEquality.verify cv HK x [] pK.dlogeq).2 pf.ptke.A pf.ptke.B
    Gadget.Breaks cv ⟨pp.enc, pp.bullet⟩ L R (extract cv pf.ptke.z1 pK.ptke.z1 e e') (extract cv pf.ptke.z2 pK.ptke.z2 e e') k a := by
  obtain ⟨t, g1⟩ := auditLimit_parts cv H pp s pk ctxs L R pf ct hct h1
  obtain ⟨u, g2⟩ := auditLimit_parts cv HD pp sD pk ctxs L R pD ct hct h2
  obtain ⟨v, g3⟩ := auditLimit_parts cv HK pp sK pk ctxs L R pK ct hct h3
  have hr : Gadget.Rewinds2 cv ⟨pp.enc, pp.bullet⟩ ⟨pk, ct⟩ L R [] pf k a := by
    intro s hs i hi c hc d hd p hp
    obtain ⟨H, s1, s2, hn, hch, v1, v2⟩ := ha s hs i hi c hc d hd p hp
    obtain ⟨t1, w1⟩ := auditLimit_parts cv H pp s1 pk ctxs L R _ ct hct v1
    obtain ⟨t2, w2⟩ := auditLimit_parts cv H pp s2 pk ctxs L R _ ct hct v2
    exact ⟨H, s1, s2, t1, t2, hn, hch, w1, w2⟩
  obtain ⟨e1, e2, e3⟩ := Gadget.gadget_type2_sound cv ⟨pp.enc, pp.bullet⟩ k hfit ⟨pk, ct⟩ hpk L R hq h0 hLR hR H HD HK s sD sK [] [] [] t u v
    pf pD pK a hgood g1 g2 g3 d1 d2 d3 k1 k2 k3 hD hK hr
  rcases e3 with e3 | e3
  · left
    simp only at e1 e2 e3
    generalize extract cv pf.dlogeq.z pD.dlogeq.z _ _ = w at e1 e2
    generalize extract cv pf.ptke.z2 pK.ptke.z2 _ _ = m at e2 e3
    obtain ⟨c2, hc2, hold⟩ := sumLoop_holds cv pp w (key_exponent cv _ _ w hpk e1) ctxs vs (e1 ▸ ht) ⟨0, 0⟩ 0 (zero_holds cv pp w)
    rw [hct] at hc2
    cases hc2
    rw [zero_add, Twisted.Holds] at hold
    rw [Twisted.Holds, hold, cv.smul_eq_iff _ _ _ hh] at e2
    rwa [Int.emod_eq_emod_iff_emod_sub_eq_zero.2 (Int.emod_eq_zero_of_dvd e2)]
  · exact Or.inr e3

/-! ### Transactions with one receiver -/

/-- What is hashed before the proof of plaintext knowledge. -/
def eqTr (cv : Curve G) (pp : PP G) (ctx : ToOne G) : Bytes :=
  (([ctx.pks, ctx.pkr, pp.pka].map cv.toBytes).flatten ++ ((ctx.transfer.vecX.take 3).map cv.toBytes).flatten ++ cv.toBytes ctx.transfer.Y) ++
    ((ctx.pteq.vecA.take 3).map cv.toBytes).flatten ++ cv.toBytes ctx.pteq.B

/-- What is hashed before the range proof. Both commitments of the range proof are in it. -/
def rangeTr (cv : Curve G) (pp : PP G) (ctx : ToOne G) : Bytes := Gadget.rangeTr1 cv ⟨ctx.pks, ctx.refresh⟩ (eqTr cv pp ctx) ctx.ptke

/-- The challenge of the plaintext-equality proof. -/
def eqChallenge (cv : Curve G) (H : Bytes → ℤ) (pp : PP G) (ctx : ToOne G) : ℤ := H (eqTr cv pp ctx)

/-- The challenge of the proof of plaintext knowledge. -/
def knChallenge (cv : Curve G) (H : Bytes → ℤ) (pp : PP G) (ctx : ToOne G) : ℤ := H (rangeTr cv pp ctx)

/-- The challenge of the refreshing proof: `tr` is the transcript after the range proof. -/
def lastChallenge (cv : Curve G) (H : Bytes → ℤ) (pp : PP G) (s : ℤ) (ctx : ToOne G) : Option ℤ := do
  let (_, tr) ← Bullet.fastVerify cv H pp.bullet [ctx.transfer.Y, ctx.refresh.Y] s (rangeTr cv pp ctx) ctx.bullet
  let X0 ← ctx.transfer.vecX[0]?
  return DLOGEquality.challenge cv H (refreshInstance pp (updated ctx.senderBalance X0 ctx.transfer.Y) ctx.refresh ctx.pks) (tr ++ toSign cv ctx)
    ctx.dlogeq.A1 ctx.dlogeq.A2

/-- What an accepted transaction contains. -/
theorem acceptedCTx_parts (cv : Curve G) (H : Bytes → ℤ) (pp : PP G) (s : ℤ) (ctx : ToOne G) (h : verifyCTx cv H pp s ctx = some true) :
    ∃ t X0, PlaintextEquality.verify cv pp.enc H ⟨[ctx.pks, ctx.pkr, pp.pka], ctx.transfer⟩ [] ctx.pteq = some (true, eqTr cv pp ctx) ∧
      (PlaintextKnowledge.verify cv pp.enc H ⟨ctx.pks, ctx.refresh⟩ (eqTr cv pp ctx) ctx.ptke).1 = true ∧
      Bullet.fastVerify cv H pp.bullet [ctx.transfer.Y, ctx.refresh.Y] s (rangeTr cv pp ctx) ctx.bullet = some (true, t) ∧
      ctx.transfer.vecX[0]? = some X0 ∧
      (DLOGEquality.verify cv H (refreshInstance pp (updated ctx.senderBalance X0 ctx.transfer.Y) ctx.refresh ctx.pks) (t ++ toSign cv ctx)
        ctx.dlogeq).1 = true := by
  unfold verifyCTx at h
  simp only [Option.bind_eq_bind, Option.bind_eq_some_iff, Option.pure_def, Option.some.injEq, Bool.and_eq_true] at h
  obtain ⟨⟨c1, t1⟩, h1, ⟨c3, t⟩, h3, X0, hX, ⟨⟨rfl, h2⟩, rfl⟩, h4⟩ := h
  have ht : t1 = eqTr cv pp ctx := by
    obtain ⟨l1, l2⟩ := PlaintextEquality.verify_lengths cv pp.enc H _ _ _ _ _ h1
    rw [← PlaintextEquality.verify_take] at h1
    simp only [List.length_cons, List.length_nil, Nat.zero_add, Nat.reduceAdd] at h1 l1 l2
    obtain ⟨b, t', e1, -, e2⟩ := PlaintextEquality.verify_spec cv pp.enc H
      ⟨[ctx.pks, ctx.pkr, pp.pka], ⟨ctx.transfer.vecX.take 3, ctx.transfer.Y⟩⟩ [] { ctx.pteq with vecA := ctx.pteq.vecA.take 3 }
      (by simp only [List.length_take, List.length_cons, List.length_nil]; omega) (by simp only [List.length_take, List.length_cons, List.length_nil]; omega)
    rw [h1, Option.some.injEq, Prod.mk.injEq] at e1
    rw [e1.2, e2]
    unfold eqTr
    simp only [List.nil_append, List.append_assoc]
  subst ht
  exact ⟨t, X0, h1, h2, h3, hX, h4⟩

/-- The prover answers every choice of the challenges of the range proof, the amounts, ciphertexts and earlier proofs being fixed; every
transaction is accepted for two scalars of the verifier. The last proof, made after the range proof, may change. -/
def Rewinds (cv : Curve G) (pp : PP G) (ctx : ToOne G) (k : ℕ) (a : Ans ℤ G) : Prop :=
  Bullet.Branches pp.bullet.rangeLen 2 k fun s i c d p => ∃ (H : Bytes → ℤ) (s1 s2 : ℤ) (last : DLOGEquality.Proof G), ¬ (cv.order : ℤ) ∣ s1 - s2 ∧
    Bullet.Chal cv H (rangeTr cv pp ctx) k a s i c d p ∧
    verifyCTx cv H pp s1 { ctx with bullet := Bullet.proofAt a s i c d p, dlogeq := last } = some true ∧
    verifyCTx cv H pp s2 { ctx with bullet := Bullet.proofAt a s i c d p, dlogeq := last } = some true

/-- Another run of the sender, with another challenge of the plaintext-equality proof. -/
structure ForkEq (cv : Curve G) (pp : PP G) (H H' : Bytes → ℤ) (ctx ctx' : ToOne G) : Prop where
  pks : ctx'.pks = ctx.pks
  pkr : ctx'.pkr = ctx.pkr
  transfer : ctx'.transfer = ctx.transfer
  A : ctx'.pteq.vecA = ctx.pteq.vecA
  B : ctx'.pteq.B = ctx.pteq.B
  ne : ¬ (cv.order : ℤ) ∣ eqChallenge cv H pp ctx - eqChallenge cv H' pp ctx'

/-- Another run of the sender, with another challenge of the proof of plaintext knowledge. -/
structure ForkKn (cv : Curve G) (pp : PP G) (H H' : Bytes → ℤ) (ctx ctx' : ToOne G) : Prop where
  pks : ctx'.pks = ctx.pks
  refresh : ctx'.refresh = ctx.refresh
  A : ctx'.ptke.A = ctx.ptke.A
  B : ctx'.ptke.B = ctx.ptke.B
  ne : ¬ (cv.order : ℤ) ∣ knChallenge cv H pp ctx - knChallenge cv H' pp ctx'

/-- Another run of the sender, with another challenge of the refreshing proof. -/
structure ForkLast (cv : Curve G) (pp : PP G) (H H' : Bytes → ℤ) (s s' : ℤ) (ctx ctx' : ToOne G) : Prop where
  pks : ctx'.pks = ctx.pks
  balance : ctx'.senderBalance = ctx.senderBalance
  transfer : ctx'.transfer = ctx.transfer
  refresh : ctx'.refresh = ctx.refresh
  A1 : ctx'.dlogeq.A1 = ctx.dlogeq.A1
  A2 : ctx'.dlogeq.A2 = ctx.dlogeq.A2
  ne : ∀ e e', lastChallenge cv H pp s ctx = some e → lastChallenge cv H' pp s' ctx' = some e' → ¬ (cv.order : ℤ) ∣ e - e'

/-- What the extractor computes: the amount with its randomness, the remaining balance with its randomness, the secret key. -/
def exAmount (cv : Curve G) (pp : PP G) (H H' : Bytes → ℤ) (ctx ctx' : ToOne G) : ℤ × ℤ :=
  (extract cv ctx.pteq.t ctx'.pteq.t (eqChallenge cv H pp ctx) (eqChallenge cv H' pp ctx'),
   extract cv ctx.pteq.z ctx'.pteq.z (eqChallenge cv H pp ctx) (eqChallenge cv H' pp ctx'))
def exRest (cv : Curve G) (pp : PP G) (H H' : Bytes → ℤ) (ctx ctx' : ToOne G) : ℤ × ℤ :=
  (extract cv ctx.ptke.z2 ctx'.ptke.z2 (knChallenge cv H pp ctx) (knChallenge cv H' pp ctx'),
   extract cv ctx.ptke.z1 ctx'.ptke.z1 (knChallenge cv H pp ctx) (knChallenge cv H' pp ctx'))
def exKey (cv : Curve G) (pp : PP G) (H H' : Bytes → ℤ) (s s' : ℤ) (ctx ctx' : ToOne G) : ℤ :=
  extract cv ctx.dlogeq.z ctx'.dlogeq.z ((lastChallenge cv H pp s ctx).getD 0) ((lastChallenge cv H' pp s' ctx').getD 0)

/-- What the proofs of a transaction show: its ciphertext encrypts the extracted amount under the three keys. -/
theorem adcp_amount_extracted (cv : Curve G) (pp : PP G) (H H' : Bytes → ℤ) (s s' : ℤ) (ctx ctx' : ToOne G)
    (h : verifyCTx cv H pp s ctx = some true) (h' : verifyCTx cv H' pp s' ctx' = some true) (hf : ForkEq cv pp H H' ctx ctx') :
    (⟨ctx.transfer.vecX.take 3, ctx.transfer.Y⟩ : Twisted.MRCT G) =
      Twisted.encMulti pp.enc [ctx.pks, ctx.pkr, pp.pka] (exAmount cv pp H H' ctx ctx').1 (exAmount cv pp H H' ctx ctx').2 := by
  obtain ⟨t, X0, h1, -⟩ := acceptedCTx_parts cv H pp s ctx h
  obtain ⟨t', X0', h1', -⟩ := acceptedCTx_parts cv H' pp s' ctx' h'
  obtain ⟨e1, e2, e3, e4, e5, ne⟩ := hf
  obtain ⟨l1, l2⟩ := PlaintextEquality.verify_lengths cv pp.enc H _ _ _ _ _ h1
  rw [← PlaintextEquality.verify_take] at h1 h1'
  simp only [e1, e2, e3, e4, e5, List.length_cons, List.length_nil, Nat.zero_add, Nat.reduceAdd] at h1 h1' l1 l2
  have htr : eqTr cv pp ctx' = eqTr cv pp ctx := by unfold eqTr; rw [e1, e2, e3, e4, e5]
  have hc : ∀ H : Bytes → ℤ, PlaintextEquality.challenge cv H ⟨[ctx.pks, ctx.pkr, pp.pka], ⟨ctx.transfer.vecX.take 3, ctx.transfer.Y⟩⟩ []
      (ctx.pteq.vecA.take 3) ctx.pteq.B = eqChallenge cv H pp ctx := by
    intro H
    unfold PlaintextEquality.challenge eqChallenge eqTr
    simp only [List.nil_append, List.append_assoc]
  have hc' : eqChallenge cv H' pp ctx' = eqChallenge cv H' pp ctx := by unfold eqChallenge; rw [htr]
  have := PlaintextEquality.plaintextEquality_special_sound cv pp.enc H H'
    ⟨[ctx.pks, ctx.pkr, pp.pka], ⟨ctx.transfer.vecX.take 3, ctx.transfer.Y⟩⟩ [] [] (ctx.pteq.vecA.take 3) ctx.pteq.B
    ctx.pteq.z ctx.pteq.t ctx'.pteq.z ctx'.pteq.t _ _
    (by simp only [List.length_take, List.length_cons, List.length_nil]; omega) (by simp only [List.length_take, List.length_cons, List.length_nil]; omega)
    h1 h1' (by rw [hc, hc, ← hc']; exact ne)
  rw [hc, hc] at this
  unfold exAmount
  rw [hc']
  exact this

/-- The refreshed ciphertext encrypts the extracted rest. -/
theorem adcp_rest_extracted (cv : Curve G) (pp : PP G) (H H' : Bytes → ℤ) (s s' : ℤ) (ctx ctx' : ToOne G)
    (h : verifyCTx cv H pp s ctx = some true) (h' : verifyCTx cv H' pp s' ctx' = some true) (hf : ForkKn cv pp H H' ctx ctx') :
    ctx.refresh = Twisted.enc pp.enc ctx.pks (exRest cv pp H H' ctx ctx').1 (exRest cv pp H H' ctx ctx').2 := by
  obtain ⟨t, X0, -, h1, -⟩ := acceptedCTx_parts cv H pp s ctx h
  obtain ⟨t', X0', -, h1', -⟩ := acceptedCTx_parts cv H' pp s' ctx' h'
  obtain ⟨e1, e2, e3, e4, ne⟩ := hf
  have hc : knChallenge cv H pp ctx = PlaintextKnowledge.challenge cv H ⟨ctx.pks, ctx.refresh⟩ (eqTr cv pp ctx) ctx.ptke.A ctx.ptke.B := rfl
  have hc' : knChallenge cv H' pp ctx' = PlaintextKnowledge.challenge cv H' ⟨ctx.pks, ctx.refresh⟩ (eqTr cv pp ctx') ctx.ptke.A ctx.ptke.B := by
    rw [← e1, ← e2, ← e3, ← e4]; rfl
  have p2 : (PlaintextKnowledge.verify cv pp.enc H' ⟨ctx.pks, ctx.refresh⟩ (eqTr cv pp ctx')
      ⟨ctx.ptke.A, ctx.ptke.B, ctx'.ptke.z1, ctx'.ptke.z2⟩).1 = true := by
    rw [← e1, ← e2, ← e3, ← e4]; exact h1'
  unfold exRest
  rw [hc, hc'] at ne ⊢
  exact PlaintextKnowledge.plaintextKnowledge_special_sound cv pp.enc H H' ⟨ctx.pks, ctx.refresh⟩ _ _ ctx.ptke.A ctx.ptke.B _ _ _ _ h1 p2 ne

/-- The extracted key is the sender's, and under it the balance minus the transfer has the plaintext of the refreshed ciphertext. -/
theorem adcp_key_extracted (cv : Curve G) (pp : PP G) (H H' : Bytes → ℤ) (s s' : ℤ) (ctx ctx' : ToOne G) (hpk : ctx.pks ≠ 0)
    (h : verifyCTx cv H pp s ctx = some true) (h' : verifyCTx cv H' pp s' ctx' = some true) (hf : ForkLast cv pp H H' s s' ctx ctx') (X0 : G)
    (hX0 : ctx.transfer.vecX[0]? = some X0) :
    ctx.pks = exKey cv pp H H' s s' ctx ctx' • pp.enc.g ∧
    Twisted.decPoint cv (exKey cv pp H H' s s' ctx ctx') (updated ctx.senderBalance X0 ctx.transfer.Y) =
      Twisted.decPoint cv (exKey cv pp H H' s s' ctx ctx') ctx.refresh := by
  obtain ⟨t, X, -, -, h3, hX, h1⟩ := acceptedCTx_parts cv H pp s ctx h
  obtain ⟨t', X', -, -, h3', hX', h1'⟩ := acceptedCTx_parts cv H' pp s' ctx' h'
  obtain ⟨e1, e2, e3, e4, e5, e6, ne⟩ := hf
  rw [e3] at hX'
  rw [hX, Option.some.injEq] at hX' hX0
  subst hX0
  subst hX'
  have hc : lastChallenge cv H pp s ctx = some (DLOGEquality.challenge cv H
      (refreshInstance pp (updated ctx.senderBalance X ctx.transfer.Y) ctx.refresh ctx.pks) (t ++ toSign cv ctx) ctx.dlogeq.A1 ctx.dlogeq.A2) := by
    unfold lastChallenge
    simp only [h3, hX, Option.bind_eq_bind, Option.bind_some, Option.pure_def]
  have hc' : lastChallenge cv H' pp s' ctx' = some (DLOGEquality.challenge cv H'
      (refreshInstance pp (updated ctx.senderBalance X ctx.transfer.Y) ctx.refresh ctx.pks) (t' ++ toSign cv ctx') ctx.dlogeq.A1 ctx.dlogeq.A2) := by
    unfold lastChallenge
    rw [h3']
    simp only [e1, e2, e3, e4, e5, e6, hX, Option.bind_eq_bind, Option.bind_some, Option.pure_def]
  have p2 : (DLOGEquality.verify cv H' (refreshInstance pp (updated ctx.senderBalance X ctx.transfer.Y) ctx.refresh ctx.pks) (t' ++ toSign cv ctx')
      ⟨ctx.dlogeq.A1, ctx.dlogeq.A2, ctx'.dlogeq.z⟩).1 = true := by
    rw [← e1, ← e2, ← e3, ← e4, ← e5, ← e6]; exact h1'
  have hne := ne _ _ hc hc'
  obtain ⟨a1, a2⟩ := DLOGEquality.dlogEquality_special_sound cv H H' _ _ _ ctx.dlogeq.A1 ctx.dlogeq.A2 _ _ h1 p2 hne
  have hk : exKey cv pp H H' s s' ctx ctx' = extract cv ctx.dlogeq.z ctx'.dlogeq.z
      (DLOGEquality.challenge cv H (refreshInstance pp (updated ctx.senderBalance X ctx.transfer.Y) ctx.refresh ctx.pks) (t ++ toSign cv ctx)
        ctx.dlogeq.A1 ctx.dlogeq.A2)
      (DLOGEquality.challenge cv H' (refreshInstance pp (updated ctx.senderBalance X ctx.transfer.Y) ctx.refresh ctx.pks) (t' ++ toSign cv ctx')
        ctx.dlogeq.A1 ctx.dlogeq.A2) := by
    unfold exKey
    rw [hc, hc']
    rfl
  rw [← hk] at a1 a2
  exact ⟨a2, Gadget.same_plaintext cv _ (key_exponent cv _ _ _ hpk a2) _ _ a1⟩

/-- C88: a transaction with one receiver that is accepted does not overdraw the balance it names. Given: accepted runs of the sender with
another challenge for each of the three Schnorr-type proofs, and answers to the challenges of the range proof. Then the transfer encrypts
the extracted amount `v` under all three keys, the extracted `sk` is the sender's key and under it the balance minus the transfer has
plaintext `m`. If the named balance has plaintext `b` with `0 <= b < 2^RANGE_LEN`, then `v` modulo the order is between 0 and `b` and `m`
modulo the order is `b - v`; or what was extracted gives a relation between the generators. -/
theorem adcp_no_overdraft (cv : Curve G) (pp : PP G) (k : ℕ) (hfit : Gadget.Fit ⟨pp.enc, pp.bullet⟩ k) (hh : pp.enc.h ≠ 0)
    (hq : 2 ^ (pp.bullet.rangeLen + 1) ≤ cv.order) (H HE HK HD : Bytes → ℤ) (s sE sK sD : ℤ) (ctx cE cK cD : ToOne G) (a : Ans ℤ G)
    (hgood : Bullet.GoodAns cv pp.bullet.rangeLen 2 k a) (hpk : ctx.pks ≠ 0)
    (h : verifyCTx cv H pp s ctx = some true) (hE : verifyCTx cv HE pp sE cE = some true) (hK : verifyCTx cv HK pp sK cK = some true)
    (hD : verifyCTx cv HD pp sD cD = some true)
    (fE : ForkEq cv pp H HE ctx cE) (fK : ForkKn cv pp H HK ctx cK) (fD : ForkLast cv pp H HD s sD ctx cD) (ha : Rewinds cv pp ctx k a) :
    let v := (exAmount cv pp H HE ctx cE).1
    let r := (exAmount cv pp H HE ctx cE).2
    let m := (exRest cv pp H HK ctx cK).1
    let ρ := (exRest cv pp H HK ctx cK).2
    let sk := exKey cv pp H HD s sD ctx cD
    ((⟨ctx.transfer.vecX.take 3, ctx.transfer.Y⟩ : Twisted.MRCT G) = Twisted.encMulti pp.enc [ctx.pks, ctx.pkr, pp.pka] v r ∧
      ctx.pks = sk • pp.enc.g ∧
      Twisted.Holds cv pp.enc sk (updated ctx.senderBalance ((ctx.transfer.vecX[0]?).getD 0) ctx.transfer.Y) m) ∧
    ((0 ≤ v % cv.order ∧ v % cv.order < 2 ^ pp.bullet.rangeLen ∧ 0 ≤ m % cv.order ∧ m % cv.order < 2 ^ pp.bullet.rangeLen ∧
        ∀ b : ℤ, 0 ≤ b → b < 2 ^ pp.bullet.rangeLen → Twisted.Holds cv pp.enc sk ctx.senderBalance b →
          v % cv.order ≤ b ∧ m % cv.order = b - v % cv.order) ∨
      ((r - Bullet.randOf cv pp.bullet 2 a 0) • pp.enc.g + (v - Bullet.valueOf cv pp.bullet k a 0) • pp.enc.h = 0 ∧
        ¬ (cv.order : ℤ) ∣ v - Bullet.valueOf cv pp.bullet k a 0) ∨
      ((ρ - Bullet.randOf cv pp.bullet 2 a 1) • pp.enc.g + (m - Bullet.valueOf cv pp.bullet k a 1) • pp.enc.h = 0 ∧
        ¬ (cv.order : ℤ) ∣ m - Bullet.valueOf cv pp.bullet k a 1) ∨
      Bullet.Relation cv pp.bullet 2 k a) := by
  intro v r m ρ sk
  have hA := adcp_amount_extracted cv pp H HE s sE ctx cE h hE fE
  have hR := adcp_rest_extracted cv pp H HK s sK ctx cK h hK fK
  obtain ⟨t, X0, -, -, -, hX0, -⟩ := acceptedCTx_parts cv H pp s ctx h
  obtain ⟨k1, k2⟩ := adcp_key_extracted cv pp H HD s sD ctx cD hpk h hD fD X0 hX0
  have hsk : ¬ (cv.order : ℤ) ∣ sk := key_exponent cv _ _ _ hpk k1
  change ctx.refresh = Twisted.enc pp.enc ctx.pks m ρ at hR
  change ctx.pks = sk • pp.enc.g at k1
  change Twisted.decPoint cv sk _ = Twisted.decPoint cv sk _ at k2
  change _ = Twisted.encMulti pp.enc [ctx.pks, ctx.pkr, pp.pka] v r at hA
  have hmR : Twisted.Holds cv pp.enc sk (updated ctx.senderBalance X0 ctx.transfer.Y) m := by
    unfold Twisted.Holds
    rw [k2, hR]
    have := Twisted.twisted_enc_holds cv pp.enc sk m ρ hsk
    have e : Twisted.keyGen pp.enc sk = ctx.pks := k1.symm
    rw [e] at this
    exact this
  refine ⟨⟨hA, k1, by rw [hX0]; exact hmR⟩, ?_⟩
  have hYv : ctx.transfer.Y = r • pp.enc.g + v • pp.enc.h := by
    have := congrArg Twisted.MRCT.Y hA
    simpa only [Twisted.encMulti, msm_two] using this
  have hYm : ctx.refresh.Y = ρ • pp.enc.g + m • pp.enc.h := by
    have := congrArg CT.Y hR
    simpa only [Twisted.enc, msm_two] using this
  have hXr : X0 = r • sk • pp.enc.g := by
    have := congrArg (fun c : Twisted.MRCT G => c.vecX[0]?) hA
    simp only [Twisted.encMulti, List.getElem?_take, Nat.zero_lt_succ, if_true, hX0, List.map_cons, List.getElem?_cons_zero, Option.some.injEq] at this
    rw [this, k1]
  have hans : Bullet.Answers cv pp.bullet [ctx.transfer.Y, ctx.refresh.Y] (rangeTr cv pp ctx) k a := by
    refine Bullet.answers_of_fast cv pp.bullet _ _ k a hfit.small hfit.pow hfit.lenG hfit.lenH ?_
    intro s hs i hi c hc d hd p hp
    obtain ⟨H, s1, s2, last, hn, hch, v1, v2⟩ := ha s hs i hi c hc d hd p hp
    obtain ⟨t1, _, -, -, w1, -⟩ := acceptedCTx_parts cv H pp s1 _ v1
    obtain ⟨t2, _, -, -, w2, -⟩ := acceptedCTx_parts cv H pp s2 _ v2
    exact ⟨H, s1, s2, t1, t2, hn, hch, w1, w2⟩
  rcases Bullet.openings cv pp.bullet [ctx.transfer.Y, ctx.refresh.Y] _ k a hfit.small hfit.pow hfit.lenG hfit.lenH hans hgood with ho | ho
  swap
  · exact Or.inr (Or.inr (Or.inr ho))
  obtain ⟨a1, a2, a3⟩ := ho 0 (by simp)
  obtain ⟨b1, b2, b3⟩ := ho 1 (by simp)
  have bg : pp.bullet.g = pp.enc.g := hfit.base_g
  have bh : pp.bullet.h = pp.enc.h := hfit.base_h
  simp only [List.getElem_cons_zero, List.getElem_cons_succ, List.length_cons, List.length_nil, Nat.zero_add, Nat.reduceAdd, bg, bh] at a3 b3
  rcases two_openings cv pp.enc.g pp.enc.h _ r v _ _ hYv a3 with ev | ev
  swap
  · exact Or.inr (Or.inl ev)
  rcases two_openings cv pp.enc.g pp.enc.h _ ρ m _ _ hYm b3 with em | em
  swap
  · exact Or.inr (Or.inr (Or.inl em))
  left
  have hq' : (2 : ℤ) ^ (pp.bullet.rangeLen + 1) ≤ cv.order := by exact_mod_cast hq
  rw [pow_succ] at hq'
  have f1 : v % cv.order = Bullet.valueOf cv pp.bullet k a 0 := by rw [ev]; exact Int.emod_eq_of_lt a1 (by linarith)
  have f2 : m % cv.order = Bullet.valueOf cv pp.bullet k a 1 := by rw [em]; exact Int.emod_eq_of_lt b1 (by linarith)
  rw [f1, f2]
  refine ⟨a1, a2, b1, b2, ?_⟩
  intro b hb0 hb1 hb
  have hu := updated_holds cv pp.enc sk b v r hsk ctx.senderBalance hb
  rw [← hXr, ← hYv] at hu
  unfold Twisted.Holds at hu hmR
  rw [hmR, cv.smul_eq_iff _ _ _ hh] at hu
  have hd : (cv.order : ℤ) ∣ Bullet.valueOf cv pp.bullet k a 1 + Bullet.valueOf cv pp.bullet k a 0 - b := by
    have q1 : (cv.order : ℤ) ∣ v - Bullet.valueOf cv pp.bullet k a 0 := by rw [← f1]; exact Int.dvd_self_sub_emod
    have q2 : (cv.order : ℤ) ∣ m - Bullet.valueOf cv pp.bullet k a 1 := by rw [← f2]; exact Int.dvd_self_sub_emod
    have := dvd_sub hu (dvd_add q1 q2)
    have e : m - (b - v) - (v - Bullet.valueOf cv pp.bullet k a 0 + (m - Bullet.valueOf cv pp.bullet k a 1)) =
      Bullet.valueOf cv pp.bullet k a 1 + Bullet.valueOf cv pp.bullet k a 0 - b := by ring
    rwa [e] at this
  have hz := Int.eq_zero_of_abs_lt_dvd hd (by rw [abs_lt]; constructor <;> linarith)
  constructor <;> linarith

/-- C88, the commitments are fixed first: in a transaction the first challenge of the range proof is the hash of a string that determines
the keys, the transfer ciphertext, the refreshed ciphertext (so both commitments of the range proof) and the first message. The forgery of
C39, in which the commitment is made to fit a finished proof, needs another hash function value at each attempt. -/
theorem adcp_range_challenge_binds (cv : Curve G) {L : Nat} (hE : cv.Encodes L) (H H' : Bytes → ℤ) (pp : PP G) (s s' : ℤ) (ctx ctx' : ToOne G)
    (h1 : verifyCTx cv H pp s ctx = some true) (h2 : verifyCTx cv H' pp s' ctx' = some true)
    (h : Bullet.tr1 cv ctx.bullet (rangeTr cv pp ctx) = Bullet.tr1 cv ctx'.bullet (rangeTr cv pp ctx')) :
    ctx.pks = ctx'.pks ∧ ctx.pkr = ctx'.pkr ∧ ctx.transfer.vecX.take 3 = ctx'.transfer.vecX.take 3 ∧ ctx.transfer.Y = ctx'.transfer.Y ∧
      ctx.refresh = ctx'.refresh ∧ ctx.bullet.A = ctx'.bullet.A := by
  obtain ⟨-, -, q1, -⟩ := acceptedCTx_parts cv H pp s ctx h1
  obtain ⟨-, -, q2, -⟩ := acceptedCTx_parts cv H' pp s' ctx' h2
  obtain ⟨l1, l2⟩ := PlaintextEquality.verify_lengths cv pp.enc H _ _ _ _ _ q1
  obtain ⟨l3, l4⟩ := PlaintextEquality.verify_lengths cv pp.enc H' _ _ _ _ _ q2
  simp only [List.length_cons, List.length_nil, Nat.zero_add, Nat.reduceAdd] at l1 l2 l3 l4
  simp only [Bullet.tr1, rangeTr, Gadget.rangeTr1, eqTr, List.map_cons, List.map_nil, List.flatten_cons, List.flatten_nil, List.append_nil,
    List.append_assoc] at h
  obtain ⟨e1, h⟩ := hE.append h
  obtain ⟨e2, h⟩ := hE.append h
  obtain ⟨-, h⟩ := hE.append h
  obtain ⟨e3, h⟩ := hE.flatten _ _ _ _ (by rw [List.length_take, List.length_take]; omega) h
  obtain ⟨e4, h⟩ := hE.append h
  obtain ⟨-, h⟩ := hE.flatten _ _ _ _ (by rw [List.length_take, List.length_take]; omega) h
  obtain ⟨-, h⟩ := hE.append h
  obtain ⟨-, h⟩ := hE.append h
  obtain ⟨e5, h⟩ := hE.append h
  obtain ⟨e6, h⟩ := hE.append h
  obtain ⟨-, h⟩ := hE.append h
  obtain ⟨-, h⟩ := hE.append h
  have e7 := hE.inj h
  refine ⟨e1, e2, e3, e4, ?_, e7⟩
  rcases hb : ctx.refresh with ⟨x, y⟩
  rcases hb' : ctx'.refresh with ⟨x', y'⟩
  rw [hb, hb'] at e5 e6
  simp only at e5 e6
  rw [e5, e6]

/-! ### An honest sender meets the hypotheses -/

/-- One-bit amounts over the group with eleven elements. -/
def sPP : PP (ZMod 11) := ⟨4, 1, 2, ⟨1, 2, 1, 5, 2, [3, 4], [6, 9]⟩, ⟨1, 5⟩, 2⟩

/-- A sender with secret key 3 and balance 1. -/
def sAcct : Account (ZMod 11) := ⟨[], 3, 3, Twisted.enc ⟨1, 5⟩ 3 1 7, 1, 1⟩

/-- Chosen challenges: plaintext equality, plaintext knowledge, `y`, `z`, `x`, `e`, the inner-product round, the refreshing proof. The queries
have these lengths. -/
def sHash (eq kn y z x e w last : ℤ) (b : Bytes) : ℤ :=
  if b.length = 11 then eq else if b.length = 16 then kn else if b.length = 17 then y else if b.length = 18 then z else
  if b.length = 20 then x else if b.length = 21 then e else if b.length = 23 then w else last

/-- A payment of 1. -/
def sTx (H : Bytes → ℤ) : ToOne (ZMod 11) :=
  (createCTx Bullet.sCurve H sPP sAcct 1 4 ⟨6, 2, 9, 8, 4, 3, ⟨3, [5, 1], [2, 6], 4, 2, 5⟩, 7⟩).getD
    ⟨0, ⟨0, 0⟩, 0, 0, ⟨[], 0⟩, ⟨[], 0, 0, 0⟩, ⟨0, 0, 0, 0, 0, 0, 0, ⟨[], [], 0, 0⟩⟩, ⟨0, 0⟩, ⟨0, 0, 0, 0⟩, ⟨0, 0, 0⟩⟩

def sRun (s i c d j : ℕ) : Bytes → ℤ := sHash 1 1 (s + 1) (i + 1) (c + 1) (d + 1) (j + 1) 1

/-- All answers of the honest sender. -/
def sAns : Ans ℤ (ZMod 11) where
  A := (sTx (sRun 0 0 0 0 0)).bullet.A
  y s := s + 1
  S s := (sTx (sRun s 0 0 0 0)).bullet.S
  z _ i := i + 1
  T1 s i := (sTx (sRun s i 0 0 0)).bullet.T1
  T2 s i := (sTx (sRun s i 0 0 0)).bullet.T2
  x _ _ c := c + 1
  e _ _ _ d := d + 1
  taux s i c d := (sTx (sRun s i c d 0)).bullet.taux
  mu s i c d := (sTx (sRun s i c d 0)).bullet.mu
  tx s i c d := (sTx (sRun s i c d 0)).bullet.tx
  ip s i c d := ⟨fun _ => ((sTx (sRun s i c d 0)).bullet.ip.vecL[0]?).getD 0, fun _ => ((sTx (sRun s i c d 0)).bullet.ip.vecR[0]?).getD 0,
    fun _ j => (j : ℕ) + 1, fun p => (sTx (sRun s i c d ((p[0]?).getD 0 : Fin 4))).bullet.ip.a,
    fun p => (sTx (sRun s i c d ((p[0]?).getD 0 : Fin 4))).bullet.ip.b⟩

def sCheck (s i c d : ℕ) (j : Fin 4) : Bool :=
  let H := sRun s i c d j
  let ctx := sTx (sRun 0 0 0 0 0)
  let tr := rangeTr Bullet.sCurve sPP ctx
  let pf := Bullet.proofAt sAns s i c d [j]
  let ch := InnerProduct.challenges Bullet.sCurve H 1 pf.ip.vecL pf.ip.vecR (Bullet.tr4 Bullet.sCurve H pf tr)
  let tr' := (ch.map Prod.snd).getD []
  let ctx' : ToOne (ZMod 11) := { ctx with bullet := pf, dlogeq := (sTx H).dlogeq }
  decide (H (Bullet.tr1 Bullet.sCurve pf tr) = sAns.y s ∧ H (Bullet.tr2 Bullet.sCurve pf tr) = sAns.z s i ∧
    H (Bullet.tr3 Bullet.sCurve pf tr) = sAns.x s i c ∧ H (Bullet.tr4 Bullet.sCurve H pf tr) = sAns.e s i c d ∧
    ch = some ((sAns.ip s i c d).pathX [j], tr')) &&
  decide (verifyCTx Bullet.sCurve H sPP 1 ctx' = some true) && decide (verifyCTx Bullet.sCurve H sPP 2 ctx' = some true)

theorem sCheck_all : ∀ s < 2, ∀ i < 4, ∀ c < 3, ∀ d < 2, ∀ j : Fin 4, sCheck s i c d j = true := by
  decide +kernel

/-- The four runs of the sender. -/
def sH0 : Bytes → ℤ := sHash 1 1 1 1 1 1 1 1
def sHE : Bytes → ℤ := sHash 2 1 1 1 1 1 1 1
def sHK : Bytes → ℤ := sHash 1 2 1 1 1 1 1 1
def sHD : Bytes → ℤ := sHash 1 1 1 1 1 1 1 2

theorem s_accepted : verifyCTx Bullet.sCurve sH0 sPP 1 (sTx sH0) = some true ∧ verifyCTx Bullet.sCurve sHE sPP 1 (sTx sHE) = some true ∧
    verifyCTx Bullet.sCurve sHK sPP 1 (sTx sHK) = some true ∧ verifyCTx Bullet.sCurve sHD sPP 1 (sTx sHD) = some true := by
  refine ⟨?_, ?_, ?_, ?_⟩ <;> decide +kernel

theorem s_forkEq : ForkEq Bullet.sCurve sPP sH0 sHE (sTx sH0) (sTx sHE) := by
  refine ⟨?_, ?_, ?_, ?_, ?_, ?_⟩
  case refine_3 =>
    have h : (sTx sHE).transfer.vecX = (sTx sH0).transfer.vecX ∧ (sTx sHE).transfer.Y = (sTx sH0).transfer.Y := by decide +kernel
    rcases hx : (sTx sHE).transfer with ⟨a, b⟩
    rcases hy : (sTx sH0).transfer with ⟨c, d⟩
    rw [hx, hy] at h
    simp only at h
    rw [h.1, h.2]
  all_goals decide +kernel

theorem s_forkKn : ForkKn Bullet.sCurve sPP sH0 sHK (sTx sH0) (sTx sHK) := by
  refine ⟨?_, ?_, ?_, ?_, ?_⟩
  case refine_2 =>
    have h : (sTx sHK).refresh.X = (sTx sH0).refresh.X ∧ (sTx sHK).refresh.Y = (sTx sH0).refresh.Y := by decide +kernel
    rcases hx : (sTx sHK).refresh with ⟨a, b⟩
    rcases hy : (sTx sH0).refresh with ⟨c, d⟩
    rw [hx, hy] at h
    simp only at h
    rw [h.1, h.2]
  all_goals decide +kernel

theorem s_forkLast : ForkLast Bullet.sCurve sPP sH0 sHD 1 1 (sTx sH0) (sTx sHD) := by
  refine ⟨?_, ?_, ?_, ?_, ?_, ?_, ?_⟩
  case refine_2 =>
    have h : (sTx sHD).senderBalance.X = (sTx sH0).senderBalance.X ∧ (sTx sHD).senderBalance.Y = (sTx sH0).senderBalance.Y := by decide +kernel
    rcases hx : (sTx sHD).senderBalance with ⟨a, b⟩
    rcases hy : (sTx sH0).senderBalance with ⟨c, d⟩
    rw [hx, hy] at h
    simp only at h
    rw [h.1, h.2]
  case refine_3 =>
    have h : (sTx sHD).transfer.vecX = (sTx sH0).transfer.vecX ∧ (sTx sHD).transfer.Y = (sTx sH0).transfer.Y := by decide +kernel
    rcases hx : (sTx sHD).transfer with ⟨a, b⟩
    rcases hy : (sTx sH0).transfer with ⟨c, d⟩
    rw [hx, hy] at h
    simp only at h
    rw [h.1, h.2]
  case refine_4 =>
    have h : (sTx sHD).refresh.X = (sTx sH0).refresh.X ∧ (sTx sHD).refresh.Y = (sTx sH0).refresh.Y := by decide +kernel
    rcases hx : (sTx sHD).refresh with ⟨a, b⟩
    rcases hy : (sTx sH0).refresh with ⟨c, d⟩
    rw [hx, hy] at h
    simp only at h
    rw [h.1, h.2]
  case refine_7 =>
    have h1 : lastChallenge Bullet.sCurve sH0 sPP 1 (sTx sH0) = some 1 := by decide +kernel
    have h2 : lastChallenge Bullet.sCurve sHD sPP 1 (sTx sHD) = some 2 := by decide +kernel
    intro e e' he he'
    rw [h1, Option.some.injEq] at he
    rw [h2, Option.some.injEq] at he'
    subst he
    subst he'
    decide
  all_goals decide +kernel

theorem s_rewinds : Rewinds Bullet.sCurve sPP (sTx sH0) 1 sAns := by
  intro s hs i hi c hc d hd p hp
  obtain ⟨j, rfl⟩ := List.length_eq_one_iff.1 hp
  have h := sCheck_all s hs i hi c hc d hd j
  unfold sCheck at h
  simp only [Bool.and_eq_true] at h
  obtain ⟨⟨h1, h2⟩, h3⟩ := h
  obtain ⟨a1, a2, a3, a4, a5⟩ := of_decide_eq_true h1
  exact ⟨sRun s i c d j, 1, 2, _, by decide, ⟨a1, a2, a3, a4, _, a5⟩, of_decide_eq_true h2, of_decide_eq_true h3⟩

theorem s_good : Bullet.GoodAns Bullet.sCurve 1 2 1 sAns := by
  haveI := Bullet.sCurve.fact
  refine ⟨?_, ?_, ?_, ?_, ?_, ?_, ?_, ?_⟩
  · show ∀ s < 2, ((((s : ℕ) : ℤ) + 1 : ℤ) : ZMod 11) ≠ 0
    decide
  · show ∀ s < 2, ∀ t < 2, ((((s : ℕ) : ℤ) + 1 : ℤ) : ZMod 11) = ((((t : ℕ) : ℤ) + 1 : ℤ) : ZMod 11) → s = t
    decide
  · show ∀ s < 4, ((((s : ℕ) : ℤ) + 1 : ℤ) : ZMod 11) ≠ 0
    decide
  · intro _ _
    show ∀ s < 4, ∀ t < 4, ((((s : ℕ) : ℤ) + 1 : ℤ) : ZMod 11) = ((((t : ℕ) : ℤ) + 1 : ℤ) : ZMod 11) → s = t
    decide
  · intro _ _ _ _
    show ∀ s < 3, ∀ t < 3, ((((s : ℕ) : ℤ) + 1 : ℤ) : ZMod 11) = ((((t : ℕ) : ℤ) + 1 : ℤ) : ZMod 11) → s = t
    decide
  · intro _ _ _ _ _ _
    show ∀ s < 2, ((((s : ℕ) : ℤ) + 1 : ℤ) : ZMod 11) ≠ 0
    decide
  · intro _ _ _ _ _ _
    show ((((0 : ℕ) : ℤ) + 1 : ℤ) : ZMod 11) ≠ ((((1 : ℕ) : ℤ) + 1 : ℤ) : ZMod 11)
    decide
  · intro _ _ _ _ _ _ _ _
    refine ⟨fun _ _ => ?_, fun _ _ => ?_⟩
    · show ∀ i : Fin 4, ((((i : ℕ) : ℤ) + 1 : ℤ) : ZMod 11) ≠ 0
      decide
    · show ∀ i j : Fin 4, i ≠ j → ((((i : ℕ) : ℤ) + 1 : ℤ) : ZMod 11) ^ 2 ≠ ((((j : ℕ) : ℤ) + 1 : ℤ) : ZMod 11) ^ 2
      decide

/-- All hypotheses of `adcp_no_overdraft` hold for the honest sender, and the named balance has a plaintext in range. -/
example : Gadget.Fit ⟨sPP.enc, sPP.bullet⟩ 1 ∧ sPP.enc.h ≠ 0 ∧ 2 ^ (sPP.bullet.rangeLen + 1) ≤ Bullet.sCurve.order ∧ (sTx sH0).pks ≠ 0 ∧
    Twisted.Holds Bullet.sCurve sPP.enc 3 (sTx sH0).senderBalance 1 := by
  refine ⟨⟨rfl, rfl, rfl, by decide, by decide, by decide⟩, by decide, by decide, ?_, ?_⟩
  · decide +kernel
  · unfold Twisted.Holds
    decide +kernel

/-! ### An honest claimer meets the hypotheses of the limit policy -/

/-- Chosen challenges of an audit, by the lengths of the queries. -/
def lHash (dl kn y z x e w : ℤ) (b : Bytes) : ℤ :=
  if b.length = 6 then dl else if b.length = 11 then kn else if b.length = 12 then y else if b.length = 13 then z else
  if b.length = 15 then x else if b.length = 16 then e else w

/-- One payment of 1 by the claimer. -/
def lTx : ToOne (ZMod 11) := sTx sH0

def lSum : CT (ZMod 11) := (sumLoop ⟨0, 0⟩ [lTx]).getD ⟨0, 0⟩

/-- The claimer's proof that the sum lies in `[1, 2)`: `Gadget.prove2` with the plaintext 1 known. -/
def lPf (H : Bytes → ℤ) : Gadget.Proof2 (ZMod 11) :=
  let gp : Gadget.PP (ZMod 11) := ⟨sPP.enc, sPP.bullet⟩
  let refresh := Twisted.reEnc Bullet.sCurve sPP.enc 3 3 lSum 8
  let (dlogeq, tr) := DLOGEquality.prove Bullet.sCurve H (Gadget.refreshInstance gp ⟨3, lSum⟩ refresh) 3 7 []
  let (ptke, tr) := PlaintextKnowledge.prove Bullet.sCurve sPP.enc H ⟨3, refresh⟩ 1 8 4 3 tr
  let bullet := ((Bullet.prove Bullet.sCurve H sPP.bullet 2 [8, 8] (Gadget.adjustWitness 1 1 2 1 1) ⟨3, [5, 1], [2, 6], 4, 2, 5⟩ tr).map
    Prod.fst).getD ⟨0, 0, 0, 0, 0, 0, 0, ⟨[], [], 0, 0⟩⟩
  ⟨refresh, dlogeq, ptke, bullet⟩

def lRun (s i c d j : ℕ) : Bytes → ℤ := lHash 1 1 (s + 1) (i + 1) (c + 1) (d + 1) (j + 1)

def lAns : Ans ℤ (ZMod 11) where
  A := (lPf (lRun 0 0 0 0 0)).bullet.A
  y s := s + 1
  S s := (lPf (lRun s 0 0 0 0)).bullet.S
  z _ i := i + 1
  T1 s i := (lPf (lRun s i 0 0 0)).bullet.T1
  T2 s i := (lPf (lRun s i 0 0 0)).bullet.T2
  x _ _ c := c + 1
  e _ _ _ d := d + 1
  taux s i c d := (lPf (lRun s i c d 0)).bullet.taux
  mu s i c d := (lPf (lRun s i c d 0)).bullet.mu
  tx s i c d := (lPf (lRun s i c d 0)).bullet.tx
  ip s i c d := ⟨fun _ => ((lPf (lRun s i c d 0)).bullet.ip.vecL[0]?).getD 0, fun _ => ((lPf (lRun s i c d 0)).bullet.ip.vecR[0]?).getD 0,
    fun _ j => (j : ℕ) + 1, fun p => (lPf (lRun s i c d ((p[0]?).getD 0 : Fin 4))).bullet.ip.a,
    fun p => (lPf (lRun s i c d ((p[0]?).getD 0 : Fin 4))).bullet.ip.b⟩

def lCheck (s i c d : ℕ) (j : Fin 4) : Bool :=
  let H := lRun s i c d j
  let pf0 := lPf (lRun 0 0 0 0 0)
  let tr := Gadget.rangeTr2 Bullet.sCurve ⟨sPP.enc, sPP.bullet⟩ ⟨3, lSum⟩ [] pf0
  let pf := Bullet.proofAt lAns s i c d [j]
  let ch := InnerProduct.challenges Bullet.sCurve H 1 pf.ip.vecL pf.ip.vecR (Bullet.tr4 Bullet.sCurve H pf tr)
  let tr' := (ch.map Prod.snd).getD []
  let pf' : Gadget.Proof2 (ZMod 11) := { pf0 with bullet := pf }
  decide (H (Bullet.tr1 Bullet.sCurve pf tr) = lAns.y s ∧ H (Bullet.tr2 Bullet.sCurve pf tr) = lAns.z s i ∧
    H (Bullet.tr3 Bullet.sCurve pf tr) = lAns.x s i c ∧ H (Bullet.tr4 Bullet.sCurve H pf tr) = lAns.e s i c d ∧
    ch = some ((lAns.ip s i c d).pathX [j], tr')) &&
  decide (auditLimit Bullet.sCurve H sPP 1 3 [lTx] 1 2 pf' = some true) && decide (auditLimit Bullet.sCurve H sPP 2 3 [lTx] 1 2 pf' = some true)

theorem lCheck_all : ∀ s < 2, ∀ i < 4, ∀ c < 3, ∀ d < 2, ∀ j : Fin 4, lCheck s i c d j = true := by
  decide +kernel

/-- The hypotheses of `adcp_limit_sound` about the three audits and the answers. -/
example :
    let H := lHash 1 1 1 1 1 1 1
    let HD := lHash 2 1 1 1 1 1 1
    let HK := lHash 1 2 1 1 1 1 1
    let pf := lPf H
    let x := Gadget.refreshInstance ⟨sPP.enc, sPP.bullet⟩ ⟨3, lSum⟩ pf.refresh
    (auditLimit Bullet.sCurve H sPP 1 3 [lTx] 1 2 pf = some true ∧ auditLimit Bullet.sCurve HD sPP 1 3 [lTx] 1 2 (lPf HD) = some true ∧
      auditLimit Bullet.sCurve HK sPP 1 3 [lTx] 1 2 (lPf HK) = some true) ∧
    ((lPf HD).dlogeq.A1 = pf.dlogeq.A1 ∧ (lPf HD).dlogeq.A2 = pf.dlogeq.A2 ∧ (lPf HK).ptke.A = pf.ptke.A ∧ (lPf HK).ptke.B = pf.ptke.B) ∧
    (¬ (Bullet.sCurve.order : ℤ) ∣ DLOGEquality.challenge Bullet.sCurve H x [] pf.dlogeq.A1 pf.dlogeq.A2 -
      DLOGEquality.challenge Bullet.sCurve HD x [] pf.dlogeq.A1 pf.dlogeq.A2) ∧
    (¬ (Bullet.sCurve.order : ℤ) ∣
      PlaintextKnowledge.challenge Bullet.sCurve H ⟨3, pf.refresh⟩ (DLOGEquality.verify Bullet.sCurve H x [] pf.dlogeq).2 pf.ptke.A pf.ptke.B -
      PlaintextKnowledge.challenge Bullet.sCurve HK ⟨3, pf.refresh⟩ (DLOGEquality.verify Bullet.sCurve HK x [] (lPf HK).dlogeq).2
        pf.ptke.A pf.ptke.B) ∧
    LimitRewinds Bullet.sCurve sPP 3 [lTx] lSum 1 2 (lPf (lRun 0 0 0 0 0)) 1 lAns := by
  refine ⟨⟨?_, ?_, ?_⟩, ⟨?_, ?_, ?_, ?_⟩, ?_, ?_, ?_⟩
  case refine_10 =>
    intro s hs i hi c hc d hd p hp
    obtain ⟨j, rfl⟩ := List.length_eq_one_iff.1 hp
    have h := lCheck_all s hs i hi c hc d hd j
    unfold lCheck at h
    simp only [Bool.and_eq_true] at h
    obtain ⟨⟨h1, h2⟩, h3⟩ := h
    obtain ⟨a1, a2, a3, a4, a5⟩ := of_decide_eq_true h1
    exact ⟨lRun s i c d j, 1, 2, by decide, ⟨a1, a2, a3, a4, _, a5⟩, of_decide_eq_true h2, of_decide_eq_true h3⟩
  all_goals decide +kernel

end ADCP
end Kunlun
