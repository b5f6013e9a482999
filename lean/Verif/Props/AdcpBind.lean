import Verif.Props.FiatShamir
import Verif.Props.AdcpMany
/-!
C85: what the last proof of a confidential transaction binds. Also: `Miner` leaves the accounts alone when a party does not match (C41, C46), and
the supervisor reads the amount under the parameters made by `Setup` (C44).
-/

namespace Kunlun.ADCP

variable {G : Type} [AddCommGroup G] [DecidableEq G]

/-! ### The serial number as text -/

theorem hexDigit_inj {a b : Nat} (ha : a < 16) (hb : b < 16) (h : hexDigit a = hexDigit b) : a = b := by
  have : ∀ a b : Fin 16, hexDigit a = hexDigit b → a = b := by decide
  exact congrArg Fin.val (this ⟨a, ha⟩ ⟨b, hb⟩ h)

theorem hexDigit_ne_minus {a : Nat} (ha : a < 16) : hexDigit a ≠ 45 := by
  have : ∀ a : Fin 16, hexDigit a ≠ 45 := by decide
  exact this ⟨a, ha⟩

theorem hexBytes_inj : ∀ (l l' : Bytes), (l.flatMap fun b => [hexDigit (b.toNat / 16), hexDigit (b.toNat % 16)]) =
    (l'.flatMap fun b => [hexDigit (b.toNat / 16), hexDigit (b.toNat % 16)]) → l = l'
  | [], [], _ => rfl
  | [], _ :: _, h => by simp at h
  | _ :: _, [], h => by simp at h
  | a :: l, b :: l', h => by
    simp only [List.flatMap_cons, List.cons_append, List.nil_append, List.cons.injEq] at h
    obtain ⟨h1, h2, h3⟩ := h
    have ha : a.toNat < 256 := a.toNat_lt
    have hb : b.toNat < 256 := b.toNat_lt
    have e1 := hexDigit_inj (by omega) (by omega) h1
    have e2 := hexDigit_inj (by omega) (by omega) h2
    have e3 : a = b := UInt8.toNat_inj.1 (by omega)
    rw [e3, hexBytes_inj l l' h3]

theorem toByteString_natAbs (a : ℤ) : BigInt.toByteString a = BigInt.toByteString (a.natAbs : ℤ) := by
  unfold BigInt.toByteString BigInt.numBytes
  rw [Int.natAbs_natCast]
  congr 1
  by_cases h : a = 0
  · rw [if_pos h, if_pos (by omega)]
  · rw [if_neg h, if_neg (by omega)]

theorem toByteString_ne_nil {a : ℤ} (h : a ≠ 0) : ∃ b l, BigInt.toByteString a = b :: l := by
  rcases hl : BigInt.toByteString a with _ | ⟨b, l⟩
  · exfalso
    have h1 := BigInt.bigint_byteString_round_trip a.natAbs
    rw [← toByteString_natAbs, hl] at h1
    have h2 : BigInt.fromByteVector [] = 0 := rfl
    rw [h2] at h1
    omega
  · exact ⟨b, l, rfl⟩

/-- The text of the serial number determines it. -/
theorem hexString_inj {a b : ℤ} (h : hexString a = hexString b) : a = b := by
  have habs : ∀ a b : ℤ, BigInt.toByteString a = BigInt.toByteString b → a.natAbs = b.natAbs := by
    intro a b e
    have h1 := BigInt.bigint_byteString_round_trip a.natAbs
    have h2 := BigInt.bigint_byteString_round_trip b.natAbs
    rw [← toByteString_natAbs] at h1 h2
    rw [e] at h1
    have := h1.symm.trans h2
    exact_mod_cast this
  have hz : ∀ a : ℤ, a ≠ 0 → hexString a ≠ [48] := by
    intro a ha e
    obtain ⟨x, l, hx⟩ := toByteString_ne_nil ha
    have := congrArg List.length e
    unfold hexString at this
    rw [if_neg ha, hx] at this
    simp at this
    split at this <;> simp at this <;> omega
  by_cases ha : a = 0
  · by_contra hne
    refine hz b (fun e => hne (by rw [ha, e])) ?_
    rw [← h, ha]
    rfl
  by_cases hb : b = 0
  · exact absurd (by rw [h, hb]; rfl) (hz a ha)
  obtain ⟨x, l, hx⟩ := toByteString_ne_nil ha
  obtain ⟨y, l', hy⟩ := toByteString_ne_nil hb
  have hx1 : x.toNat < 256 := x.toNat_lt
  have hy1 : y.toNat < 256 := y.toNat_lt
  unfold hexString at h
  rw [if_neg ha, if_neg hb] at h
  by_cases sa : a < 0 <;> by_cases sb : b < 0
  · rw [if_pos sa, if_pos sb] at h
    have := habs a b (hexBytes_inj _ _ (List.append_cancel_left h))
    omega
  · rw [if_pos sa, if_neg sb, hy] at h
    simp only [List.flatMap_cons, List.cons_append, List.nil_append, List.cons.injEq] at h
    exact absurd h.1.symm (hexDigit_ne_minus (by omega))
  · rw [if_neg sa, if_pos sb, hx] at h
    simp only [List.flatMap_cons, List.cons_append, List.nil_append, List.cons.injEq] at h
    exact absurd h.1 (hexDigit_ne_minus (by omega))
  · rw [if_neg sa, if_neg sb] at h
    have := habs a b (hexBytes_inj _ _ (List.append_cancel_left h))
    omega

/-! ### The message of a transaction with one receiver -/

/-- **C85** `ExtractToSignMessageFromCTx`: two transactions with the same message, serial numbers written with equally many digits and
equally many ciphertext components, agree in serial number, keys, the sender's balance, the transfer ciphertext. -/
theorem adcp_message_binds (cv : Curve G) {L : Nat} (hE : cv.Encodes L) (ctx ctx' : ToOne G) (h : toSign cv ctx = toSign cv ctx')
    (hs : (hexString ctx.sn).length = (hexString ctx'.sn).length) (hX : ctx.transfer.vecX.length = ctx'.transfer.vecX.length) :
    ctx.sn = ctx'.sn ∧ ctx.pks = ctx'.pks ∧ ctx.pkr = ctx'.pkr ∧ ctx.senderBalance = ctx'.senderBalance ∧ ctx.transfer = ctx'.transfer := by
  simp only [toSign, ctBytes, mrctBytes, List.append_assoc] at h
  obtain ⟨h1, h⟩ := List.append_inj h hs
  obtain ⟨h2, h⟩ := hE.append h
  obtain ⟨h3, h⟩ := hE.append h
  obtain ⟨h4, h⟩ := hE.append h
  obtain ⟨h5, h⟩ := hE.append h
  obtain ⟨h6, h⟩ := hE.flatten _ _ _ _ hX h
  obtain ⟨h7, -⟩ := hE.append h
  refine ⟨hexString_inj h1, h2, h3, ?_, ?_⟩
  · rcases hb : ctx.senderBalance with ⟨x, y⟩
    rcases hb' : ctx'.senderBalance with ⟨x', y'⟩
    rw [hb, hb'] at h4 h5
    simp only at h4 h5
    rw [h4, h5]
  · rcases hb : ctx.transfer with ⟨x, y⟩
    rcases hb' : ctx'.transfer with ⟨x', y'⟩
    rw [hb, hb'] at h6 h7
    simp only at h6 h7
    rw [h6, h7]

/-- Numbers written with equally many bytes. -/
def SameWidth (a b : ℤ) : Prop := (BigInt.toByteString a).length = (BigInt.toByteString b).length

omit [AddCommGroup G] [DecidableEq G] in
theorem number_append {a b : ℤ} (ha : 0 ≤ a) (hb : 0 ≤ b) (hw : SameWidth a b) {s t : Bytes} (h : BigInt.toByteString a ++ s = BigInt.toByteString b ++ t) :
    a = b ∧ s = t := by
  obtain ⟨h1, h2⟩ := List.append_inj h hw
  refine ⟨?_, h2⟩
  obtain ⟨n, rfl⟩ := Int.eq_ofNat_of_zero_le ha
  obtain ⟨n', rfl⟩ := Int.eq_ofNat_of_zero_le hb
  have := congrArg BigInt.fromByteVector h1
  rwa [BigInt.bigint_byteString_round_trip, BigInt.bigint_byteString_round_trip] at this

/-- Two range proofs of the same number of rounds whose numbers are not negative and equally wide. -/
structure SameBulletShape (p p' : Bullet.Proof G) : Prop where
  pos : 0 ≤ p.taux ∧ 0 ≤ p.mu ∧ 0 ≤ p.tx ∧ 0 ≤ p.ip.a ∧ 0 ≤ p.ip.b
  pos' : 0 ≤ p'.taux ∧ 0 ≤ p'.mu ∧ 0 ≤ p'.tx ∧ 0 ≤ p'.ip.a ∧ 0 ≤ p'.ip.b
  width : SameWidth p.taux p'.taux ∧ SameWidth p.mu p'.mu ∧ SameWidth p.tx p'.tx ∧ SameWidth p.ip.a p'.ip.a ∧ SameWidth p.ip.b p'.ip.b
  rounds : p.ip.vecL.length = p'.ip.vecL.length ∧ p.ip.vecR.length = p'.ip.vecR.length

omit [DecidableEq G] in
/-- **C31** for range proofs: among proofs of one shape the byte string determines the proof. Missing: proofs of different shapes (`bullet_bytes_ambiguous`). -/
theorem bullet_bytes_determine_proof_partial (cv : Curve G) {L : Nat} (hE : cv.Encodes L) (p p' : Bullet.Proof G) (hs : SameBulletShape p p') (s t : Bytes)
    (h : Bullet.proofToByteString cv p ++ s = Bullet.proofToByteString cv p' ++ t) : p = p' ∧ s = t := by
  obtain ⟨⟨a1, a2, a3, a4, a5⟩, ⟨b1, b2, b3, b4, b5⟩, ⟨w1, w2, w3, w4, w5⟩, r1, r2⟩ := hs
  rcases p with ⟨A, S, T1, T2, taux, mu, tx, vL, vR, a, b⟩
  rcases p' with ⟨A', S', T1', T2', taux', mu', tx', vL', vR', a', b'⟩
  simp only [Bullet.proofToByteString, InnerProduct.proofToByteString, List.append_assoc] at *
  obtain ⟨e1, h⟩ := hE.append h
  obtain ⟨e2, h⟩ := hE.append h
  obtain ⟨e3, h⟩ := hE.append h
  obtain ⟨e4, h⟩ := hE.append h
  obtain ⟨e5, h⟩ := number_append a1 b1 w1 h
  obtain ⟨e6, h⟩ := number_append a2 b2 w2 h
  obtain ⟨e7, h⟩ := number_append a3 b3 w3 h
  obtain ⟨e8, h⟩ := hE.flatten _ _ _ _ r1 h
  obtain ⟨e9, h⟩ := hE.flatten _ _ _ _ r2 h
  obtain ⟨e10, h⟩ := number_append a4 b4 w4 h
  obtain ⟨e11, h⟩ := number_append a5 b5 w5 h
  exact ⟨by rw [e1, e2, e3, e4, e5, e6, e7, e8, e9, e10, e11], h⟩

omit [DecidableEq G] in
/-- C31 is violated for range proofs: the numbers have variable length and no separator. -/
theorem bullet_bytes_ambiguous (cv : Curve G) (A S T1 T2 : G) (tx : ℤ) (ip : InnerProduct.Proof G) :
    Bullet.proofToByteString cv ⟨A, S, T1, T2, 0x0102, 3, tx, ip⟩ = Bullet.proofToByteString cv ⟨A, S, T1, T2, 1, 0x0203, tx, ip⟩ ∧
    (⟨A, S, T1, T2, 0x0102, 3, tx, ip⟩ : Bullet.Proof G) ≠ ⟨A, S, T1, T2, 1, 0x0203, tx, ip⟩ := by
  constructor
  · simp only [Bullet.proofToByteString]
    rw [BigInt.bigint_byteString_concat_ambiguous]
  · intro h; simp at h

/-- **C85** The message also binds the proofs and the refreshed balance, among transactions whose proofs have one shape; except, as `toSign` leaves them out, `B` and the
responses of the first proof. -/
theorem adcp_message_binds_proofs (cv : Curve G) {L : Nat} (hE : cv.Encodes L) (ctx ctx' : ToOne G) (h : toSign cv ctx = toSign cv ctx')
    (hs : (hexString ctx.sn).length = (hexString ctx'.sn).length) (hX : ctx.transfer.vecX.length = ctx'.transfer.vecX.length)
    (hA : ctx.pteq.vecA.length = ctx'.pteq.vecA.length) (hb : SameBulletShape ctx.bullet ctx'.bullet)
    (hz : 0 ≤ ctx.ptke.z1 ∧ 0 ≤ ctx'.ptke.z1 ∧ SameWidth ctx.ptke.z1 ctx'.ptke.z1) (hz2 : 0 ≤ ctx.ptke.z2 ∧ 0 ≤ ctx'.ptke.z2) :
    ctx.pteq.vecA = ctx'.pteq.vecA ∧ ctx.bullet = ctx'.bullet ∧ ctx.refresh = ctx'.refresh ∧ ctx.ptke = ctx'.ptke := by
  simp only [toSign, ctBytes, mrctBytes, PlaintextEquality.proofToByteString, PlaintextKnowledge.proofToByteString, List.append_assoc] at h
  obtain ⟨-, h⟩ := List.append_inj h hs
  obtain ⟨-, h⟩ := hE.append h
  obtain ⟨-, h⟩ := hE.append h
  obtain ⟨-, h⟩ := hE.append h
  obtain ⟨-, h⟩ := hE.append h
  obtain ⟨-, h⟩ := hE.flatten _ _ _ _ hX h
  obtain ⟨-, h⟩ := hE.append h
  obtain ⟨h1, h⟩ := hE.flatten _ _ _ _ hA h
  obtain ⟨h2, h⟩ := bullet_bytes_determine_proof_partial cv hE _ _ hb _ _ h
  obtain ⟨h3, h⟩ := hE.append h
  obtain ⟨h4, h⟩ := hE.append h
  obtain ⟨h5, h⟩ := hE.append h
  obtain ⟨h6, h⟩ := hE.append h
  obtain ⟨h7, h⟩ := number_append hz.1 hz.2.1 hz.2.2 h
  have h8 : ctx.ptke.z2 = ctx'.ptke.z2 := (number_append (s := []) (t := []) hz2.1 hz2.2 (congrArg List.length h) (by rw [h])).1
  refine ⟨h1, h2, ?_, ?_⟩
  · rcases hb : ctx.refresh with ⟨x, y⟩
    rcases hb' : ctx'.refresh with ⟨x', y'⟩
    rw [hb, hb'] at h3 h4
    exact congrArg₂ _ h3 h4
  · rcases hb : ctx.ptke with ⟨A, B, z1, z2⟩
    rcases hb' : ctx'.ptke with ⟨A', B', z1', z2'⟩
    rw [hb, hb'] at h5 h6 h7 h8
    simp only at h5 h6 h7 h8
    rw [h5, h6, h7, h8]

/-- What the last check of `VerifyCTx` hashes, for a changed serial number, sender balance and first message. -/
theorem adcp_last_query_inj (cv : Curve G) {L : Nat} (hE : cv.Encodes L) (pp : PP G) (ctx : ToOne G) (X0 : G) (tr : Bytes) (sn sn' : ℤ) (b b' : CT G)
    (A1 A2 A1' A2' : G)
    (h : DLOGEquality.initTranscript cv (refreshInstance pp (updated b X0 ctx.transfer.Y) ctx.refresh ctx.pks)
        (tr ++ toSign cv { ctx with sn := sn, senderBalance := b }) ++ (cv.toBytes A1 ++ cv.toBytes A2) =
      DLOGEquality.initTranscript cv (refreshInstance pp (updated b' X0 ctx.transfer.Y) ctx.refresh ctx.pks)
        (tr ++ toSign cv { ctx with sn := sn', senderBalance := b' }) ++ (cv.toBytes A1' ++ cv.toBytes A2')) :
    sn = sn' ∧ b = b' ∧ A1 = A1' ∧ A2 = A2' := by
  simp only [DLOGEquality.initTranscript, List.append_assoc, List.append_cancel_left_eq] at h
  have hs : (hexString sn).length = (hexString sn').length := by
    have := congrArg List.length h
    simp only [toSign, ctBytes, List.length_append, hE.len] at this
    omega
  have hl : (toSign cv { ctx with sn := sn, senderBalance := b }).length = (toSign cv { ctx with sn := sn', senderBalance := b' }).length := by
    simp only [toSign, ctBytes, List.length_append, hE.len, hs]
  obtain ⟨h1, h2⟩ := List.append_inj h hl
  obtain ⟨e1, -, -, e2, -⟩ := adcp_message_binds cv hE _ _ h1 hs rfl
  simp only at e1 e2
  subst e1 e2
  simp only [List.append_cancel_left_eq] at h2
  obtain ⟨e3, h3⟩ := hE.append h2
  exact ⟨rfl, rfl, e3, hE.inj h3⟩

/-- **C85** for any transaction: either the checks before the last one do not finish whatever serial number, sender balance and last proof
it carries, or `VerifyCTx` answers `ok` and the two equations of the last proof, with the challenge the hash of a string that determines serial number,
sender balance and first message. So a last proof made for one serial number and balance says nothing about another. What is missing from the property is that every other
field is bound too; `adcp_malleable` shows that this fails. -/
theorem adcp_serial_bound_partial (cv : Curve G) {L : Nat} (hE : cv.Encodes L) (H : Bytes → ℤ) (pp : PP G) (s : ℤ) (ctx : ToOne G)
    (hd : (verifyCTx cv H pp s ctx).isSome) :
    ∃ (ok : Bool) (X0 : G) (Q : ℤ × CT G × G × G → Bytes), Function.Injective Q ∧ ctx.transfer.vecX[0]? = some X0 ∧
      ∀ sn b A1 A2 z, verifyCTx cv H pp s { ctx with sn := sn, senderBalance := b, dlogeq := ⟨A1, A2, z⟩ } =
        some (ok && decide (z • ((b.Y - ctx.transfer.Y) - ctx.refresh.Y) = A1 + H (Q (sn, b, A1, A2)) • ((b.X - X0) - ctx.refresh.X) ∧
          z • pp.enc.g = A2 + H (Q (sn, b, A1, A2)) • ctx.pks)) := by
  obtain ⟨res, hres⟩ := Option.isSome_iff_exists.1 hd
  unfold verifyCTx at hres
  simp only [Option.bind_eq_bind, Option.bind_eq_some_iff, Option.pure_def, Option.some.injEq, Prod.exists] at hres
  obtain ⟨c1, tr1, h1, c3, tr3, h3, X0, hX, -⟩ := hres
  refine ⟨c1 && (PlaintextKnowledge.verify cv pp.enc H ⟨ctx.pks, ctx.refresh⟩ tr1 ctx.ptke).1 && c3, X0, fun p =>
    DLOGEquality.initTranscript cv (refreshInstance pp (updated p.2.1 X0 ctx.transfer.Y) ctx.refresh ctx.pks)
        (tr3 ++ toSign cv { ctx with sn := p.1, senderBalance := p.2.1 }) ++ (cv.toBytes p.2.2.1 ++ cv.toBytes p.2.2.2), ?_, hX, ?_⟩
  · rintro ⟨sn, b, A1, A2⟩ ⟨sn', b', A1', A2'⟩ h
    obtain ⟨e1, e2, e3, e4⟩ := adcp_last_query_inj cv hE pp ctx X0 tr3 sn sn' b b' A1 A2 A1' A2' h
    rw [e1, e2, e3, e4]
  · intro sn b A1 A2 z
    unfold verifyCTx
    simp only [Option.bind_eq_bind, Option.pure_def, h1, Option.bind_some, h3, hX]
    congr 1
    rw [Bool.eq_iff_iff]
    simp only [DLOGEquality.verify, refreshInstance, updated, toSign, Bool.and_eq_true]
    exact ⟨fun h => ⟨h.1, decide_eq_true ⟨of_decide_eq_true h.2.1, of_decide_eq_true h.2.2⟩⟩,
      fun h => ⟨h.1, decide_eq_true (of_decide_eq_true h.2).1, decide_eq_true (of_decide_eq_true h.2).2⟩⟩

/-- **C85** boundary: the responses of the transfer proof are neither hashed nor signed. Adding the group order to one of them gives a different
transaction that `VerifyCTx` accepts as well; no secret is needed. -/
theorem adcp_malleable (cv : Curve G) (H : Bytes → ℤ) (pp : PP G) (s : ℤ) (ctx : ToOne G) (i j : ℤ) :
    verifyCTx cv H pp s { ctx with pteq := { ctx.pteq with z := ctx.pteq.z + i * cv.order, t := ctx.pteq.t + j * cv.order } } =
      verifyCTx cv H pp s ctx := by
  have hs : ∀ (a k : ℤ) (P : G), (a + k * cv.order) • P = a • P := by
    intro a k P
    rw [add_smul, mul_smul, natCast_zsmul, cv.smul_order, smul_zero, add_zero]
  have hm : ∀ (a b k l : ℤ) (P Q : G), msm [P, Q] [a + k * cv.order, b + l * cv.order] = msm [P, Q] [a, b] := by
    intro a b k l P Q
    rw [msm_two, msm_two, hs, hs]
  have hc : ∀ (e a k : ℤ) (pks As Xs : List G), PlaintextEquality.conditions e (a + k * cv.order) pks As Xs =
      PlaintextEquality.conditions e a pks As Xs := by
    intro e a k pks
    induction pks with
    | nil => intros; rfl
    | cons P pks ih =>
      intro As Xs
      rcases As with _ | ⟨A, As⟩
      · rfl
      · rcases Xs with _ | ⟨X, Xs⟩
        · rfl
        · simp only [PlaintextEquality.conditions, hs, ih]
  unfold verifyCTx
  simp only [PlaintextEquality.verify, hc, hm, toSign, PlaintextEquality.proofToByteString]

/-! ### Many receivers -/

theorem mrct_flatten (cv : Curve G) {L : Nat} (hE : cv.Encodes L) : ∀ (l l' : List (Twisted.MRCT G)) (s t : Bytes),
    l.map (fun c => c.vecX.length) = l'.map (fun c => c.vecX.length) →
    (l.map (mrctBytes cv)).flatten ++ s = (l'.map (mrctBytes cv)).flatten ++ t → l = l' ∧ s = t
  | [], [], _, _, _, h => ⟨rfl, h⟩
  | [], _ :: _, _, _, hl, _ => by simp at hl
  | _ :: _, [], _, _, hl, _ => by simp at hl
  | ⟨X, Y⟩ :: l, ⟨X', Y'⟩ :: l', s, t, hl, h => by
    simp only [List.map_cons, List.cons.injEq] at hl
    simp only [List.map_cons, List.flatten_cons, mrctBytes, List.append_assoc] at h
    obtain ⟨h1, h⟩ := hE.flatten _ _ _ _ hl.1 h
    obtain ⟨h2, h⟩ := hE.append h
    obtain ⟨h3, h⟩ := mrct_flatten cv hE l l' s t hl.2 h
    rw [h1, h2, h3]
    exact ⟨rfl, h⟩

/-- **C85** the message of a transaction with many receivers: with equally many digits, receivers and ciphertext components it determines the
serial number, all keys, the sender's balance and all ciphertexts of the transfer. -/
theorem adcp_many_message_binds (cv : Curve G) {L : Nat} (hE : cv.Encodes L) (ctx ctx' : ToMany G) (h : toSignMany cv ctx = toSignMany cv ctx')
    (hs : (hexString ctx.sn).length = (hexString ctx'.sn).length) (hp : ctx.pkrs.length = ctx'.pkrs.length)
    (hX : ctx.transfers.map (fun c => c.vecX.length) = ctx'.transfers.map (fun c => c.vecX.length)) :
    ctx.sn = ctx'.sn ∧ ctx.pks = ctx'.pks ∧ ctx.pkrs = ctx'.pkrs ∧ ctx.senderBalance = ctx'.senderBalance ∧
      ctx.senderTransfer = ctx'.senderTransfer ∧ ctx.transfers = ctx'.transfers := by
  simp only [toSignMany, ctBytes, List.append_assoc] at h
  obtain ⟨h1, h⟩ := List.append_inj h hs
  obtain ⟨h2, h⟩ := hE.append h
  obtain ⟨h3, h⟩ := hE.flatten _ _ _ _ hp h
  obtain ⟨h4, h⟩ := hE.append h
  obtain ⟨h5, h⟩ := hE.append h
  obtain ⟨h6, h⟩ := hE.append h
  obtain ⟨h7, h⟩ := hE.append h
  obtain ⟨h8, -⟩ := mrct_flatten cv hE _ _ _ _ hX h
  have hct : ∀ c c' : CT G, c.X = c'.X → c.Y = c'.Y → c = c' := by
    rintro ⟨x, y⟩ ⟨x', y'⟩ a b
    simp only at a b
    rw [a, b]
  exact ⟨hexString_inj h1, h2, h3, hct _ _ h4 h5, hct _ _ h6 h7, h8⟩

/-- **C85** many receivers: the challenge of the last proof is the hash of a string that determines serial number, sender balance and first
message. -/
theorem adcp_many_serial_bound_partial (cv : Curve G) {L : Nat} (hE : cv.Encodes L) (H : Bytes → ℤ) (pp : PP G) (s : ℤ) (ctx : ToMany G)
    (hd : (verifyMany cv H pp s ctx).isSome) :
    ∃ (ok : Bool) (Q : ℤ × CT G × G × G → Bytes), Function.Injective Q ∧
      ∀ sn b A1 A2 z, verifyMany cv H pp s { ctx with sn := sn, senderBalance := b, dlogeq := ⟨A1, A2, z⟩ } =
        some (ok && decide (z • ((b.Y - ctx.senderTransfer.Y) - ctx.refresh.Y) =
            A1 + H (Q (sn, b, A1, A2)) • ((b.X - ctx.senderTransfer.X) - ctx.refresh.X) ∧
          z • pp.enc.g = A2 + H (Q (sn, b, A1, A2)) • ctx.pks)) := by
  obtain ⟨res, hres⟩ := Option.isSome_iff_exists.1 hd
  unfold verifyMany at hres
  simp only [Option.bind_eq_bind, Option.bind_eq_some_iff, Option.pure_def, Option.some.injEq, Prod.exists] at hres
  obtain ⟨c1, tr1, h1, c3, tr3, h3, -⟩ := hres
  obtain ⟨c4, hc4⟩ : ∃ c, c = (DLOGKnowledge.verify cv H (balanceInstance pp ctx.senderTransfer.Y
    ((ctx.transfers.take ctx.pkrs.length).map (·.Y))) tr3 ctx.balance) := ⟨_, rfl⟩
  refine ⟨c1 && (PlaintextKnowledge.verify cv pp.enc H ⟨ctx.pks, ctx.refresh⟩ tr1 ctx.ptke).1 && c3 && c4.1, fun p =>
    DLOGEquality.initTranscript cv (refreshInstance pp (p.2.1.sub ctx.senderTransfer) ctx.refresh ctx.pks)
        (c4.2 ++ toSignMany cv { ctx with sn := p.1, senderBalance := p.2.1 }) ++ (cv.toBytes p.2.2.1 ++ cv.toBytes p.2.2.2), ?_, ?_⟩
  · rintro ⟨sn, b, A1, A2⟩ ⟨sn', b', A1', A2'⟩ h
    simp only [DLOGEquality.initTranscript, List.append_assoc, List.append_cancel_left_eq] at h
    have hs : (hexString sn).length = (hexString sn').length := by
      have := congrArg List.length h
      simp only [toSignMany, ctBytes, List.length_append, hE.len] at this
      omega
    have hl : (toSignMany cv { ctx with sn := sn, senderBalance := b }).length =
        (toSignMany cv { ctx with sn := sn', senderBalance := b' }).length := by
      simp only [toSignMany, ctBytes, List.length_append, hE.len, hs]
    obtain ⟨h1, h2⟩ := List.append_inj h hl
    obtain ⟨e1, -, -, e2, -⟩ := adcp_many_message_binds cv hE _ _ h1 hs rfl rfl
    simp only at e1 e2
    subst e1 e2
    simp only [List.append_cancel_left_eq] at h2
    obtain ⟨e3, h3⟩ := hE.append h2
    rw [e3, hE.inj h3]
  · intro sn b A1 A2 z
    unfold verifyMany
    simp only [Option.bind_eq_bind, Option.pure_def, h1, Option.bind_some, h3, ← hc4]
    congr 1
    rw [Bool.eq_iff_iff]
    simp only [DLOGEquality.verify, refreshInstance, CT.sub, toSignMany, Bool.and_eq_true]
    exact ⟨fun h => ⟨h.1, decide_eq_true ⟨of_decide_eq_true h.2.1, of_decide_eq_true h.2.2⟩⟩,
      fun h => ⟨h.1, decide_eq_true (of_decide_eq_true h.2).1, decide_eq_true (of_decide_eq_true h.2).2⟩⟩

/-! ### Parties that do not match -/

/-- **C41**, **C43** `Miner` with an account that is not the one named in the transaction changes nothing and returns false. -/
theorem adcp_miner_mismatch (cv : Curve G) (H : Bytes → ℤ) (pp : PP G) (d : DecRun G) (s : ℤ) (ctx : ToOne G) (snd rcv : Account G)
    (h : ctx.pks ≠ snd.pk ∨ ctx.pkr ≠ rcv.pk) : miner cv H pp d s ctx snd rcv = some (false, snd, rcv) := by
  unfold miner
  by_cases h1 : ctx.pks ≠ snd.pk
  · simp [h1]
  · simp [h1, h.resolve_left h1]

theorem receiversMatch_mismatch : ∀ (rcvs : List (Account G)) (pkrs : List G) (i : Nat) (a : Account G) (pk : G),
    rcvs.length ≤ pkrs.length → rcvs[i]? = some a → pkrs[i]? = some pk → pk ≠ a.pk → receiversMatch rcvs pkrs = some false
  | [], _, i, _, _, _, h, _, _ => by simp at h
  | _ :: _, [], _, _, _, hl, _, _, _ => by simp at hl
  | b :: rcvs, p :: pkrs, i, a, pk, hl, h1, h2, hne => by
    unfold receiversMatch
    by_cases h : p ≠ b.pk
    · rw [if_pos h]
    · rw [if_neg h]
      rcases i with _ | i
      · simp only [List.getElem?_cons_zero, Option.some.injEq] at h1 h2
        subst h1 h2
        exact absurd hne h
      · simp only [List.getElem?_cons_succ] at h1 h2
        exact receiversMatch_mismatch rcvs pkrs i a pk (by simpa using hl) h1 h2 hne

/-- **C46** `Miner` for many receivers with a wrong sender, or with a wrong account anywhere in a receiver list that is not too long, changes
nothing and returns false. -/
theorem adcp_many_mismatch (cv : Curve G) (H : Bytes → ℤ) (pp : PP G) (d : DecRun G) (ss : List (List (Nat × Bool))) (s : ℤ) (ctx : ToMany G)
    (snd : Account G) (rcvs : List (Account G)) (h : ctx.pks ≠ snd.pk ∨ (rcvs.length ≤ ctx.pkrs.length ∧
      ∃ (i : Nat) (a : Account G) (pk : G), rcvs[i]? = some a ∧ ctx.pkrs[i]? = some pk ∧ pk ≠ a.pk)) :
    minerMany cv H pp d ss s ctx snd rcvs = some (false, snd, rcvs) := by
  unfold minerMany
  by_cases h1 : ctx.pks ≠ snd.pk
  · simp [h1]
  · obtain ⟨hl, i, a, pk, h2, h3, h4⟩ := h.resolve_left h1
    simp [h1, receiversMatch_mismatch rcvs ctx.pkrs i a pk hl h2 h3 h4]

/-! ### Supervision under the parameters of `Setup` -/

/-- **C44** from `Setup` on: under the parameters made with supervisor key `ska`, whatever `CreateCTx` returns for an amount is read back by
`SuperviseCTx`. -/
theorem adcp_setup_supervise (cv : Curve G) (H : Bytes → ℤ) (logMax maxReceivers snLen : Nat) (h u : G) (vecG vecH : List G) (ska : ℤ)
    (hne : ¬ (cv.order : ℤ) ∣ ska) (a : Account G) (v : Nat) (pkr : G) (c : Coins) (ctx : ToOne G) (env : DecEnv G) (sched : List (Nat × Bool))
    (hc : createCTx cv H (setup cv logMax maxReceivers snLen h u vecG vecH ska) a v pkr c = some ctx)
    (hr : Ready cv env h sched v) (hv : v < 2 ^ env.msgLen) : superviseCTx cv env sched ska ctx = some (v : ℤ) := by
  refine adcp_supervise cv (setup cv logMax maxReceivers snLen h u vecG vecH ska) env sched ska ctx v c.r rfl hne ?_ hr hv
  unfold createCTx at hc
  simp only [Option.bind_eq_bind, Option.bind_eq_some_iff, Option.pure_def, Option.some.injEq, Prod.exists] at hc
  obtain ⟨pteq, tr1, -, X0, -, bp, tr3, -, rfl⟩ := hc
  rfl

/-- **C41** from `Setup` on: under the parameters it makes for a power-of-two number of amount bits and at least one receiver, an account made by `CreateAccount`, with a
balance in range, sends any amount up to its balance with a transaction that `VerifyCTx` accepts. -/
theorem adcp_setup_accepts (cv : Curve G) (H : Bytes → ℤ) (j logMax maxReceivers snLen : Nat) (h u : G) (vecG vecH : List G) (ska : ℤ) (hj : j < 63)
    (hl : logMax = 2 ^ j) (hm : 1 ≤ maxReceivers) (hG : vecG.length = logMax * (maxReceivers + 1)) (hH : vecH.length = logMax * (maxReceivers + 1)) (hh : h ≠ 0)
    (identity : Bytes) (balance sn sk v : ℤ) (hsk : ¬ (cv.order : ℤ) ∣ sk) (h0 : 0 ≤ v) (hv : v ≤ balance) (hb : balance < 2 ^ logMax) (pkr : G) (c : Coins)
    (hL : c.bullet.sL.length = logMax * 2) (hR : c.bullet.sR.length = logMax * 2) :
    let pp := setup cv logMax maxReceivers snLen h u vecG vecH ska
    ∃ ctx, createCTx cv H pp (createAccount H pp identity balance sn sk) v pkr c = some ctx ∧ ctx.pks = sk • cv.gen ∧ ctx.pkr = pkr ∧
      ctx.transfer = ⟨[c.r • sk • cv.gen, c.r • pkr, c.r • ska • cv.gen], c.r • cv.gen + v • h⟩ ∧
      (GoodCTx cv H pp ctx → ∀ s, verifyCTx cv H pp s ctx = some true) := by
  intro pp
  have hlen : logMax * 2 ≤ logMax * (maxReceivers + 1) := Nat.mul_le_mul_left _ (by omega)
  obtain ⟨ctx, h1, h2, h3, -, h5, h6⟩ := adcp_create_accepted cv H pp (createAccount H pp identity balance sn sk) v pkr c (j + 1)
    (createAccount_sane cv H pp identity balance sn sk hsk)
    ⟨rfl, rfl, by show logMax * 2 = 2 ^ (j + 1); rw [hl, pow_succ], by omega, by show logMax * 2 ≤ vecG.length; omega, by show logMax * 2 ≤ vecH.length; omega, hL, hR⟩
    hh h0 hv hb
  refine ⟨ctx, h1, h2, h3, ?_, h6⟩
  rw [h5, h2, h3]
  rfl

/-! ### Examples -/

/-- Parameters made by `Setup` for amounts of 8 bits, an account with 100 and a transfer of 40. -/
example : ∃ ctx, createCTx Dlog.exCurve (fun _ => 3) (setup Dlog.exCurve 8 1 1 2 3 (List.replicate 16 4) (List.replicate 16 5) 7)
    (createAccount (fun _ => 3) (setup Dlog.exCurve 8 1 1 2 3 (List.replicate 16 4) (List.replicate 16 5) 7) [97] 100 1 11) 40 6
    ⟨1, 2, 3, 4, 5, 6, ⟨7, List.replicate 16 8, List.replicate 16 9, 10, 11, 12⟩, 13⟩ = some ctx := by
  obtain ⟨ctx, h, -⟩ := adcp_setup_accepts Dlog.exCurve (fun _ => 3) 3 8 1 1 2 3 (List.replicate 16 4) (List.replicate 16 5) 7 (by decide) rfl (by decide) rfl rfl
    (by decide) [97] 100 1 11 40 (by decide) (by decide) (by decide) (by decide) 6 ⟨1, 2, 3, 4, 5, 6, ⟨7, List.replicate 16 8, List.replicate 16 9, 10, 11, 12⟩, 13⟩ rfl rfl
  exact ⟨ctx, h⟩

theorem exCurve_encodes : Dlog.exCurve.Encodes 2 := by
  refine ⟨fun _ => rfl, fun P Q h => ?_⟩
  have hP : P.val < 8209 := ZMod.val_lt P
  have hQ : Q.val < 8209 := ZMod.val_lt Q
  simp only [Dlog.exCurve, List.cons.injEq, and_true] at h
  have h1 := congrArg UInt8.toNat h.1
  have h2 := congrArg UInt8.toNat h.2
  simp only [UInt8.toNat_ofNat'] at h1 h2
  exact ZMod.val_injective _ (by omega)

/-- The transaction of the example is accepted, so the last two theorems speak of it; its serial number 1 is written `01` and 26 is `1A`. -/
example : ∃ ctx, (verifyCTx Dlog.exCurve (fun _ => 3) exPP 1 ctx).isSome ∧ Dlog.exCurve.Encodes 2 ∧ hexString ctx.sn = [48, 49] ∧
    hexString 26 = [49, 65] ∧ hexString (-26) = [45, 49, 65] := by
  obtain ⟨ctx, _, _, h1, h2, -⟩ := ex_transfer
  obtain ⟨ctx', -, h3, -, -, -, h4, -⟩ := adcp_create_honest Dlog.exCurve (fun _ => 3) exPP exAlice 40 exBob.pk exCoins 4 exAlice_sane exSized
    (by decide)
  rw [h1, Option.some.injEq] at h3
  subst h3
  exact ⟨ctx, by rw [h2]; rfl, exCurve_encodes, by rw [h4]; decide, by decide, by decide⟩

end Kunlun.ADCP
