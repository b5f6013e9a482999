import Verif.Model.AdcpAuditSim
import Verif.Props.AdcpHide
/-!
C133: what the proofs made by `JustifyPolicy` of adcp/adcp.hpp tell the auditor. With hash values drawn at random, an honest proof for each of the three
policies is distributed exactly as what a simulator makes that has no secret: it is given the public key, the transactions and the claim.
-/

namespace Kunlun.ADCP

open Finset Bullet Oracle

variable {G V : Type} [AddCommGroup G] [DecidableEq G] [Fintype V] [DecidableEq V] {Q : Finset Bytes}

/-- The average answer of `D`, that sees the hash function and a proof of discrete-log equality (or that there is none), when `make` makes the proof from the
hash function and one scalar. -/
noncomputable def auditAvg (cv : Curve G) [Fintype (ZMod cv.order)] (val : V → ℤ) (v0 : V) (D : (Q → V) → Option (DLOGEquality.Proof G) → ℝ)
    (make : (Bytes → ℤ) → ℤ → Option (DLOGEquality.Proof G)) : ℝ :=
  (∑ o : Q → V, ∑ c : ZMod cv.order, D o (make (hash val v0 o) (ofF cv c))) / ((Fintype.card (Q → V) : ℝ) * cv.order)

/-- The average answer of `D` to what the simulator makes of the statement `x`: it draws a challenge and an answer, computes the first messages, and sets the
hash value. -/
noncomputable def simAuditAvg (cv : Curve G) [Fintype (ZMod cv.order)] (val : V → ℤ) (D : (Q → V) → Option (DLOGEquality.Proof G) → ℝ)
    (x : Option (DLOGEquality.Instance G)) : ℝ :=
  (∑ e : V, ∑ z : ZMod cv.order, ∑ o : Q → V, match x with
    | none => D o none
    | some x => D (put o (dlPoint cv x [] (simDl x (val e) (ofF cv z))) e) (some (simDl x (val e) (ofF cv z)))) /
      ((Fintype.card V : ℝ) * ((Fintype.card (Q → V) : ℝ) * cv.order))

theorem audit_simulated [Nonempty V] (cv : Curve G) [Fintype (ZMod cv.order)] {W : ℕ} (hE : cv.Encodes W) (hW : 0 < W) (hQ : ∀ b : Bytes, b.length ≤ 6 * W → b ∈ Q)
    (val : V → ℤ) (v0 : V) (D : (Q → V) → Option (DLOGEquality.Proof G) → ℝ) (x : DLOGEquality.Instance G) (w : ℤ) (h1 : x.h1 = w • x.g1)
    (h2 : x.h2 = w • x.g2) (make : (Bytes → ℤ) → ℤ → Option (DLOGEquality.Proof G))
    (hmake : ∀ H c, make H c = some (DLOGEquality.prove cv H x w c []).1) : auditAvg cv val v0 D make = simAuditAvg cv val D (some x) := by
  have hs := dl_stage cv hE hW val v0 (6 * W) hQ (fun o p => D o (some p.1)) x w h1 h2 [] (by simp) [] (by simp)
  have hc : (Fintype.card V : ℝ) ≠ 0 := Nat.cast_ne_zero.2 Fintype.card_ne_zero
  unfold auditAvg simAuditAvg
  simp only [hmake]
  rw [← mul_div_mul_left _ _ hc]
  congr 1

/-- **C133** Opening an amount: `JustifyPolicy` of the sender or the receiver of `v` tells nothing besides `v`. The two averages are equal for every `D`. -/
theorem adcp_open_simulated [Nonempty V] (cv : Curve G) [Fintype (ZMod cv.order)] {W : ℕ} (hE : cv.Encodes W) (hW : 0 < W)
    (hQ : ∀ b : Bytes, b.length ≤ 6 * W → b ∈ Q) (pp : PP G) (val : V → ℤ) (v0 : V) (D : (Q → V) → Option (DLOGEquality.Proof G) → ℝ) (a : Account G)
    (ctx : ToOne G) (v : ℤ) (hkey : a.pk = a.sk • pp.enc.g) (hparty : a.pk = ctx.pks ∨ a.pk = ctx.pkr) (hsays : Says pp ctx v) :
    auditAvg cv val v0 D (fun H c => justifyOpen cv H pp a ctx v c) = simAuditAvg cv val D (openInstance pp a.pk ctx v) := by
  obtain ⟨r, hX0, hX1, hY⟩ := hsays.parts
  have hn : ¬ (a.pk ≠ ctx.pks ∧ a.pk ≠ ctx.pkr) := by tauto
  have hg : ctx.transfer.Y - v • pp.enc.h = r • pp.enc.g := by rw [hY]; abel
  by_cases hp : a.pk = ctx.pks
  · have hi : openInstance pp a.pk ctx v = some ⟨r • pp.enc.g, r • ctx.pks, pp.enc.g, ctx.pks⟩ := by
      unfold openInstance
      simp [hp, hX0, hg]
    rw [hi]
    refine audit_simulated cv hE hW hQ val v0 D _ a.sk ?_ ?_ _ fun H c => ?_
    · show r • ctx.pks = _
      rw [← hp, hkey, smul_comm]
    · show ctx.pks = _
      rw [← hp, hkey]
    · unfold justifyOpen
      rw [if_neg hn, hi]
      rfl
  · have hr : a.pk = ctx.pkr := by tauto
    have hi : openInstance pp a.pk ctx v = some ⟨r • pp.enc.g, r • ctx.pkr, pp.enc.g, ctx.pkr⟩ := by
      unfold openInstance
      simp [hp, hX1, hg]
    rw [hi]
    refine audit_simulated cv hE hW hQ val v0 D _ a.sk ?_ ?_ _ fun H c => ?_
    · show r • ctx.pkr = _
      rw [← hr, hkey, smul_comm]
    · show ctx.pkr = _
      rw [← hr, hkey]
    · unfold justifyOpen
      rw [if_neg hn, hi]
      rfl

/-- **C133** A rate: if `t1` times the amount received is `t2` times the amount sent, `JustifyPolicy` tells nothing besides that. -/
theorem adcp_rate_simulated [Nonempty V] (cv : Curve G) [Fintype (ZMod cv.order)] {W : ℕ} (hE : cv.Encodes W) (hW : 0 < W)
    (hQ : ∀ b : Bytes, b.length ≤ 6 * W → b ∈ Q) (pp : PP G) (val : V → ℤ) (v0 : V) (D : (Q → V) → Option (DLOGEquality.Proof G) → ℝ) (a : Account G)
    (ctx1 ctx2 : ToOne G) (t1 t2 v1 v2 : ℤ) (hkey : a.pk = a.sk • pp.enc.g) (hin : a.pk = ctx1.pkr) (hout : a.pk = ctx2.pks)
    (hs1 : Says pp ctx1 v1) (hs2 : Says pp ctx2 v2) (hrate : t1 * v1 = t2 * v2) :
    auditAvg cv val v0 D (fun H c => justifyRate cv H pp a ctx1 ctx2 t1 t2 c) = simAuditAvg cv val D (rateInstance pp a.pk ctx1 ctx2 t1 t2) := by
  obtain ⟨r1, -, hX1, hY1⟩ := hs1.parts
  obtain ⟨r2, hX2, -, hY2⟩ := hs2.parts
  have hi : rateInstance pp a.pk ctx1 ctx2 t1 t2 =
      some ⟨pp.enc.g, a.pk, (((CT.mk (r1 • ctx1.pkr) ctx1.transfer.Y).scale t1).sub ((CT.mk (r2 • ctx2.pks) ctx2.transfer.Y).scale t2)).Y,
        (((CT.mk (r1 • ctx1.pkr) ctx1.transfer.Y).scale t1).sub ((CT.mk (r2 • ctx2.pks) ctx2.transfer.Y).scale t2)).X⟩ := by
    unfold rateInstance
    simp [hX1, hX2]
  rw [hi]
  refine audit_simulated cv hE hW hQ val v0 D _ a.sk hkey ?_ _ fun H c => ?_
  · simp only [CT.sub, CT.scale, ← hin, ← hout, hkey, hY1, hY2, smul_add, smul_smul, ← hrate]
    module
  · unfold justifyRate
    rw [if_neg (by tauto), hi]
    rfl

/-- The number of draws of hash functions on `Q` and of scalars of a limit proof. -/
noncomputable def drawsLimit (V : Type) [Fintype V] (Q : Finset Bytes) (cv : Curve G) [Fintype (ZMod cv.order)] (pp : PP G) : ℝ :=
  (Fintype.card (Q → V) : ℝ) * ((cv.order : ℝ) ^ 4 * (Fintype.card (Shape cv.order (pp.bullet.rangeLen * 2)) : ℝ))

/-- The average answer of `D`, that sees the hash function and the limit proof `JustifyPolicy` makes, over all hash functions and scalars. -/
noncomputable def limitAvg (cv : Curve G) [Fintype (ZMod cv.order)] (pp : PP G) (val : V → ℤ) (v0 : V)
    (D : (Q → V) → Option (Option (Gadget.Proof2 G)) → ℝ) (env : DecEnv G) (sched : List (Nat × Bool)) (a : Account G) (ctxs : List (ToOne G))
    (L R : ℤ) : ℝ :=
  (∑ o : Q → V, ∑ c0 : ZMod cv.order, ∑ c1 : ZMod cv.order, ∑ c2 : ZMod cv.order × ZMod cv.order, ∑ c3 : Shape cv.order (pp.bullet.rangeLen * 2),
    D o (justifyLimit cv (hash val v0 o) pp env sched a ctxs L R ⟨ofF cv c0, ofF cv c1, ofF cv c2.1, ofF cv c2.2, coinsOf cv c3⟩)) / drawsLimit V Q cv pp

/-- The average answer of `D` to what the simulator makes of the key, the transactions and the bounds. -/
noncomputable def simLimitAvg (cv : Curve G) [Fintype (ZMod cv.order)] (pp : PP G) (val : V → ℤ) (v0 : V)
    (D : (Q → V) → Option (Option (Gadget.Proof2 G)) → ℝ) (pk : G) (ctxs : List (ToOne G)) (L R : ℤ) : ℝ :=
  simLimit cv pp val v0 D pk ((sumLoop ⟨0, 0⟩ ctxs).getD ⟨0, 0⟩) L R / ((Fintype.card V : ℝ) ^ 5 * drawsLimit V Q cv pp)

/-- **C133** A limit: if the amounts sent add up to a number in `[L, R)`, the proof tells nothing besides that; neither the sum nor the key is needed to make one that
looks the same. -/
theorem adcp_limit_simulated [Nonempty V] (cv : Curve G) [Fintype (ZMod cv.order)] (pp : PP G) (val : V → ℤ) (v0 : V) {W B k : ℕ} {sn : ℤ}
    (hS : Setting cv pp val Q W B k sn) (D : (Q → V) → Option (Option (Gadget.Proof2 G)) → ℝ) (env : DecEnv G) (sched : List (Nat × Bool))
    (a : Account G) (ctxs : List (ToOne G)) (vs : List ℤ) (m : ℕ) (L R : ℤ) (hkey : a.pk = a.sk • pp.enc.g) (hsk : ¬ (cv.order : ℤ) ∣ a.sk)
    (hpk : ∀ ctx ∈ ctxs, ctx.pks = a.pk) (hsays : List.Forall₂ (Says pp) ctxs vs) (hvs : vs.sum = m)
    (hready : Ready cv env pp.enc.h sched m) (hmn : m < 2 ^ env.msgLen) (h0 : 0 ≤ L) (hR : R ≤ 2 ^ pp.bullet.rangeLen) (hm : L ≤ m ∧ (m : ℤ) < R) :
    limitAvg cv pp val v0 D env sched a ctxs L R = simLimitAvg cv pp val v0 D a.pk ctxs L R := by
  have hall : List.Forall₂ (fun ctx v => ctx.pks = a.sk • pp.enc.g ∧ Says pp ctx v) ctxs vs := by
    clear hvs
    induction hsays with
    | nil => exact .nil
    | cons h _ ih => exact .cons ⟨by rw [hpk _ (by simp), hkey], h⟩ (ih fun ctx hc => hpk ctx (by simp [hc]))
  obtain ⟨ct, hsum, hct⟩ := sumLoop_says cv pp a.sk hsk ctxs vs hall ⟨0, 0⟩ 0 (by simp [Twisted.Holds, Twisted.decPoint])
  rw [zero_add, hvs] at hct
  have hdec : Twisted.dec cv env sched a.sk ct = some (m : ℤ) := search_finds cv env pp.enc.h sched m hready hmn _ hct
  have h := realLimit_eq_sim cv pp val v0 hS D env sched a ctxs L R ct m hkey hsk hpk hsum hct hdec h0 hR hm
  have hc : (Fintype.card V : ℝ) ^ 5 ≠ 0 := pow_ne_zero _ (Nat.cast_ne_zero.2 Fintype.card_ne_zero)
  unfold simLimitAvg
  rw [hsum, Option.getD_some, ← h, mul_div_mul_left _ _ hc]
  rfl

/-! ### The hypotheses can be met -/

/-- Alice sent 40 and 50 and proves that this is less than 100; the challenges are 3 and 5. -/
example : ∃ Q : Finset Bytes, ∀ [Fintype (ZMod Dlog.exCurve.order)] (D : (Q → Bool) → Option (Option (Gadget.Proof2 (ZMod 8209))) → ℝ),
    limitAvg Dlog.exCurve exPP (fun b : Bool => if b then 3 else 5) true D exEnv exSched exAlice [limCTx 40 3, limCTx 50 4] 0 100 =
      simLimitAvg Dlog.exCurve exPP (fun b : Bool => if b then 3 else 5) true D exAlice.pk [limCTx 40 3, limCTx 50 4] 0 100 := by
  obtain ⟨Q, hS⟩ := exSetting
  refine ⟨Q, fun D => ?_⟩
  exact adcp_limit_simulated Dlog.exCurve exPP _ true hS D exEnv exSched exAlice [limCTx 40 3, limCTx 50 4] [40, 50] 90 0 100 exAlice_sane.key exAlice_sane.ne
    (by simp [limCTx]) (.cons ⟨3, rfl⟩ (.cons ⟨4, rfl⟩ .nil)) rfl (exReady 90) (by decide) (by decide) (by decide) (by decide)

/-- She opens the payment of 40. -/
example : ∃ Q : Finset Bytes, ∀ [Fintype (ZMod Dlog.exCurve.order)] (D : (Q → Bool) → Option (DLOGEquality.Proof (ZMod 8209)) → ℝ),
    auditAvg Dlog.exCurve (fun b : Bool => if b then 3 else 5) true D (fun H c => justifyOpen Dlog.exCurve H exPP exAlice (limCTx 40 3) 40 c) =
      simAuditAvg Dlog.exCurve (fun b : Bool => if b then 3 else 5) D (openInstance exPP exAlice.pk (limCTx 40 3) 40) := by
  obtain ⟨Q, hS⟩ := exSetting
  refine ⟨Q, fun D => ?_⟩
  exact adcp_open_simulated Dlog.exCurve hS.enc hS.pos (fun b hb => hS.all b (by unfold hashedLen; omega)) exPP _ true D exAlice (limCTx 40 3) 40
    exAlice_sane.key (Or.inl rfl) ⟨3, rfl⟩

/-- She got 20 and sent 40: twice as much. -/
example : ∃ Q : Finset Bytes, ∀ [Fintype (ZMod Dlog.exCurve.order)] (D : (Q → Bool) → Option (DLOGEquality.Proof (ZMod 8209)) → ℝ),
    auditAvg Dlog.exCurve (fun b : Bool => if b then 3 else 5) true D (fun H c => justifyRate Dlog.exCurve H exPP exAlice
        { limCTx 20 6 with pks := exBob.pk, pkr := exAlice.pk, transfer := Twisted.encMulti exPP.enc [exBob.pk, exAlice.pk, exPP.pka] 20 6 } (limCTx 40 3) 2 1 c) =
      simAuditAvg Dlog.exCurve (fun b : Bool => if b then 3 else 5) D (rateInstance exPP exAlice.pk
        { limCTx 20 6 with pks := exBob.pk, pkr := exAlice.pk, transfer := Twisted.encMulti exPP.enc [exBob.pk, exAlice.pk, exPP.pka] 20 6 } (limCTx 40 3) 2 1) := by
  obtain ⟨Q, hS⟩ := exSetting
  refine ⟨Q, fun D => ?_⟩
  exact adcp_rate_simulated Dlog.exCurve hS.enc hS.pos (fun b hb => hS.all b (by unfold hashedLen; omega)) exPP _ true D exAlice _ (limCTx 40 3) 2 1 20 40
    exAlice_sane.key rfl rfl ⟨6, rfl⟩ ⟨3, rfl⟩ rfl

end Kunlun.ADCP
