import Verif.Props.Adcp
import Verif.Model.AdcpMany
/-!
C46: confidential transactions with many receivers.
-/

namespace Kunlun.ADCP

variable {G : Type} [AddCommGroup G] [DecidableEq G]

/-- Well-formed receiver ciphertexts: amount `vᵢ` with randomness `rᵢ` for `pkrᵢ` and the supervisor. -/
inductive Legs (pp : PP G) : List G → List ℤ → List ℤ → List (Twisted.MRCT G) → Prop
  | nil : Legs pp [] [] [] []
  | cons (pkr : G) (v r : ℤ) (pkrs : List G) (vs rs : List ℤ) (cts : List (Twisted.MRCT G)) : Legs pp pkrs vs rs cts →
      Legs pp (pkr :: pkrs) (v :: vs) (r :: rs) (Twisted.encMulti pp.enc [pkr, pp.pka] v r :: cts)

theorem makeLegs_spec (pp : PP G) (vs : List ℤ) (pkrs : List G) (cs : List LegCoins) (h1 : pkrs.length = vs.length)
    (h2 : cs.length = vs.length) : ∃ cts, makeLegs pp vs pkrs cs = some cts ∧ Legs pp pkrs vs (cs.map LegCoins.r) cts := by
  induction vs generalizing pkrs cs with
  | nil =>
    rw [List.length_nil, List.length_eq_zero_iff] at h1 h2
    subst h1 h2
    exact ⟨[], rfl, Legs.nil⟩
  | cons v vs ih =>
    rcases pkrs with _ | ⟨pkr, pkrs⟩
    · simp at h1
    rcases cs with _ | ⟨c, cs⟩
    · simp at h2
    obtain ⟨cts, h3, h4⟩ := ih pkrs cs (by simpa using h1) (by simpa using h2)
    exact ⟨_ :: cts, by simp [makeLegs, h3], Legs.cons _ _ _ _ _ _ _ h4⟩

theorem proveLegs_spec (cv : Curve G) (H : Bytes → ℤ) (pp : PP G) (pkrs : List G) (vs rs : List ℤ) (cts : List (Twisted.MRCT G))
    (h : Legs pp pkrs vs rs cts) (cs : List LegCoins) (hr : cs.map LegCoins.r = rs) (tr : Bytes) :
    ∃ pfs tr', proveLegs cv H pp vs pkrs cts cs tr = some (pfs, tr') ∧ verifyLegs cv H pp pkrs cts pfs tr = some (true, tr') := by
  induction h generalizing cs tr with
  | nil => exact ⟨[], tr, rfl, rfl⟩
  | cons pkr v r pkrs vs rs cts _ ih =>
    rcases cs with _ | ⟨c, cs⟩
    · simp at hr
    simp only [List.map_cons, List.cons.injEq] at hr
    obtain ⟨rfl, hr⟩ := hr
    obtain ⟨pf, tr1, h1, h2⟩ := PlaintextEquality.plaintextEquality_complete cv pp.enc H [pkr, pp.pka] v c.r c.eqA c.eqB tr
    obtain ⟨pfs, tr', h3, h4⟩ := ih cs hr tr1
    refine ⟨pf :: pfs, tr', ?_, ?_⟩
    · simp [proveLegs, h1, h3]
    · simp [verifyLegs, h2, h4]

theorem legs_length {pp : PP G} {pkrs : List G} {vs rs : List ℤ} {cts : List (Twisted.MRCT G)} (h : Legs pp pkrs vs rs cts) :
    vs.length = pkrs.length ∧ rs.length = pkrs.length ∧ cts.length = pkrs.length := by
  induction h with
  | nil => simp
  | cons => simp_all

theorem legs_Y {pp : PP G} {pkrs : List G} {vs rs : List ℤ} {cts : List (Twisted.MRCT G)} (h : Legs pp pkrs vs rs cts) :
    cts.map (·.Y) = List.zipWith (fun (x y : ℤ) => x • pp.enc.g + y • pp.enc.h) rs vs ∧
      (cts.map (·.Y)).sum = rs.sum • pp.enc.g + vs.sum • pp.enc.h := by
  induction h with
  | nil => simp
  | cons pkr v r pkrs vs rs cts _ ih =>
    obtain ⟨h1, h2⟩ := ih
    refine ⟨by simp only [List.map_cons, h1, List.zipWith_cons_cons]; rfl, ?_⟩
    simp only [List.map_cons, List.sum_cons, h2, Twisted.encMulti]
    module

theorem foldl_sub {M : Type} [AddCommGroup M] (l : List M) (a : M) : l.foldl (· - ·) a = a - l.sum := by
  induction l generalizing a with
  | nil => simp
  | cons x t ih => simp only [List.foldl_cons, ih, List.sum_cons]; abel

theorem foldl_add (l : List ℤ) (a : ℤ) : l.foldl (· + ·) a = a + l.sum := by
  induction l generalizing a with
  | nil => simp
  | cons x t ih => simp only [List.foldl_cons, ih, List.sum_cons]; abel

/-- The two range-proof challenges of the transaction are usable. -/
def GoodMany (cv : Curve G) (H : Bytes → ℤ) (pp : PP G) (ctx : ToMany G) : Prop :=
  ∀ b tr, verifyLegs cv H pp ctx.pkrs ctx.transfers ctx.pteqs [] = some (b, tr) →
    Bullet.Good cv H ctx.bullet (PlaintextKnowledge.verify cv pp.enc H ⟨ctx.pks, ctx.refresh⟩ tr ctx.ptke).2

/-- The parameters fit a range proof for `n` commitments. -/
structure SizedMany (pp : PP G) (c : Bullet.Coins) (n k : Nat) : Prop where
  base_g : pp.bullet.g = pp.enc.g
  base_h : pp.bullet.h = pp.enc.h
  pow : pp.bullet.rangeLen * n = 2 ^ k
  small : k < 64
  lenG : pp.bullet.rangeLen * n ≤ pp.bullet.vecG.length
  lenH : pp.bullet.rangeLen * n ≤ pp.bullet.vecH.length
  lenL : c.sL.length = pp.bullet.rangeLen * n
  lenR : c.sR.length = pp.bullet.rangeLen * n

/-- What `VerifyCTx` demands, exactly: a transaction finished by the code for any receiver amounts `vs` and any sender ciphertext `out` that
*decrypts* to `v` under the sender's key and whose second component commits to `Σ vᵢ` is accepted exactly when `q ∣ s Σⱼ z^(j+2) eⱼ` with
`eⱼ` the excesses of the `vᵢ` and of `balance − v`. Nothing relates `v` to `Σ vᵢ`. -/
theorem adcp_many_finish (cv : Curve G) (H : Bytes → ℤ) (pp : PP G) (a : Account G) (vs : List ℤ) (pkrs : List G)
    (cts : List (Twisted.MRCT G)) (out : CT G) (v r : ℤ) (c : ManyCoins) (k : Nat) (ha : Sane cv pp a)
    (hl : Legs pp pkrs vs (c.legs.map LegCoins.r) cts) (hv : Twisted.Holds cv pp.enc a.sk out v)
    (hY : out.Y = r • pp.enc.g + vs.sum • pp.enc.h) (hs : SizedMany pp c.bullet (vs.length + 1) k) (hh : pp.enc.h ≠ 0) :
    ∃ ctx tb, finishCTx cv H pp a vs pkrs cts out v ((c.legs.map LegCoins.r).foldl (· - ·) r) c = some ctx ∧ ctx.pks = a.pk ∧
      ctx.pkrs = pkrs ∧ ctx.transfers = cts ∧ ctx.senderTransfer = out ∧ ctx.senderBalance = a.balance ∧
      (GoodMany cv H pp ctx → ∀ s,
        let z := H (tb ++ cv.toBytes ctx.bullet.A ++ cv.toBytes ctx.bullet.S)
        verifyMany cv H pp s ctx = some (decide ((cv.order : ℤ) ∣ s * ∑ j ∈ Finset.range (vs.length + 1),
          z ^ (j + 2) * Bullet.excess pp.bullet.rangeLen (((vs ++ [a.m - v])[j]?).getD 0)))) := by
  obtain ⟨hkey, hne, hbal⟩ := ha
  obtain ⟨l1, l2, l3⟩ := legs_length hl
  obtain ⟨y1, y2⟩ := legs_Y hl
  obtain ⟨pteqs, tr1, he1, he2⟩ := proveLegs_spec cv H pp pkrs vs _ cts hl c.legs rfl []
  have hupd : Twisted.Holds cv pp.enc a.sk (a.balance.sub out) (a.m - v) := by
    unfold Twisted.Holds at *
    rw [decPoint_sub, hbal, hv, sub_smul]
  generalize hU : a.balance.sub out = upd at *
  have hre := Gadget.reEnc_eq_enc cv pp.enc a.pk a.sk (a.m - v) c.rStar upd hupd
  have hst := Gadget.refresh_statement cv pp.enc a.sk (a.m - v) c.rStar hne upd hupd
  have hkk : Twisted.keyGen pp.enc a.sk = a.pk := by rw [hkey]; rfl
  rw [hkk] at hst
  have hk := PlaintextKnowledge.plaintextKnowledge_complete cv pp.enc H a.pk (a.m - v) c.rStar c.knA c.knB tr1
  have hRY : (Twisted.enc pp.enc a.pk (a.m - v) c.rStar).Y = c.rStar • pp.enc.g + (a.m - v) • pp.enc.h := by
    simp only [Twisted.enc, msm_two]
  generalize hR : Twisted.enc pp.enc a.pk (a.m - v) c.rStar = rf at *
  generalize hP : PlaintextKnowledge.prove cv pp.enc H ⟨a.pk, rf⟩ (a.m - v) c.rStar c.knA c.knB tr1 = P at hk
  obtain ⟨bpf, tr3, hb1, hb2⟩ := Bullet.honest_int_iff cv H pp.bullet (vs.length + 1) k (c.legs.map LegCoins.r ++ [c.rStar])
    (vs ++ [a.m - v]) c.bullet P.2 hs.pow hs.small hs.lenG hs.lenH (by simp) (by simp only [List.length_append, List.length_cons, List.length_nil]; omega) hs.lenL hs.lenR
  have hC : List.zipWith (fun (x y : ℤ) => x • pp.bullet.g + y • pp.bullet.h) (c.legs.map LegCoins.r ++ [c.rStar]) (vs ++ [a.m - v]) =
      cts.map (·.Y) ++ [rf.Y] := by
    rw [List.zipWith_append (by omega), y1, hRY, hs.base_g, hs.base_h]
    rfl
  have hbalance := DLOGKnowledge.dlogKnowledge_complete cv H (balanceInstance pp out.Y (cts.map (·.Y)))
    ((c.legs.map LegCoins.r).foldl (· - ·) r) c.bal tr3 (by
      simp only [balanceInstance, foldl_sub, y2, hY]
      module)
  generalize hB : DLOGKnowledge.prove cv H (balanceInstance pp out.Y (cts.map (·.Y))) ((c.legs.map LegCoins.r).foldl (· - ·) r) c.bal tr3 = B
    at hbalance
  have hd := DLOGEquality.dlogEquality_complete cv H (refreshInstance pp upd rf a.pk) a.sk c.dl
    (B.2 ++ toSignMany cv (⟨a.sn, a.balance, a.pk, out, pkrs, cts, rf, P.1, ⟨0, 0, 0⟩, pteqs, bpf, B.1⟩ : ToMany G))
    (by
      simp only [refreshInstance]
      have : upd.X - rf.X = -(rf.X - upd.X) := by abel
      rw [this, hst, ← smul_neg]
      congr 1
      abel)
    (by simp only [refreshInstance]; exact hkey)
  generalize hD : DLOGEquality.prove cv H (refreshInstance pp upd rf a.pk) a.sk c.dl
    (B.2 ++ toSignMany cv (⟨a.sn, a.balance, a.pk, out, pkrs, cts, rf, P.1, ⟨0, 0, 0⟩, pteqs, bpf, B.1⟩ : ToMany G)) = D at hd
  refine ⟨⟨a.sn, a.balance, a.pk, out, pkrs, cts, rf, P.1, D.1, pteqs, bpf, B.1⟩, P.2, ?_, rfl, rfl, rfl, rfl, rfl, ?_⟩
  · unfold finishCTx
    simp only [Option.bind_eq_bind, Option.pure_def, he1, Option.bind_some, hU, hre, hP, hb1, hB, hD]
  · intro hgood s z
    have hg : Bullet.Good cv H bpf P.2 := by
      have := hgood true tr1 he2
      simpa only [hk] using this
    have hf := (hb2 hg).2 s
    rw [hC] at hf
    have hd' : DLOGEquality.verify cv H (refreshInstance pp upd rf a.pk)
        (B.2 ++ toSignMany cv (⟨a.sn, a.balance, a.pk, out, pkrs, cts, rf, P.1, D.1, pteqs, bpf, B.1⟩ : ToMany G)) D.1 = (true, D.2) := hd
    have htake : cts.take pkrs.length = cts := List.take_of_length_le (by omega)
    unfold verifyMany
    simp only [Option.bind_eq_bind, Option.pure_def, he2, Option.bind_some, hk, htake, hf, hbalance, hU, hd']
    congr 1
    simp only [Bool.true_and, Bool.and_true]
    rw [decide_eq_decide, smul_smul, cv.smul_eq_zero_iff _ _ (by rw [hs.base_h]; exact hh)]

/-- C46: an honest sender paying amounts in `[0, 2^L)` whose sum is covered by the balance: the transaction is created and accepted
whatever scalar the verifier draws. -/
theorem adcp_many_accepted (cv : Curve G) (H : Bytes → ℤ) (pp : PP G) (a : Account G) (vs : List ℤ) (pkrs : List G) (r : ℤ) (c : ManyCoins)
    (k : Nat) (ha : Sane cv pp a) (h1 : pkrs.length = vs.length) (h2 : c.legs.length = vs.length)
    (hs : SizedMany pp c.bullet (vs.length + 1) k) (hh : pp.enc.h ≠ 0) (hv : ∀ v ∈ vs, 0 ≤ v ∧ v < 2 ^ pp.bullet.rangeLen)
    (hsum : vs.sum ≤ a.m) (hm : a.m - vs.sum < 2 ^ pp.bullet.rangeLen) :
    ∃ ctx, createMany cv H pp a vs pkrs r c = some ctx ∧ ctx.pks = a.pk ∧ ctx.pkrs = pkrs ∧
      Legs pp pkrs vs (c.legs.map LegCoins.r) ctx.transfers ∧ ctx.senderTransfer = Twisted.enc pp.enc a.pk vs.sum r ∧
      (GoodMany cv H pp ctx → ∀ s, verifyMany cv H pp s ctx = some true) := by
  obtain ⟨cts, hc, hl⟩ := makeLegs_spec pp vs pkrs c.legs h1 h2
  have hkk : a.pk = Twisted.keyGen pp.enc a.sk := ha.key
  obtain ⟨ctx, tb, hf, p1, p2, p3, p4, p5, p6⟩ := adcp_many_finish cv H pp a vs pkrs cts (Twisted.enc pp.enc a.pk vs.sum r) vs.sum r c k ha hl
    (by rw [hkk]; exact Twisted.twisted_enc_holds cv pp.enc a.sk vs.sum r ha.ne) (by simp only [Twisted.enc, msm_two]) hs hh
  refine ⟨ctx, ?_, p1, p2, p3 ▸ hl, p4, fun hg s => ?_⟩
  · unfold createMany
    simp only [foldl_add, zero_add, hc, Option.bind_eq_bind, Option.bind_some]
    exact hf
  · rw [p6 hg s, Finset.sum_eq_zero]
    · simp
    · intro j hj
      have hj' := Finset.mem_range.1 hj
      have : Bullet.excess pp.bullet.rangeLen (((vs ++ [a.m - vs.sum])[j]?).getD 0) = 0 := by
        rw [Bullet.excess_eq_zero_iff, List.getElem?_append]
        split_ifs with hlt
        · rw [List.getElem?_eq_getElem hlt, Option.getD_some]
          exact hv _ (List.getElem_mem hlt)
        · have : j - vs.length = 0 := by omega
          rw [this]
          simp only [List.getElem?_cons_zero, Option.getD_some]
          omega
      rw [this, mul_zero]

/-- The sender's ciphertext of the attack: the second component is the honest one, the first is chosen such that the owner of `sk` decrypts
the pair to `v'` instead of `V`. -/
def forgedOut (pp : PP G) (sk V v' r : ℤ) : CT G := ⟨sk • (r • pp.enc.g + (V - v') • pp.enc.h), r • pp.enc.g + V • pp.enc.h⟩

theorem forgedOut_holds (cv : Curve G) (pp : PP G) (sk V v' r : ℤ) (hsk : ¬ (cv.order : ℤ) ∣ sk) :
    Twisted.Holds cv pp.enc sk (forgedOut pp sk V v' r) v' := by
  simp only [Twisted.Holds, Twisted.decPoint, forgedOut, Twisted.inv_smul_smul cv sk hsk]
  module

/-- C46 fails: coins out of nothing. `VerifyCTx` checks that the second components of the sender's and the receivers' ciphertexts balance,
but nothing about the first component of the sender's ciphertext. A sender using its own key pays `vs` to the receivers while being debited
any `v'` with `0 ≤ balance − v' < 2^L` — nothing, or a negative amount — and the transaction is accepted whatever scalar the verifier draws. -/
theorem adcp_many_mint (cv : Curve G) (H : Bytes → ℤ) (pp : PP G) (a : Account G) (vs : List ℤ) (pkrs : List G) (r v' : ℤ) (c : ManyCoins)
    (k : Nat) (ha : Sane cv pp a) (h1 : pkrs.length = vs.length) (h2 : c.legs.length = vs.length)
    (hs : SizedMany pp c.bullet (vs.length + 1) k) (hh : pp.enc.h ≠ 0) (hv : ∀ v ∈ vs, 0 ≤ v ∧ v < 2 ^ pp.bullet.rangeLen)
    (h0 : 0 ≤ a.m - v') (hm : a.m - v' < 2 ^ pp.bullet.rangeLen) :
    ∃ ctx, ctx.pks = a.pk ∧ ctx.pkrs = pkrs ∧ ctx.senderBalance = a.balance ∧ Legs pp pkrs vs (c.legs.map LegCoins.r) ctx.transfers ∧
      Twisted.Holds cv pp.enc a.sk ctx.senderTransfer v' ∧ (GoodMany cv H pp ctx → ∀ s, verifyMany cv H pp s ctx = some true) := by
  obtain ⟨cts, hc, hl⟩ := makeLegs_spec pp vs pkrs c.legs h1 h2
  obtain ⟨ctx, tb, hf, p1, p2, p3, p4, p5, p6⟩ := adcp_many_finish cv H pp a vs pkrs cts (forgedOut pp a.sk vs.sum v' r) v' r c k ha hl
    (forgedOut_holds cv pp a.sk vs.sum v' r ha.ne) rfl hs hh
  refine ⟨ctx, p1, p2, p5, p3 ▸ hl, p4 ▸ forgedOut_holds cv pp a.sk vs.sum v' r ha.ne, fun hg s => ?_⟩
  rw [p6 hg s, Finset.sum_eq_zero]
  · simp
  · intro j hj
    have hj' := Finset.mem_range.1 hj
    have : Bullet.excess pp.bullet.rangeLen (((vs ++ [a.m - v'])[j]?).getD 0) = 0 := by
      rw [Bullet.excess_eq_zero_iff, List.getElem?_append]
      split_ifs with hlt
      · rw [List.getElem?_eq_getElem hlt, Option.getD_some]
        exact hv _ (List.getElem_mem hlt)
      · have : j - vs.length = 0 := by omega
        rw [this]
        simp only [List.getElem?_cons_zero, Option.getD_some]
        omega
    rw [this, mul_zero]

/-! ### Applying -/

/-- Every receiver's account is in order, matches its key, and the tables are ready for its new balance. -/
inductive Payable (cv : Curve G) (pp : PP G) (env : DecEnv G) : List (List (Nat × Bool)) → List (Account G) → List G → List ℤ → Prop
  | nil (ss : List (List (Nat × Bool))) (pkrs : List G) (vs : List ℤ) : Payable cv pp env ss [] pkrs vs
  | cons (sched : List (Nat × Bool)) (ss : List (List (Nat × Bool))) (a : Account G) (as : List (Account G)) (pkrs : List G) (v : ℤ)
      (vs : List ℤ) (n : Nat) : Sane cv pp a → a.m + v = n → n < 2 ^ env.msgLen → Ready cv env pp.enc.h sched n →
      Payable cv pp env ss as pkrs vs → Payable cv pp env (sched :: ss) (a :: as) (a.pk :: pkrs) (v :: vs)

theorem creditAll_spec (cv : Curve G) (pp : PP G) (env : DecEnv G) (ss : List (List (Nat × Bool))) (as : List (Account G)) (pkrs : List G)
    (vs : List ℤ) (hp : Payable cv pp env ss as pkrs vs) (rs : List ℤ) (cts : List (Twisted.MRCT G)) (hl : Legs pp pkrs vs rs cts) :
    ∃ as', creditAll cv env ss as cts = (as', some as') ∧ as'.map Account.m = List.zipWith (· + ·) (as.map Account.m) vs ∧
      (∀ a ∈ as', Sane cv pp a) ∧ as'.map Account.pk = as.map Account.pk := by
  induction hp generalizing rs cts with
  | nil => exact ⟨[], by unfold creditAll; rfl, by simp, by simp, rfl⟩
  | cons sched ss a as pkrs v vs n hsane hn hlt hready _ ih =>
    rcases hl with _ | ⟨_, _, r, _, _, rs, cts, hl⟩
    obtain ⟨as', h1, h2, h3, h4⟩ := ih rs cts hl
    have e : Twisted.Holds cv pp.enc a.sk (a.balance.add ⟨r • a.pk, (Twisted.encMulti pp.enc [a.pk, pp.pka] v r).Y⟩) n := by
      have hY : (Twisted.encMulti pp.enc [a.pk, pp.pka] v r).Y = r • pp.enc.g + v • pp.enc.h := rfl
      rw [Twisted.Holds, decPoint_add, hY, hsane.key, leg cv pp a.sk v r hsane.ne, hsane.bal, ← hn]
      module
    have hcr := credit_runs cv pp ⟨env, sched, sched⟩ a _ n hready hlt e
    refine ⟨{ a with balance := a.balance.add ⟨r • a.pk, (Twisted.encMulti pp.enc [a.pk, pp.pka] v r).Y⟩, m := n } :: as', ?_, ?_, ?_, ?_⟩
    · unfold creditAll
      have hX : (Twisted.encMulti pp.enc [a.pk, pp.pka] v r).vecX[0]? = some (r • a.pk) := rfl
      simp only [hX, hcr, h1, Option.map_some]
    · simp [h2, hn]
    · intro x hx
      rcases List.mem_cons.1 hx with rfl | hx
      · exact ⟨hsane.key, hsane.ne, e⟩
      · exact h3 x hx
    · simp [h4]

theorem receiversMatch_payable (cv : Curve G) (pp : PP G) (env : DecEnv G) (ss : List (List (Nat × Bool))) (as : List (Account G))
    (pkrs : List G) (vs : List ℤ) (hp : Payable cv pp env ss as pkrs vs) : receiversMatch as pkrs = some true := by
  induction hp with
  | nil => unfold receiversMatch; rfl
  | cons sched ss a as pkrs v vs n _ _ _ _ _ ih => unfold receiversMatch; simp [ih]

/-- C46, what `Miner` does with an accepted transaction, for every account list it is given (complete, or only a part of the receivers):
the sender is debited by the plaintext of its own ciphertext, the *listed* receivers are credited with their amounts. -/
theorem adcp_many_effect (cv : Curve G) (H : Bytes → ℤ) (pp : PP G) (d : DecRun G) (ss : List (List (Nat × Bool))) (s : ℤ) (ctx : ToMany G)
    (snd : Account G) (rcvs : List (Account G)) (vs rs : List ℤ) (v' : ℤ) (ms : Nat) (hok : verifyMany cv H pp s ctx = some true)
    (hs : Sane cv pp snd) (hpk : ctx.pks = snd.pk) (hl : Legs pp ctx.pkrs vs rs ctx.transfers)
    (hout : Twisted.Holds cv pp.enc snd.sk ctx.senderTransfer v') (hms : snd.m - v' = ms) (bs : ms < 2 ^ d.env.msgLen)
    (hr : Ready cv d.env pp.enc.h d.sched1 ms) (hp : Payable cv pp d.env ss rcvs ctx.pkrs vs) :
    ∃ snd' rcvs', minerMany cv H pp d ss s ctx snd rcvs = some (true, snd', rcvs') ∧ snd'.m = snd.m - v' ∧ snd'.sn = snd.sn + 1 ∧
      rcvs'.map Account.m = List.zipWith (· + ·) (rcvs.map Account.m) vs ∧ Sane cv pp snd' ∧ (∀ a ∈ rcvs', Sane cv pp a) ∧
      rcvs'.map Account.pk = rcvs.map Account.pk := by
  obtain ⟨as', h1, h2, h3, h4⟩ := creditAll_spec cv pp d.env ss rcvs ctx.pkrs vs hp rs ctx.transfers hl
  have e1 : Twisted.Holds cv pp.enc snd.sk (snd.balance.sub ctx.senderTransfer) ms := by
    unfold Twisted.Holds at *
    rw [decPoint_sub, hout, hs.bal, ← hms, sub_smul]
  have hd := debit_runs cv pp d { snd with sn := snd.sn + 1 } ctx.senderTransfer ms hr bs e1
  refine ⟨{ snd with sn := snd.sn + 1, balance := snd.balance.sub ctx.senderTransfer, m := ms }, as', ?_, hms.symm, rfl, h2,
    ⟨hs.key, hs.ne, e1⟩, h3, h4⟩
  unfold minerMany updateMany
  rw [if_neg (by simpa using hpk), receiversMatch_payable cv pp d.env ss rcvs ctx.pkrs vs hp]
  simp [hok, hd, h1]

theorem zipWith_add_sum (as vs : List ℤ) (h : as.length ≤ vs.length) :
    (List.zipWith (· + ·) as vs).sum = as.sum + (vs.take as.length).sum := by
  induction as generalizing vs with
  | nil => simp
  | cons a as ih =>
    rcases vs with _ | ⟨v, vs⟩
    · simp at h
    simp only [List.zipWith_cons_cons, List.sum_cons, List.length_cons, List.take_succ_cons, ih vs (by simpa using h)]
    ring

/-- C46: the honest transaction, given to `Miner` with the accounts of all receivers: everybody is paid and the total is unchanged. -/
theorem adcp_many_honest (cv : Curve G) (H : Bytes → ℤ) (pp : PP G) (d : DecRun G) (ss : List (List (Nat × Bool))) (s : ℤ) (snd : Account G)
    (rcvs : List (Account G)) (vs : List ℤ) (r : ℤ) (c : ManyCoins) (k ms : Nat) (hs : Sane cv pp snd)
    (h1 : rcvs.length = vs.length) (h2 : c.legs.length = vs.length) (hz : SizedMany pp c.bullet (vs.length + 1) k) (hh : pp.enc.h ≠ 0)
    (hv : ∀ v ∈ vs, 0 ≤ v ∧ v < 2 ^ pp.bullet.rangeLen) (hms : snd.m - vs.sum = ms) (hm : ms < 2 ^ pp.bullet.rangeLen)
    (bs : ms < 2 ^ d.env.msgLen) (hr : Ready cv d.env pp.enc.h d.sched1 ms)
    (hp : Payable cv pp d.env ss rcvs (rcvs.map Account.pk) vs) :
    ∃ ctx, createMany cv H pp snd vs (rcvs.map Account.pk) r c = some ctx ∧ (GoodMany cv H pp ctx →
      ∃ snd' rcvs', minerMany cv H pp d ss s ctx snd rcvs = some (true, snd', rcvs') ∧ snd'.m = snd.m - vs.sum ∧
        rcvs'.map Account.m = List.zipWith (· + ·) (rcvs.map Account.m) vs ∧
        snd'.m + totalCoins rcvs' = snd.m + totalCoins rcvs) := by
  have hm' : (ms : ℤ) < 2 ^ pp.bullet.rangeLen := by exact_mod_cast hm
  obtain ⟨ctx, hc, p1, p2, p3, p4, p5⟩ := adcp_many_accepted cv H pp snd vs (rcvs.map Account.pk) r c k hs (by simpa using h1) h2 hz hh hv
    (by omega) (by omega)
  refine ⟨ctx, hc, fun hg => ?_⟩
  have hout : Twisted.Holds cv pp.enc snd.sk ctx.senderTransfer vs.sum := by
    have hkk : snd.pk = Twisted.keyGen pp.enc snd.sk := hs.key
    rw [p4, hkk]; exact Twisted.twisted_enc_holds cv pp.enc snd.sk vs.sum r hs.ne
  obtain ⟨snd', rcvs', q1, q2, -, q3, -⟩ := adcp_many_effect cv H pp d ss s ctx snd rcvs vs _ vs.sum ms (p5 hg s) hs p1 (p2 ▸ p3) hout hms bs
    hr (p2 ▸ hp)
  refine ⟨snd', rcvs', q1, q2, q3, ?_⟩
  unfold totalCoins
  rw [q3, zipWith_add_sum _ _ (by simp [h1]), q2, List.length_map, List.take_of_length_le (by omega)]
  ring

/-- C46 fails: a shorter account list is accepted by `Miner`. The sender is debited in full, the receivers that are not listed get nothing:
the total of the accounts falls by their amounts. -/
theorem adcp_many_short_list (cv : Curve G) (H : Bytes → ℤ) (pp : PP G) (d : DecRun G) (ss : List (List (Nat × Bool))) (s : ℤ)
    (ctx : ToMany G) (snd : Account G) (rcvs : List (Account G)) (vs rs : List ℤ) (ms : Nat) (hok : verifyMany cv H pp s ctx = some true)
    (hs : Sane cv pp snd) (hpk : ctx.pks = snd.pk) (hl : Legs pp ctx.pkrs vs rs ctx.transfers)
    (hout : Twisted.Holds cv pp.enc snd.sk ctx.senderTransfer vs.sum) (hms : snd.m - vs.sum = ms) (bs : ms < 2 ^ d.env.msgLen)
    (hr : Ready cv d.env pp.enc.h d.sched1 ms) (hp : Payable cv pp d.env ss rcvs ctx.pkrs vs) (hlen : rcvs.length ≤ vs.length) :
    ∃ snd' rcvs', minerMany cv H pp d ss s ctx snd rcvs = some (true, snd', rcvs') ∧
      snd'.m + totalCoins rcvs' = snd.m + totalCoins rcvs - (vs.drop rcvs.length).sum := by
  obtain ⟨snd', rcvs', q1, q2, -, q3, -⟩ := adcp_many_effect cv H pp d ss s ctx snd rcvs vs rs vs.sum ms hok hs hpk hl hout hms bs hr hp
  refine ⟨snd', rcvs', q1, ?_⟩
  unfold totalCoins
  rw [q3, zipWith_add_sum _ _ (by simpa using hlen), q2, List.length_map]
  have : (vs.take rcvs.length).sum + (vs.drop rcvs.length).sum = vs.sum := List.sum_take_add_sum_drop vs rcvs.length
  linarith

/-- C46 fails: a longer account list makes `Miner` read past the end of `vec_pkr`. -/
theorem adcp_many_long_list (cv : Curve G) (H : Bytes → ℤ) (pp : PP G) (d : DecRun G) (ss : List (List (Nat × Bool))) (s : ℤ)
    (ctx : ToMany G) (snd : Account G) (rcvs extra : List (Account G)) (he : extra ≠ []) (hpk : ctx.pks = snd.pk)
    (hm : ctx.pkrs = rcvs.map Account.pk) : minerMany cv H pp d ss s ctx snd (rcvs ++ extra) = none := by
  have key : ∀ l : List (Account G), receiversMatch (l ++ extra) (l.map Account.pk) = none := by
    intro l
    induction l with
    | nil =>
      rcases extra with _ | ⟨x, t⟩
      · exact absurd rfl he
      · rfl
    | cons a t ih => simp [receiversMatch, ih]
  have : receiversMatch (rcvs ++ extra) ctx.pkrs = none := by rw [hm]; exact key rcvs
  unfold minerMany
  rw [if_neg (by simpa using hpk), this]
  rfl

/-- C46: the amounts `SuperviseCTx` reads are the receivers' amounts. -/
theorem adcp_many_supervise (cv : Curve G) (pp : PP G) (env : DecEnv G) (ska : ℤ) (hk : pp.pka = ska • pp.enc.g)
    (hne : ¬ (cv.order : ℤ) ∣ ska) (pkrs : List G) (ns : List Nat) (rs : List ℤ) (cts : List (Twisted.MRCT G)) (ss : List (List (Nat × Bool)))
    (hl : Legs pp pkrs (ns.map (Nat.cast : ℕ → ℤ)) rs cts) (hlen : ss.length = ns.length)
    (hr : ∀ n ∈ ns, n < 2 ^ env.msgLen ∧ ∀ sched ∈ ss, Ready cv env pp.enc.h sched n) :
    superviseMany cv env ska ss pkrs cts = some (ns.map (Nat.cast : ℕ → ℤ)) := by
  induction ns generalizing pkrs rs cts ss with
  | nil =>
    generalize hv : List.map (Nat.cast : ℕ → ℤ) [] = vs at *
    cases hl with
    | nil => unfold superviseMany; rfl
    | cons => simp at hv
  | cons n ns ih =>
    rcases ss with _ | ⟨sched, ss⟩
    · simp at hlen
    generalize hv : List.map (Nat.cast : ℕ → ℤ) (n :: ns) = vs at hl
    cases hl with
    | nil => simp at hv
    | cons pkr v r pkrs vs rs cts hl =>
      simp only [List.map_cons, List.cons.injEq] at hv
      obtain ⟨rfl, rfl⟩ := hv
      have hrest := ih pkrs rs cts ss hl (by simpa using hlen)
        (fun n' hn' => ⟨(hr n' (List.mem_cons_of_mem _ hn')).1, fun sc hsc => (hr n' (List.mem_cons_of_mem _ hn')).2 sc (List.mem_cons_of_mem _ hsc)⟩)
      have hdec : Twisted.dec cv env sched ska ⟨r • pp.pka, (Twisted.encMulti pp.enc [pkr, pp.pka] n r).Y⟩ = some (n : ℤ) := by
        have := hr n List.mem_cons_self
        refine search_finds cv env pp.enc.h sched n (this.2 sched List.mem_cons_self) this.1 _ ?_
        have hY : (Twisted.encMulti pp.enc [pkr, pp.pka] (n : ℤ) r).Y = r • pp.enc.g + (n : ℤ) • pp.enc.h := rfl
        rw [hY, hk]
        exact leg cv pp ska n r hne
      have hX : (Twisted.encMulti pp.enc [pkr, pp.pka] (n : ℤ) r).vecX[1]? = some (r • pp.pka) := rfl
      unfold superviseMany
      simp [hX, hdec, hrest]

theorem verifyLegs_true (cv : Curve G) (H : Bytes → ℤ) (pp : PP G) : ∀ (pkrs : List G) (cts : List (Twisted.MRCT G))
    (pfs : List (PlaintextEquality.Proof G)) (tr tr' : Bytes), verifyLegs cv H pp pkrs cts pfs tr = some (true, tr') →
    ∀ (i : Nat) (pkr : G), pkrs[i]? = some pkr → ∃ ct pf t t', cts[i]? = some ct ∧ pfs[i]? = some pf ∧
      PlaintextEquality.verify cv pp.enc H ⟨[pkr, pp.pka], ct⟩ t pf = some (true, t')
  | [], _, _, _, _, _, _, _, hi => by simp at hi
  | pkr :: pkrs, ct :: cts, pf :: pfs, tr, tr', h, i, p, hi => by
    unfold verifyLegs at h
    simp only [Option.bind_eq_bind, Option.bind_eq_some_iff, Option.pure_def, Option.some.injEq, Prod.exists, Prod.mk.injEq] at h
    obtain ⟨ok, t1, h1, oks, t2, h2, h3, -⟩ := h
    rw [Bool.and_eq_true] at h3
    obtain ⟨rfl, rfl⟩ := h3
    cases i with
    | zero =>
      simp only [List.getElem?_cons_zero, Option.some.injEq] at hi
      subst hi
      exact ⟨ct, pf, tr, t1, rfl, rfl, h1⟩
    | succ i =>
      rw [List.getElem?_cons_succ] at hi
      exact verifyLegs_true cv H pp pkrs cts pfs t1 t2 h2 i p hi
  | _ :: _, [], _, _, _, h, _, _, _ => by simp [verifyLegs] at h
  | _ :: _, _ :: _, [], _, _, h, _, _, _ => by simp [verifyLegs] at h

/-- **C46** `VerifyCTx` accepts a transaction only if every proof in it is accepted: the one of each receiver on that receiver's key and
ciphertext, and those of the refreshed balance, of the ranges, of the sum and of the refreshing. -/
theorem adcp_many_parts (cv : Curve G) (H : Bytes → ℤ) (pp : PP G) (s : ℤ) (ctx : ToMany G) (h : verifyMany cv H pp s ctx = some true) :
    (∀ (i : Nat) (pkr : G), ctx.pkrs[i]? = some pkr → ∃ ct pf t t', ctx.transfers[i]? = some ct ∧ ctx.pteqs[i]? = some pf ∧
      PlaintextEquality.verify cv pp.enc H ⟨[pkr, pp.pka], ct⟩ t pf = some (true, t')) ∧
    (∃ t, (PlaintextKnowledge.verify cv pp.enc H ⟨ctx.pks, ctx.refresh⟩ t ctx.ptke).1 = true) ∧
    (∃ t t', Bullet.fastVerify cv H pp.bullet ((ctx.transfers.take ctx.pkrs.length).map (·.Y) ++ [ctx.refresh.Y]) s t ctx.bullet = some (true, t')) ∧
    (∃ t, (DLOGKnowledge.verify cv H (balanceInstance pp ctx.senderTransfer.Y ((ctx.transfers.take ctx.pkrs.length).map (·.Y))) t
      ctx.balance).1 = true) ∧
    ∃ t, (DLOGEquality.verify cv H (refreshInstance pp (ctx.senderBalance.sub ctx.senderTransfer) ctx.refresh ctx.pks) (t ++ toSignMany cv ctx)
      ctx.dlogeq).1 = true := by
  unfold verifyMany at h
  simp only [Option.bind_eq_bind, Option.bind_eq_some_iff, Option.pure_def, Option.some.injEq, Bool.and_eq_true, Prod.exists] at h
  obtain ⟨c1, tr1, h1, c3, tr3, h3, ⟨⟨⟨rfl, h5⟩, rfl⟩, h6⟩, h7⟩ := h
  exact ⟨verifyLegs_true cv H pp _ _ _ _ _ h1, ⟨tr1, h5⟩, ⟨_, _, h3⟩, ⟨tr3, h6⟩, ⟨_, h7⟩⟩

theorem verifyMany_balance (cv : Curve G) (H : Bytes → ℤ) (pp : PP G) (s : ℤ) (ctx : ToMany G) (h : verifyMany cv H pp s ctx = some true) :
    ∃ tr, (DLOGKnowledge.verify cv H (balanceInstance pp ctx.senderTransfer.Y ((ctx.transfers.take ctx.pkrs.length).map (·.Y))) tr
      ctx.balance).1 = true := by
  unfold verifyMany at h
  simp only [Option.bind_eq_bind, Option.bind_eq_some_iff, Option.pure_def, Option.some.injEq, Bool.and_eq_true, Prod.exists] at h
  obtain ⟨c1, tr1, h1, c3, tr3, h3, ⟨⟨⟨h4, h5⟩, rfl⟩, h6⟩, h7⟩ := h
  exact ⟨tr3, h6⟩

/-- C46, the part that holds (`_partial`): if the sender's ciphertext is an encryption `Enc(pks, v; r)` and the receivers' ciphertexts are
well-formed, then two accepting balance proofs with the same first message and different challenges give `v ≡ Σ vᵢ`, or the written-out
relation between `g` and `h`. Missing: `VerifyCTx` never establishes the first hypothesis (see `adcp_many_mint`). -/
theorem adcp_many_balance_partial (cv : Curve G) (H H' : Bytes → ℤ) (pp : PP G) (pks : G) (v r : ℤ) (pkrs : List G) (vs rs : List ℤ)
    (cts : List (Twisted.MRCT G)) (hl : Legs pp pkrs vs rs cts) (tr tr' : Bytes) (A : G) (z z' : ℤ)
    (x : DLOGKnowledge.Instance G) (hx : x = balanceInstance pp (Twisted.enc pp.enc pks v r).Y (cts.map (·.Y)))
    (h1 : (DLOGKnowledge.verify cv H x tr ⟨A, z⟩).1 = true) (h2 : (DLOGKnowledge.verify cv H' x tr' ⟨A, z'⟩).1 = true)
    (hne : ¬ (cv.order : ℤ) ∣ DLOGKnowledge.challenge cv H x tr A - DLOGKnowledge.challenge cv H' x tr' A) :
    (cv.order : ℤ) ∣ v - vs.sum ∨
      (¬ (cv.order : ℤ) ∣ v - vs.sum ∧ (v - vs.sum) • pp.enc.h =
        (extract cv z z' (DLOGKnowledge.challenge cv H x tr A) (DLOGKnowledge.challenge cv H' x tr' A) - (r - rs.sum)) • pp.enc.g) := by
  have hw := DLOGKnowledge.dlogKnowledge_special_sound cv H H' x tr tr' A z z' h1 h2 hne
  generalize extract cv _ _ _ _ = w at hw ⊢
  by_cases hd : (cv.order : ℤ) ∣ v - vs.sum
  · exact Or.inl hd
  · refine Or.inr ⟨hd, ?_⟩
    rw [hx] at hw
    simp only [balanceInstance, foldl_sub, (legs_Y hl).2, Twisted.enc, msm_two] at hw
    rw [sub_smul w, ← hw]
    module

/-! ### Examples -/

def exMany : ManyCoins := ⟨[⟨3, 4, 5⟩], 6, 7, 8, exCoins.bullet, 10, 11⟩

theorem exSizedMany : SizedMany exPP exMany.bullet 2 4 := ⟨rfl, rfl, rfl, by decide, by decide, by decide, rfl, rfl⟩

theorem exPayable (v : ℤ) (n : Nat) (h : exBob.m + v = n) (hn : n < 2 ^ 12) :
    Payable Dlog.exCurve exPP exRun.env [exSched] [exBob] [exBob.pk] [v] :=
  Payable.cons exSched [] exBob [] [] v [] n exBob_sane h hn (exReady n) (Payable.nil _ _ _)

/-- The hypotheses of the honest theorem are met: Alice (100) pays 40 to Bob (30). -/
example : ∃ ctx snd' rcvs', createMany Dlog.exCurve (fun _ => 3) exPP exAlice [40] [exBob.pk] 9 exMany = some ctx ∧
    minerMany Dlog.exCurve (fun _ => 3) exPP exRun [exSched] 1 ctx exAlice [exBob] = some (true, snd', rcvs') ∧ snd'.m = 60 ∧
    rcvs'.map Account.m = [70] := by
  obtain ⟨ctx, h1, h2⟩ := adcp_many_honest Dlog.exCurve (fun _ => 3) exPP exRun [exSched] 1 exAlice [exBob] [40] 9 exMany 4 60 exAlice_sane rfl
    rfl exSizedMany (by decide) (by decide) (by decide) (by decide) (by decide) (exReady 60) (exPayable 40 70 (by decide) (by decide))
  obtain ⟨snd', rcvs', h3, h4, h5, -⟩ := h2 fun _ _ _ => Bullet.good_of_hash _ _ (fun _ => by decide) _ _
  exact ⟨ctx, snd', rcvs', h1, h3, h4, h5⟩

/-- The hypothesis of `adcp_many_parts` is met. -/
example : ∃ ctx, verifyMany Dlog.exCurve (fun _ => 3) exPP 1 ctx = some true ∧ ctx.pkrs = [exBob.pk] := by
  obtain ⟨ctx, -, p2, -, -, -, p6⟩ := adcp_many_mint Dlog.exCurve (fun _ => 3) exPP exAlice [40] [exBob.pk] 9 0 exMany 4 exAlice_sane rfl rfl
    exSizedMany (by decide) (by decide) (by decide) (by decide)
  exact ⟨ctx, p6 (fun _ _ _ => Bullet.good_of_hash _ _ (fun _ => by decide) _ _) 1, p2⟩

/-- C46 fails concretely: Alice (100) pays 40 to Bob (30) and still has 100: `Miner` returns true and the total grew from 130 to 170. -/
theorem adcp_many_mint_example : ∃ ctx snd' rcvs',
    minerMany Dlog.exCurve (fun _ => 3) exPP exRun [exSched] 1 ctx exAlice [exBob] = some (true, snd', rcvs') ∧ snd'.m = 100 ∧
    rcvs'.map Account.m = [70] := by
  obtain ⟨ctx, p1, p2, -, p4, p5, p6⟩ := adcp_many_mint Dlog.exCurve (fun _ => 3) exPP exAlice [40] [exBob.pk] 9 0 exMany 4 exAlice_sane rfl rfl
    exSizedMany (by decide) (by decide) (by decide) (by decide)
  have hok := p6 (fun _ _ _ => Bullet.good_of_hash _ _ (fun _ => by decide) _ _) 1
  obtain ⟨snd', rcvs', q1, q2, -, q3, -⟩ := adcp_many_effect Dlog.exCurve (fun _ => 3) exPP exRun [exSched] 1 ctx exAlice [exBob] [40] _ 0 100 hok
    exAlice_sane p1 (p2 ▸ p4) p5 (by decide) (by decide) (exReady 100) (p2 ▸ exPayable 40 70 (by decide) (by decide))
  exact ⟨ctx, snd', rcvs', q1, q2, q3⟩

end Kunlun.ADCP
