import Verif.Model.AdcpLedger
import Verif.Props.AdcpMany
/-!
C97: the account files after an accepted transaction.

`UpdateAccount` writes the sender's file first and then the receivers', each from an object of its own. An account that occurs twice is therefore
left with what the last object says: a sender among its own receivers keeps what it spent, and a receiver that occurs twice loses the first payment.
-/

namespace Kunlun.ADCP

variable {G : Type} [AddCommGroup G] [DecidableEq G]

theorem saveAll_other (f : Ledger G) (l : List (Account G)) (id : Bytes) (h : ∀ a ∈ l, a.identity ≠ id) : f.saveAll l id = f id := by
  induction l generalizing f with
  | nil => rfl
  | cons a l ih =>
    show Ledger.saveAll (f.save a) l id = f id
    rw [ih _ fun b hb => h b (List.mem_cons_of_mem _ hb)]
    unfold Ledger.save
    rw [if_neg (Ne.symm (h a (by simp)))]

/-- A file holds what the last object with its name was. -/
theorem saveAll_last (f : Ledger G) (l1 l2 : List (Account G)) (a : Account G) (h : ∀ b ∈ l2, b.identity ≠ a.identity) :
    f.saveAll (l1 ++ a :: l2) a.identity = some a := by
  unfold Ledger.saveAll
  rw [List.foldl_append, List.foldl_cons]
  have := saveAll_other ((l1.foldl Ledger.save f).save a) l2 a.identity h
  unfold Ledger.saveAll at this
  rw [this]
  unfold Ledger.save
  rw [if_pos rfl]

/-- Every file is named after the account in it. -/
def Named (f : Ledger G) : Prop := ∀ id a, f id = some a → a.identity = id

theorem fetch_spec (f : Ledger G) (hf : Named f) (ids : List Bytes) (as : List (Account G)) (h : f.fetch ids = some as) :
    as.map Account.identity = ids := by
  unfold Ledger.fetch at h
  induction ids generalizing as with
  | nil => simp only [List.mapM_nil, Option.pure_def, Option.some.injEq] at h; subst h; rfl
  | cons id ids ih =>
    simp only [List.mapM_cons, Option.bind_eq_bind, Option.pure_def, Option.bind_eq_some_iff, Option.some.injEq] at h
    obtain ⟨a, ha, as', h', rfl⟩ := h
    rw [List.map_cons, hf id a ha, ih as' h']

theorem creditAll_identity (cv : Curve G) (env : DecEnv G) (ss : List (List (Nat × Bool))) (as as' fs : List (Account G))
    (cts : List (Twisted.MRCT G)) (h : creditAll cv env ss as cts = (fs, some as')) :
    fs = as' ∧ as'.map Account.identity = as.map Account.identity := by
  induction as generalizing ss cts fs as' with
  | nil =>
    unfold creditAll at h
    obtain ⟨h1, h2⟩ := Prod.mk.inj h
    rw [← h1, ← Option.some.inj h2]
    exact ⟨rfl, rfl⟩
  | cons a as ih =>
    match ss, cts with
    | [], _ => simp [creditAll] at h
    | _ :: _, [] => simp [creditAll] at h
    | sched :: ss, ct :: cts =>
      unfold creditAll at h
      split at h
      · simp at h
      · split at h
        · simp at h
        · rename_i a' ha
          obtain ⟨h1, h2⟩ := Prod.mk.inj h
          obtain ⟨as'', h3, rfl⟩ := Option.map_eq_some_iff.1 h2
          obtain ⟨e1, e2⟩ := ih ss as'' (creditAll cv env ss as cts).1 cts (Prod.ext rfl h3)
          rw [← h1, e1]
          exact ⟨rfl, by rw [List.map_cons, List.map_cons, (credit_spec cv _ _ _ _ ha).2.2.2.1, e2]⟩

/-- The hypotheses under which an honest one-to-many transaction is accepted and applied (C46). -/
structure HonestMany (cv : Curve G) (pp : PP G) (d : DecRun G) (ss : List (List (Nat × Bool))) (snd : Account G) (rcvs : List (Account G))
    (vs : List ℤ) (c : ManyCoins) (k ms : Nat) : Prop where
  sane : Sane cv pp snd
  len : rcvs.length = vs.length
  legs : c.legs.length = vs.length
  sized : SizedMany pp c.bullet (vs.length + 1) k
  hh : pp.enc.h ≠ 0
  range : ∀ v ∈ vs, 0 ≤ v ∧ v < 2 ^ pp.bullet.rangeLen
  rest : snd.m - vs.sum = ms
  restRange : ms < 2 ^ pp.bullet.rangeLen
  decRange : ms < 2 ^ d.env.msgLen
  ready : Ready cv d.env pp.enc.h d.sched1 ms
  payable : Payable cv pp d.env ss rcvs (rcvs.map Account.pk) vs

/-- What the files contain after an honest one-to-many transaction: the objects, in the order in which they are saved. -/
theorem ledger_many_run (cv : Curve G) (H : Bytes → ℤ) (pp : PP G) (d : DecRun G) (ss : List (List (Nat × Bool))) (s : ℤ) (f : Ledger G) (hf : Named f)
    (sid : Bytes) (rids : List Bytes) (snd : Account G) (rcvs : List (Account G)) (h1 : f sid = some snd) (h2 : f.fetch rids = some rcvs) (vs : List ℤ)
    (r : ℤ) (c : ManyCoins) (k ms : Nat) (hh : HonestMany cv pp d ss snd rcvs vs c k ms) :
    ∃ ctx, createMany cv H pp snd vs (rcvs.map Account.pk) r c = some ctx ∧ (GoodMany cv H pp ctx → ∃ snd' rcvs',
      ledgerMany cv H pp d ss s ctx f sid rids = some (true, f.saveAll (snd' :: rcvs')) ∧ snd'.identity = sid ∧ rcvs'.map Account.identity = rids ∧
      snd'.m = snd.m - vs.sum ∧ rcvs'.map Account.m = List.zipWith (· + ·) (rcvs.map Account.m) vs) := by
  obtain ⟨ctx, hc, p⟩ := adcp_many_honest cv H pp d ss s snd rcvs vs r c k ms hh.sane hh.len hh.legs hh.sized hh.hh hh.range hh.rest hh.restRange
    hh.decRange hh.ready hh.payable
  refine ⟨ctx, hc, fun hg => ?_⟩
  obtain ⟨snd', rcvs', q1, q2, q3, -⟩ := p hg
  have hu : (updateMany cv d ss ctx snd rcvs).2 = some (snd', rcvs') := by
    unfold minerMany at q1
    simp only [Option.bind_eq_bind, Option.pure_def] at q1
    split at q1
    · simp at q1
    obtain ⟨m, -, q1⟩ := Option.bind_eq_some_iff.1 q1
    split at q1
    · simp at q1
    obtain ⟨ok, -, q1⟩ := Option.bind_eq_some_iff.1 q1
    split at q1
    · obtain ⟨⟨x, y⟩, e, q1⟩ := Option.bind_eq_some_iff.1 q1
      simp only [Option.some.injEq, Prod.mk.injEq, true_and] at q1
      rw [e, q1.1, q1.2]
    · simp at q1
  have hfile : (updateMany cv d ss ctx snd rcvs).1 = snd' :: rcvs' ∧ snd'.identity = snd.identity ∧ rcvs'.map Account.identity = rcvs.map Account.identity := by
    unfold updateMany at hu ⊢
    split at hu
    · simp at hu
    · rename_i x hx
      obtain ⟨y, e, hxy⟩ := Option.map_eq_some_iff.1 hu
      obtain ⟨rfl, rfl⟩ := Prod.mk.inj hxy
      obtain ⟨e1, e2⟩ := creditAll_identity cv d.env ss rcvs y _ ctx.transfers (Prod.ext rfl e)
      refine ⟨?_, (debit_spec cv d _ _ _ hx).2.2.2.1, e2⟩
      rw [← e1]
  refine ⟨snd', rcvs', ?_, by rw [hfile.2.1, hf _ _ h1], by rw [hfile.2.2, fetch_spec f hf _ _ h2], q2, q3⟩
  unfold ledgerMany
  rw [h1, h2]
  simp only [Option.bind_eq_bind, Option.bind_some, q1, if_true, hfile.1, Option.pure_def]

/-- **C97 (what holds).** If sender and receivers are all different, the files hold the debit and every credit, and no other file changes. -/
theorem adcp_ledger_many_partial (cv : Curve G) (H : Bytes → ℤ) (pp : PP G) (d : DecRun G) (ss : List (List (Nat × Bool))) (s : ℤ) (f : Ledger G)
    (hf : Named f) (sid : Bytes) (rids : List Bytes) (snd : Account G) (rcvs : List (Account G)) (h1 : f sid = some snd) (h2 : f.fetch rids = some rcvs)
    (vs : List ℤ) (r : ℤ) (c : ManyCoins) (k ms : Nat) (hh : HonestMany cv pp d ss snd rcvs vs c k ms) (hd : (sid :: rids).Nodup) :
    ∃ ctx, createMany cv H pp snd vs (rcvs.map Account.pk) r c = some ctx ∧ (GoodMany cv H pp ctx → ∃ f',
      ledgerMany cv H pp d ss s ctx f sid rids = some (true, f') ∧ (f' sid).map Account.m = some (snd.m - vs.sum) ∧
      (∀ (i : Nat) (id : Bytes) (a : Account G) (v : ℤ), rids[i]? = some id → rcvs[i]? = some a → vs[i]? = some v → (f' id).map Account.m = some (a.m + v)) ∧
      ∀ id, id ∉ sid :: rids → f' id = f id) := by
  obtain ⟨ctx, hc, p⟩ := ledger_many_run cv H pp d ss s f hf sid rids snd rcvs h1 h2 vs r c k ms hh
  refine ⟨ctx, hc, fun hg => ?_⟩
  obtain ⟨snd', rcvs', q1, q2, q3, q4, q5⟩ := p hg
  obtain ⟨d1, d2⟩ := List.nodup_cons.1 hd
  refine ⟨_, q1, ?_, ?_, ?_⟩
  · have := saveAll_last f [] rcvs' snd' (by
      intro b hb e
      apply d1
      rw [← q3, ← q2, ← e]
      exact List.mem_map_of_mem hb)
    rw [List.nil_append, q2] at this
    rw [this, Option.map_some, q4]
  · intro i id a v hi ha hv
    have hl : i < rcvs'.length := by
      have := (List.getElem?_eq_some_iff.1 hi).1
      rwa [← q3, List.length_map] at this
    have e1 : rcvs'[i].identity = id := by
      have : (rcvs'.map Account.identity)[i]? = some id := by rw [q3, hi]
      rw [List.getElem?_map, List.getElem?_eq_getElem hl] at this
      exact Option.some.inj this
    have e2 : rcvs'[i].m = a.m + v := by
      have : (rcvs'.map Account.m)[i]? = some (a.m + v) := by
        rw [q5, List.getElem?_zipWith, List.getElem?_map, ha, hv]
        rfl
      rw [List.getElem?_map, List.getElem?_eq_getElem hl] at this
      exact Option.some.inj this
    have hsplit : snd' :: rcvs' = (snd' :: rcvs'.take i) ++ rcvs'[i] :: rcvs'.drop (i + 1) := by
      rw [List.cons_append, List.cons_inj_right, List.getElem_cons_drop, List.take_append_drop]
    rw [hsplit, ← e1, saveAll_last, Option.map_some, e2]
    intro b hb e
    have hn : (rcvs'.map Account.identity).Nodup := by rw [q3]; exact d2
    rw [← List.take_append_drop i rcvs', ← List.getElem_cons_drop (h := hl), List.map_append, List.map_cons] at hn
    have := (List.nodup_cons.1 (List.nodup_append.1 hn).2.1).1
    exact this (by rw [← e]; exact List.mem_map_of_mem hb)
  · intro id hid
    refine saveAll_other f _ id fun a ha e => hid ?_
    rcases List.mem_cons.1 ha with rfl | ha
    · rw [← e, q2]; simp
    · refine List.mem_cons_of_mem _ ?_
      rw [← q3, ← e]
      exact List.mem_map_of_mem ha

/-- **C97 (violation)** A sender that names itself as last receiver: the honest transaction is accepted, and the sender's file holds the old balance
*plus* the amount sent to itself; nothing was debited. -/
theorem adcp_ledger_self_pay (cv : Curve G) (H : Bytes → ℤ) (pp : PP G) (d : DecRun G) (ss : List (List (Nat × Bool))) (s : ℤ) (f : Ledger G)
    (hf : Named f) (sid : Bytes) (rids : List Bytes) (snd : Account G) (rcvs : List (Account G)) (h1 : f sid = some snd)
    (h2 : f.fetch (rids ++ [sid]) = some rcvs) (vs : List ℤ) (v r : ℤ) (c : ManyCoins) (k ms : Nat)
    (hh : HonestMany cv pp d ss snd rcvs (vs ++ [v]) c k ms) :
    ∃ ctx, createMany cv H pp snd (vs ++ [v]) (rcvs.map Account.pk) r c = some ctx ∧ (GoodMany cv H pp ctx → ∃ f',
      ledgerMany cv H pp d ss s ctx f sid (rids ++ [sid]) = some (true, f') ∧ (f' sid).map Account.m = some (snd.m + v)) := by
  obtain ⟨ctx, hc, p⟩ := ledger_many_run cv H pp d ss s f hf sid (rids ++ [sid]) snd rcvs h1 h2 (vs ++ [v]) r c k ms hh
  refine ⟨ctx, hc, fun hg => ?_⟩
  obtain ⟨snd', rcvs', q1, q2, q3, q4, q5⟩ := p hg
  refine ⟨_, q1, ?_⟩
  have hne : rcvs' ≠ [] := by rintro rfl; simp at q3
  have e1 : (rcvs'.getLast hne).identity = sid := by
    have := congrArg List.getLast? q3
    rw [List.getLast?_map, List.getLast?_eq_some_getLast hne, List.getLast?_append] at this
    simpa using this
  -- the last receiver's object is a copy of the sender's account
  have hr : rcvs.getLast? = some snd := by
    unfold Ledger.fetch at h2
    rw [List.mapM_append] at h2
    simp only [List.mapM_cons, List.mapM_nil, Option.bind_eq_bind, Option.pure_def, Option.bind_eq_some_iff, Option.some.injEq] at h2
    obtain ⟨x, -, y, ⟨z, hz, t, rfl, rfl⟩, rfl⟩ := h2
    rw [h1] at hz
    obtain rfl := Option.some.inj hz
    simp
  have e2 : (rcvs'.getLast hne).m = snd.m + v := by
    have := congrArg List.getLast? q5
    rw [List.getLast?_map, List.getLast?_eq_some_getLast hne] at this
    obtain ⟨pre, hpre⟩ : ∃ pre, rcvs = pre ++ [snd] := by
      obtain ⟨pre, x, rfl⟩ := List.eq_nil_or_concat' rcvs |>.resolve_left (by rintro rfl; simp at hr)
      refine ⟨pre, ?_⟩
      rw [List.getLast?_append] at hr
      simp at hr
      rw [hr]
    have hl : pre.length = vs.length := by
      have := hh.len
      rw [hpre] at this
      simpa using this
    rw [hpre, List.map_append, List.map_cons, List.map_nil, List.zipWith_append (by simpa using hl)] at this
    simpa using this
  have hsplit : snd' :: rcvs' = (snd' :: rcvs'.dropLast) ++ rcvs'.getLast hne :: [] := by
    rw [List.cons_append, List.dropLast_append_getLast]
  rw [hsplit, ← e1, saveAll_last f _ [] _ (by simp), Option.map_some, e2]

/-- **C97 (violation)** A receiver that occurs twice gets only the second amount. -/
theorem adcp_ledger_twice (cv : Curve G) (H : Bytes → ℤ) (pp : PP G) (d : DecRun G) (ss : List (List (Nat × Bool))) (s : ℤ) (f : Ledger G)
    (hf : Named f) (sid rid : Bytes) (snd rcv : Account G) (h1 : f sid = some snd) (h2 : f rid = some rcv) (v w r : ℤ) (x : Bytes)
    (a : Account G) (hx : f x = some a) (u : ℤ) (c : ManyCoins) (k ms : Nat) (hh : HonestMany cv pp d ss snd [a, rcv, rcv] [u, v, w] c k ms) :
    ∃ ctx, createMany cv H pp snd [u, v, w] [a.pk, rcv.pk, rcv.pk] r c = some ctx ∧ (GoodMany cv H pp ctx → ∃ f',
      ledgerMany cv H pp d ss s ctx f sid [x, rid, rid] = some (true, f') ∧ (f' rid).map Account.m = some (rcv.m + w)) := by
  obtain ⟨ctx, hc, p⟩ := ledger_many_run cv H pp d ss s f hf sid [x, rid, rid] snd [a, rcv, rcv] h1
    (by simp [Ledger.fetch, h2, hx]) [u, v, w] r c k ms hh
  refine ⟨ctx, hc, fun hg => ?_⟩
  obtain ⟨snd', rcvs', q1, q2, q3, q4, q5⟩ := p hg
  obtain ⟨a', b', b'', rfl⟩ := List.length_eq_three.1 (by have := congrArg List.length q3; simpa using this)
  simp only [List.map_cons, List.map_nil, List.cons.injEq, and_true, List.zipWith_cons_cons, List.zipWith_nil_right] at q3 q5
  refine ⟨_, q1, ?_⟩
  have := saveAll_last f [snd', a', b'] [] b'' (by simp)
  rw [q3.2.2] at this
  simp only [List.cons_append, List.nil_append] at this
  rw [this, Option.map_some, q5.2.2]

/-- **C97 (what holds, one receiver).** Different sender and receiver: both files are written with the new balances, no other file changes. -/
theorem adcp_ledger_one_partial (cv : Curve G) (H : Bytes → ℤ) (pp : PP G) (d : DecRun G) (s : ℤ) (f : Ledger G) (hf : Named f) (sid rid : Bytes)
    (hne : sid ≠ rid) (snd rcv : Account G) (f1 : f sid = some snd) (f2 : f rid = some rcv) (v : ℤ) (c : Coins) (k ms mr : Nat)
    (hsnd : Sane cv pp snd) (hrcv : Sane cv pp rcv) (hs : Gadget.Sized ⟨pp.enc, pp.bullet⟩ c.bullet k) (hh : pp.enc.h ≠ 0) (h0 : 0 ≤ v)
    (hm : snd.m < 2 ^ pp.bullet.rangeLen) (hms : snd.m - v = ms) (hmr : rcv.m + v = mr) (bs : ms < 2 ^ d.env.msgLen) (br : mr < 2 ^ d.env.msgLen)
    (rs : Ready cv d.env pp.enc.h d.sched1 ms) (rr : Ready cv d.env pp.enc.h d.sched2 mr) :
    ∃ ctx, createCTx cv H pp snd v rcv.pk c = some ctx ∧ (GoodCTx cv H pp ctx → ∃ f',
      ledgerOne cv H pp d s ctx f sid rid = some (true, f') ∧ (f' sid).map Account.m = some (snd.m - v) ∧
      (f' rid).map Account.m = some (rcv.m + v) ∧ ∀ id, id ≠ sid → id ≠ rid → f' id = f id) := by
  obtain ⟨ctx, hc, h1, h2, -, h4, h5⟩ := adcp_create_accepted cv H pp snd v rcv.pk c k hsnd hs hh h0 (by omega) hm
  refine ⟨ctx, hc, fun hg => ?_⟩
  obtain ⟨snd', rcv', hu, -, -, m1, m2, -⟩ := adcp_update_effect cv pp d ctx snd rcv v c.r ms mr hsnd hrcv h1 h2 h4 hms hmr bs br rs rr
  have hi : snd'.identity = sid ∧ rcv'.identity = rid := by
    unfold updateAccount at hu
    split at hu
    · split at hu
      · simp at hu
      · rename_i x hx
        split at hu
        · simp at hu
        · rename_i y hy
          simp only [Prod.mk.injEq, Option.some.injEq] at hu
          rw [← hu.2.1, ← hu.2.2, (debit_spec cv d _ _ _ hx).2.2.2.1, (credit_spec cv d _ _ _ hy).2.2.2.1]
          exact ⟨hf _ _ f1, hf _ _ f2⟩
    · simp at hu
  refine ⟨f.saveAll [snd', rcv'], ?_, ?_, ?_, ?_⟩
  · unfold ledgerOne miner
    simp [h1, h2, h5 hg s, hu, f1, f2]
  · have := saveAll_last f [] [rcv'] snd' (by simp only [List.mem_singleton, forall_eq]; rw [hi.1, hi.2]; exact hne.symm)
    rw [List.nil_append, hi.1] at this
    rw [this, Option.map_some, m1]
  · have := saveAll_last f [snd'] [] rcv' (by simp)
    rw [hi.2] at this
    rw [show [snd', rcv'] = [snd'] ++ rcv' :: [] from rfl, this, Option.map_some, m2]
  · intro id e1 e2
    refine saveAll_other f _ id fun a ha => ?_
    simp only [List.mem_cons, List.not_mem_nil, or_false] at ha
    rcases ha with rfl | rfl
    · rw [hi.1]; exact e1.symm
    · rw [hi.2]; exact e2.symm

/-! ### Examples -/

def exLedger : Ledger (ZMod 8209) := fun id => if id = [97] then some exAlice else if id = [98] then some exBob else none

theorem exLedger_named : Named exLedger := by
  intro id a h
  unfold exLedger at h
  split at h
  · obtain rfl := Option.some.inj h
    rename_i e; rw [e]; rfl
  · split at h
    · obtain rfl := Option.some.inj h
      rename_i e; rw [e]; rfl
    · cases h

theorem exGoodMany (ctx : ToMany (ZMod 8209)) : GoodMany Dlog.exCurve (fun _ => 3) exPP ctx :=
  fun _ _ _ => Bullet.good_of_hash _ _ (fun _ => by decide) _ _

/-- Alice (100) pays 40 to Bob (30): the files say 60 and 70. -/
example : ∃ ctx f', createMany Dlog.exCurve (fun _ => 3) exPP exAlice [40] [exBob.pk] 9 exMany = some ctx ∧
    ledgerMany Dlog.exCurve (fun _ => 3) exPP exRun [exSched] 1 ctx exLedger [97] [[98]] = some (true, f') ∧
    (f' [97]).map Account.m = some 60 ∧ (f' [98]).map Account.m = some 70 := by
  obtain ⟨ctx, h1, h2⟩ := adcp_ledger_many_partial Dlog.exCurve (fun _ => 3) exPP exRun [exSched] 1 exLedger exLedger_named [97] [[98]] exAlice
    [exBob] rfl rfl [40] 9 exMany 4 60 ⟨exAlice_sane, rfl, rfl, exSizedMany, by decide, by decide, by decide, by decide, by decide, exReady 60,
      exPayable 40 70 (by decide) (by decide)⟩ (by decide)
  obtain ⟨f', h3, h4, h5, -⟩ := h2 (exGoodMany ctx)
  exact ⟨ctx, f', h1, h3, h4, h5 0 [98] exBob 40 rfl rfl rfl⟩

/-- C97 fails concretely: Alice (100) pays 40 to herself with a one-to-many transaction and has 140. -/
theorem adcp_ledger_self_pay_example : ∃ ctx f', createMany Dlog.exCurve (fun _ => 3) exPP exAlice [40] [exAlice.pk] 9 exMany = some ctx ∧
    ledgerMany Dlog.exCurve (fun _ => 3) exPP exRun [exSched] 1 ctx exLedger [97] [[97]] = some (true, f') ∧
    (f' [97]).map Account.m = some 140 := by
  obtain ⟨ctx, h1, h2⟩ := adcp_ledger_self_pay Dlog.exCurve (fun _ => 3) exPP exRun [exSched] 1 exLedger exLedger_named [97] [] exAlice [exAlice] rfl
    rfl [] 40 9 exMany 4 60 ⟨exAlice_sane, rfl, rfl, exSizedMany, by decide, by decide, by decide, by decide, by decide, exReady 60,
      Payable.cons exSched [] exAlice [] [] 40 [] 140 exAlice_sane (by decide) (by decide) (exReady 140) (Payable.nil _ _ _)⟩
  obtain ⟨f', h3, h4⟩ := h2 (exGoodMany ctx)
  exact ⟨ctx, f', h1, h3, h4⟩

/-- Parameters with room for four aggregated proofs. -/
def exPP4 : PP (ZMod 8209) := ⟨4, 1, 256, ⟨8, 4, 5, 1, 2, List.replicate 32 3, List.replicate 32 4⟩, ⟨5, 1⟩, (77 : ℤ) • 5⟩

def exMany3 : ManyCoins :=
  ⟨[⟨3, 4, 5⟩, ⟨4, 5, 6⟩, ⟨5, 6, 7⟩], 6, 7, 8, ⟨3, List.replicate 32 1, List.replicate 32 2, 2, 4, 5⟩, 10, 11⟩

def exBob' : Account (ZMod 8209) := createAccount (fun _ => 20) exPP4 [98] 30 1 12
def exAlice' : Account (ZMod 8209) := createAccount (fun _ => 10) exPP4 [97] 100 1 11
def exCarl' : Account (ZMod 8209) := createAccount (fun _ => 21) exPP4 [99] 5 1 13

theorem exBob'_sane : Sane Dlog.exCurve exPP4 exBob' := createAccount_sane _ _ _ _ _ _ _ (by decide)

def exLedger4 : Ledger (ZMod 8209) := fun id =>
  if id = [97] then some exAlice' else if id = [98] then some exBob' else if id = [99] then some exCarl' else none

theorem exLedger4_named : Named exLedger4 := by
  intro id a h
  unfold exLedger4 at h
  split at h
  · obtain rfl := Option.some.inj h
    rename_i e; rw [e]; rfl
  · split at h
    · obtain rfl := Option.some.inj h
      rename_i e; rw [e]; rfl
    · split at h
      · obtain rfl := Option.some.inj h
        rename_i e; rw [e]; rfl
      · cases h

theorem exReady4 (n : Nat) : Ready Dlog.exCurve exEnv exPP4.enc.h exSched n := exReady n

/-- C97 fails concretely: Alice (100) pays 10 to Carl, 20 to Bob (30) and 30 to Bob; Bob's file says 60, the 20 coins are gone. -/
theorem adcp_ledger_twice_example : ∃ ctx f', createMany Dlog.exCurve (fun _ => 3) exPP4 exAlice' [10, 20, 30] [exCarl'.pk, exBob'.pk, exBob'.pk] 9 exMany3 =
      some ctx ∧ ledgerMany Dlog.exCurve (fun _ => 3) exPP4 exRun [exSched, exSched, exSched] 1 ctx exLedger4 [97] [[99], [98], [98]] = some (true, f') ∧
    (f' [98]).map Account.m = some 60 := by
  obtain ⟨ctx, h1, h2⟩ := adcp_ledger_twice Dlog.exCurve (fun _ => 3) exPP4 exRun [exSched, exSched, exSched] 1 exLedger4 exLedger4_named [97] [98]
    exAlice' exBob' rfl rfl 20 30 9 [99] exCarl' rfl 10 exMany3 5 40 ⟨createAccount_sane _ _ _ _ _ _ _ (by decide), rfl, rfl,
      ⟨rfl, rfl, rfl, by decide, by decide, by decide, rfl, rfl⟩, by decide, by decide, by decide, by decide, by decide, exReady4 40,
      Payable.cons exSched _ exCarl' _ _ 10 _ 15 (createAccount_sane _ _ _ _ _ _ _ (by decide)) (by decide) (by decide) (exReady4 15)
        (Payable.cons exSched _ exBob' _ _ 20 _ 50 exBob'_sane (by decide) (by decide) (exReady4 50)
          (Payable.cons exSched _ exBob' _ _ 30 _ 60 exBob'_sane (by decide) (by decide) (exReady4 60) (Payable.nil _ _ _)))⟩
  obtain ⟨f', h3, h4⟩ := h2 (fun _ _ _ => Bullet.good_of_hash _ _ (fun _ => by decide) _ _)
  exact ⟨ctx, f', h1, h3, h4⟩

/-- The hypotheses of the one-receiver theorem are met. -/
example : ∃ ctx f', createCTx Dlog.exCurve (fun _ => 3) exPP exAlice 40 exBob.pk exCoins = some ctx ∧
    ledgerOne Dlog.exCurve (fun _ => 3) exPP exRun 1 ctx exLedger [97] [98] = some (true, f') ∧
    (f' [97]).map Account.m = some 60 ∧ (f' [98]).map Account.m = some 70 := by
  obtain ⟨ctx, h1, h2⟩ := adcp_ledger_one_partial Dlog.exCurve (fun _ => 3) exPP exRun 1 exLedger exLedger_named [97] [98] (by decide) exAlice exBob rfl
    rfl 40 exCoins 4 60 70 exAlice_sane exBob_sane exSized (by decide) (by decide) (by decide) (by decide) (by decide) (by decide) (by decide)
    (exReady 60) (exReady 70)
  obtain ⟨f', h3, h4, h5, -⟩ := h2 (exGood ctx)
  exact ⟨ctx, f', h1, h3, h4, h5⟩

/-- **C97** A refused transaction leaves all files as they were, and a transaction that `VerifyCTx` refuses is refused, whoever is named as sender and
receiver. -/
theorem adcp_ledger_refused (cv : Curve G) (H : Bytes → ℤ) (pp : PP G) (d : DecRun G) (s : ℤ) (ctx : ToOne G) (f : Ledger G) (sid rid : Bytes) :
    (∀ f', ledgerOne cv H pp d s ctx f sid rid = some (false, f') → f' = f) ∧
      (verifyCTx cv H pp s ctx = some false → ∀ a b, f sid = some a → f rid = some b → ledgerOne cv H pp d s ctx f sid rid = some (false, f)) := by
  constructor
  · intro f' h
    simp only [ledgerOne, Option.bind_eq_bind, Option.bind_eq_some_iff, Option.pure_def, Option.some.injEq, Prod.mk.injEq] at h
    obtain ⟨a, -, b, -, r, -, hr, rfl⟩ := h
    rw [hr]
    rfl
  · intro hv a b ha hb
    have : miner cv H pp d s ctx a b = some (false, a, b) := by
      unfold miner
      simp only [hv]
      split
      · rfl
      · split <;> rfl
    simp only [ledgerOne, ha, hb, this, Option.bind_eq_bind, Option.bind_some, Option.pure_def]
    rfl

/-- **C97** The same for many receivers; the transaction must list as many keys as there are accounts, otherwise the code reads past its list. -/
theorem adcp_ledger_many_refused (cv : Curve G) (H : Bytes → ℤ) (pp : PP G) (d : DecRun G) (ss : List (List (Nat × Bool))) (s : ℤ) (ctx : ToMany G)
    (f : Ledger G) (sid : Bytes) (rids : List Bytes) :
    (∀ f', ledgerMany cv H pp d ss s ctx f sid rids = some (false, f') → f' = f) ∧
      (verifyMany cv H pp s ctx = some false → rids.length ≤ ctx.pkrs.length → ∀ a bs, f sid = some a → f.fetch rids = some bs →
        ledgerMany cv H pp d ss s ctx f sid rids = some (false, f)) := by
  constructor
  · intro f' h
    simp only [ledgerMany, Option.bind_eq_bind, Option.bind_eq_some_iff, Option.pure_def, Option.some.injEq, Prod.mk.injEq] at h
    obtain ⟨a, -, b, -, r, -, hr, rfl⟩ := h
    rw [hr]
    rfl
  · intro hv hlen a bs ha hb
    have hl : bs.length = rids.length := by
      clear * - hb
      unfold Ledger.fetch at hb
      induction rids generalizing bs with
      | nil => simp only [List.mapM_nil, Option.pure_def, Option.some.injEq] at hb; subst hb; rfl
      | cons id ids ih =>
        simp only [List.mapM_cons, Option.bind_eq_bind, Option.pure_def, Option.bind_eq_some_iff, Option.some.injEq] at hb
        obtain ⟨a, -, as', h', rfl⟩ := hb
        rw [List.length_cons, ih as' h', List.length_cons]
    obtain ⟨m, hm⟩ : ∃ m, receiversMatch bs ctx.pkrs = some m := by
      rw [← hl] at hlen
      clear * - hlen
      generalize ctx.pkrs = pks at hlen
      induction bs generalizing pks with
      | nil => exact ⟨true, rfl⟩
      | cons b bs ih =>
        rcases pks with _ | ⟨pk, pks⟩
        · simp at hlen
        obtain ⟨m, hm⟩ := ih pks (by simpa using hlen)
        unfold receiversMatch
        split
        · exact ⟨_, rfl⟩
        · exact ⟨m, hm⟩
    have : minerMany cv H pp d ss s ctx a bs = some (false, a, bs) := by
      unfold minerMany
      simp only [hv, hm]
      split
      · rfl
      · cases m <;> rfl
    simp only [ledgerMany, ha, hb, this, Option.bind_eq_bind, Option.bind_some, Option.pure_def]
    rfl

/-- Alice (100) tries to pay 300 to Bob: nothing is written. -/
example : ∃ ctx, createCTx Dlog.exCurve (fun _ => 3) exPP exAlice 300 exBob.pk exCoins = some ctx ∧
    ledgerOne Dlog.exCurve (fun _ => 3) exPP exRun 1 ctx exLedger [97] [98] = some (false, exLedger) := by
  obtain ⟨ctx, tb, h1, -, -, -, -, -, h6⟩ := adcp_create_honest Dlog.exCurve (fun _ => 3) exPP exAlice 300 exBob.pk exCoins 4 exAlice_sane exSized (by decide)
  refine ⟨ctx, h1, (adcp_ledger_refused Dlog.exCurve (fun _ => 3) exPP exRun 1 ctx exLedger [97] [98]).2 ?_ exAlice exBob rfl rfl⟩
  rw [h6 (exGood ctx) 1]
  decide

/-- Somebody changes the proof of the balance in Alice's transaction: nothing is written. -/
example : ∃ ctx, ctx.pkrs = [exBob.pk] ∧ ledgerMany Dlog.exCurve (fun _ => 3) exPP exRun [exSched] 1 ctx exLedger [97] [[98]] = some (false, exLedger) := by
  obtain ⟨ctx, -, p2, -, -, -, p6⟩ := adcp_many_mint Dlog.exCurve (fun _ => 3) exPP exAlice [40] [exBob.pk] 9 0 exMany 4 exAlice_sane rfl rfl
    exSizedMany (by decide) (by decide) (by decide) (by decide)
  have hok := p6 (exGoodMany ctx) 1
  have hbad : verifyMany Dlog.exCurve (fun _ => 3) exPP 1 { ctx with balance := ⟨ctx.balance.A, ctx.balance.z + 1⟩ } = some false := by
    unfold verifyMany at hok ⊢
    simp only [Option.bind_eq_bind, Option.bind_eq_some_iff] at hok
    obtain ⟨⟨c1, tr1⟩, e1, ⟨c3, tr3⟩, e3, h⟩ := hok
    simp only [Option.pure_def, Option.some.injEq, Bool.and_eq_true] at h
    have h4 := h.1.2
    simp only [e1, e3, Option.bind_eq_bind, Option.bind_some, Option.pure_def, Option.some.injEq, Bool.and_eq_false_iff]
    left; right
    simp only [DLOGKnowledge.verify, decide_eq_true_eq, decide_eq_false_iff_not] at h4 ⊢
    intro h5
    change (ctx.balance.z + 1) • exPP.enc.g = _ at h5
    change ctx.balance.z • exPP.enc.g = _ at h4
    rw [add_smul, one_smul] at h5
    exact absurd (add_left_cancel ((h5.trans h4.symm).trans (add_zero _).symm)) (by decide)
  exact ⟨{ ctx with balance := ⟨ctx.balance.A, ctx.balance.z + 1⟩ }, p2,
    (adcp_ledger_many_refused Dlog.exCurve (fun _ => 3) exPP exRun [exSched] 1 _ exLedger [97] [[98]]).2 hbad (by rw [p2]; decide) exAlice [exBob] rfl rfl⟩

end Kunlun.ADCP
