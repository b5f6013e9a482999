import Verif.Model.AdcpSim
import Verif.Props.AdcpMany
/-!
A simulator for the confidential transactions of `adcp/adcp.hpp` with many receivers. It is not part of the code: it is given what everybody sees
(keys, balance, all new ciphertexts) and values it may set in a random oracle, and is what `CreateCTx` is compared with.
-/

namespace Kunlun

open Finset Bullet Oracle

variable {G V : Type} [AddCommGroup G] [DecidableEq G]

/-- The sum of `f` over all lists of `n` elements of `s`. -/
noncomputable def sumLists {A : Type} (s : Finset A) : ℕ → (List A → ℝ) → ℝ
  | 0, f => f []
  | n + 1, f => ∑ a ∈ s, sumLists s n fun l => f (a :: l)

theorem sumLists_congr {A : Type} (s : Finset A) (n : ℕ) (f f' : List A → ℝ) (h : ∀ l : List A, l.length = n → (∀ a ∈ l, a ∈ s) → f l = f' l) :
    sumLists s n f = sumLists s n f' := by
  induction n generalizing f f' with
  | zero => exact h [] rfl (by simp)
  | succ n ih =>
    rw [sumLists, sumLists]
    refine sum_congr rfl fun a ha => ih _ _ fun l hl hm => h _ (by simp [hl]) ?_
    intro b hb
    rcases List.mem_cons.1 hb with rfl | hb
    · exact ha
    · exact hm b hb

namespace Oracle

variable {Q : Finset Bytes} [Fintype V] [DecidableEq V]

/-- Two values that depend on the oracle, but not on each other: on average both may be set. -/
theorem sum_two (v0 : V) (l : List (Bytes × V)) (p1 p2 : (Q → V) → Bytes) (f : (Q → V) → ℝ) (e1 e2 : V)
    (h1 : ∀ o, p1 o ∈ Q) (h2 : ∀ o, p2 o ∈ Q) (n1 : ∀ o, p1 o ∉ l.map Prod.fst) (n2 : ∀ o, p2 o ∉ l.map Prod.fst)
    (ne : ∀ o, p2 o ≠ p1 o) (s11 : ∀ o a, p1 (put o (p1 o) a) = p1 o) (s21 : ∀ o a, p2 (put o (p1 o) a) = p2 o)
    (s12 : ∀ o a, p1 (put o (p2 o) a) = p1 o) (s22 : ∀ o a, p2 (put o (p2 o) a) = p2 o) :
    (Fintype.card V : ℝ) ^ 2 * ∑ o, (if ext v0 (prog l o) (p1 (prog l o)) = e1 then
        (if ext v0 (prog l o) (p2 (prog l o)) = e2 then f (prog l o) else 0) else 0) =
      ∑ o, f (put (put (prog l o) (p2 (prog l o)) e2) (p1 (prog l o)) e1) := by
  have t1 := sum_step v0 l p1 (fun o => if ext v0 o (p2 o) = e2 then f o else 0) e1 (fun o => h1 _) (fun o => n1 _) (fun o a => by
    rw [prog_put _ _ _ _ (n1 _), s11])
  have t2 := sum_step v0 l p2 (fun o => f (put o (p1 o) e1)) e2 (fun o => h2 _) (fun o => n2 _) (fun o a => by
    rw [prog_put _ _ _ _ (n2 _), s22])
  rw [pow_two, mul_assoc, t1]
  have e : ∀ o : Q → V, (if ext v0 (prog l (put o (p1 (prog l o)) e1)) (p2 (prog l (put o (p1 (prog l o)) e1))) = e2 then
      f (prog l (put o (p1 (prog l o)) e1)) else 0) = if ext v0 (prog l o) (p2 (prog l o)) = e2 then f (put (prog l o) (p1 (prog l o)) e1) else 0 := by
    intro o
    rw [prog_put _ _ _ _ (n1 _), s21, ext_put_ne _ _ _ _ _ (ne _)]
  simp only [e]
  rw [t2]
  refine sum_congr rfl fun o _ => ?_
  rw [prog_put _ _ _ _ (n2 _), s12]

end Oracle

/-- The simulated proof of discrete-log knowledge. -/
def simDk (x : DLOGKnowledge.Instance G) (e z : ℤ) : DLOGKnowledge.Proof G := ⟨z • x.g - e • x.h, z⟩

/-- What is hashed for a proof of discrete-log knowledge. -/
def dkPoint (cv : Curve G) (x : DLOGKnowledge.Instance G) (tr : Bytes) (pf : DLOGKnowledge.Proof G) : Bytes :=
  tr ++ (cv.toBytes x.g ++ cv.toBytes x.h) ++ cv.toBytes pf.A

theorem sum_dk [Fintype V] [DecidableEq V] (cv : Curve G) [Fintype (ZMod cv.order)] (O : Bytes → V) (val : V → ℤ) (x : DLOGKnowledge.Instance G) (w : ℤ)
    (h : x.h = w • x.g) (tr : Bytes) (g : DLOGKnowledge.Proof G × Bytes → ℝ) :
    ∑ a : ZMod cv.order, g (DLOGKnowledge.prove cv (fun b => val (O b)) x w (ofF cv a) tr) =
      ∑ e, ∑ z : ZMod cv.order, if O (dkPoint cv x tr (simDk x (val e) (ofF cv z))) = e then
        g (simDk x (val e) (ofF cv z), dkPoint cv x tr (simDk x (val e) (ofF cv z))) else 0 := by
  haveI := cv.fact
  letI := cv.toModule
  have := sum_read O (fun a : ZMod cv.order => tr ++ (cv.toBytes x.g ++ cv.toBytes x.h) ++ cv.toBytes (ofF cv a • x.g))
    (fun a e => g (⟨ofF cv a • x.g, BigInt.mod (ofF cv a + val e * w) cv.order⟩,
      tr ++ (cv.toBytes x.g ++ cv.toBytes x.h) ++ cv.toBytes (ofF cv a • x.g)))
  refine Eq.trans this (sum_congr rfl fun e _ => ?_)
  conv_rhs => rw [← Equiv.sum_comp (Equiv.addRight ((val e : ZMod cv.order) * w))]
  refine sum_congr rfl fun a _ => ?_
  have key : simDk x (val e) (ofF cv (a + (val e : ZMod cv.order) * w)) =
      ⟨ofF cv a • x.g, BigInt.mod (ofF cv a + val e * w) cv.order⟩ := by
    rw [simDk, cv.mod_ofF, h]
    simp only [cv.ofF_smul, cv.cast_smul, DLOGKnowledge.Proof.mk.injEq, and_true]
    module
  simp only [Equiv.coe_addRight, key]
  rfl

namespace ADCP

/-- The receiver ciphertexts for amounts, keys and encryption randomness. -/
def legCts (pp : PP G) : List ℤ → List G → List ℤ → List (Twisted.MRCT G)
  | v :: vs, pkr :: pkrs, r :: rs => Twisted.encMulti pp.enc [pkr, pp.pka] v r :: legCts pp vs pkrs rs
  | _, _, _ => []

/-- The scalars for the receivers: encryption randomness and the draws of the proofs of plaintext equality. -/
def legCoins (cv : Curve G) (rs : List ℤ) (cs : List (ZMod cv.order × ZMod cv.order)) : List LegCoins :=
  List.zipWith (fun r c => ⟨r, ofF cv c.1, ofF cv c.2⟩) rs cs

theorem legCoins_r (cv : Curve G) (rs : List ℤ) (cs : List (ZMod cv.order × ZMod cv.order)) (h : cs.length = rs.length) :
    (legCoins cv rs cs).map LegCoins.r = rs := by
  unfold legCoins
  induction rs generalizing cs with
  | nil => simp
  | cons r rs ih =>
    rcases cs with _ | ⟨c, cs⟩
    · simp at h
    simp only [List.zipWith_cons_cons, List.map_cons]
    rw [ih cs (by simpa using h)]

theorem legCts_legs (pp : PP G) (vs : List ℤ) (pkrs : List G) (rs : List ℤ) (h1 : pkrs.length = vs.length) (h2 : rs.length = vs.length) :
    Legs pp pkrs vs rs (legCts pp vs pkrs rs) := by
  induction vs generalizing pkrs rs with
  | nil =>
    rw [List.length_nil, List.length_eq_zero_iff] at h1 h2
    subst h1 h2
    exact Legs.nil
  | cons v vs ih =>
    rcases pkrs with _ | ⟨pkr, pkrs⟩
    · simp at h1
    rcases rs with _ | ⟨r, rs⟩
    · simp at h2
    exact Legs.cons _ _ _ _ _ _ _ (ih pkrs rs (by simpa using h1) (by simpa using h2))

theorem makeLegs_eq (pp : PP G) (vs : List ℤ) (pkrs : List G) (cs : List LegCoins) (h1 : pkrs.length = vs.length) (h2 : cs.length = vs.length) :
    makeLegs pp vs pkrs cs = some (legCts pp vs pkrs (cs.map LegCoins.r)) := by
  induction vs generalizing pkrs cs with
  | nil =>
    rw [List.length_nil, List.length_eq_zero_iff] at h1 h2
    subst h1 h2
    rfl
  | cons v vs ih =>
    rcases pkrs with _ | ⟨pkr, pkrs⟩
    · simp at h1
    rcases cs with _ | ⟨c, cs⟩
    · simp at h2
    simp only [makeLegs, ih pkrs cs (by simpa using h1) (by simpa using h2), List.map_cons, legCts, Option.bind_eq_bind, Option.bind_some,
      Option.pure_def]

theorem legs_X {pp : PP G} {pkrs : List G} {vs rs : List ℤ} {cts : List (Twisted.MRCT G)} (h : Legs pp pkrs vs rs cts) :
    ∀ ct ∈ cts, ct.vecX.length = 2 := by
  induction h with
  | nil => simp
  | cons pkr v r pkrs vs rs cts _ ih =>
    intro ct hct
    rcases List.mem_cons.1 hct with rfl | hct
    · simp [Twisted.encMulti]
    · exact ih ct hct

/-- What everybody sees of a transaction with many receivers apart from the proofs. -/
structure ManyStatement (G : Type) where
  sn : ℤ
  balance : CT G
  pks : G
  out : CT G
  pkrs : List G
  cts : List (Twisted.MRCT G)
  refresh : CT G

namespace ManyStatement

variable (pp : PP G) (st : ManyStatement G)

def eqs : List (PlaintextEquality.Instance G) := List.zipWith (fun pkr ct => ⟨[pkr, pp.pka], ct⟩) st.pkrs st.cts

def kn : PlaintextKnowledge.Instance G := ⟨st.pks, st.refresh⟩

def bal : DLOGKnowledge.Instance G := balanceInstance pp st.out.Y (st.cts.map (·.Y))

def dl : DLOGEquality.Instance G := refreshInstance pp (st.balance.sub st.out) st.refresh st.pks

def C : List G := st.cts.map (·.Y) ++ [st.refresh.Y]

def ctx (pteqs : List (PlaintextEquality.Proof G)) (bp : Bullet.Proof G) (ptke : PlaintextKnowledge.Proof G) (b : DLOGKnowledge.Proof G)
    (d : DLOGEquality.Proof G) : ToMany G := ⟨st.sn, st.balance, st.pks, st.out, st.pkrs, st.cts, st.refresh, ptke, d, pteqs, bp, b⟩

/-- What is hashed for the last proof; `tr` is the transcript after the range proof. -/
def lastPoint (cv : Curve G) (pteqs : List (PlaintextEquality.Proof G)) (bp : Bullet.Proof G) (ptke : PlaintextKnowledge.Proof G)
    (b : DLOGKnowledge.Proof G) (tr : Bytes) (d : DLOGEquality.Proof G) : Bytes :=
  dlPoint cv (st.dl pp) (dkPoint cv (st.bal pp) tr b ++ toSignMany cv (st.ctx pteqs bp ptke b ⟨0, 0, 0⟩)) d

end ManyStatement

/-- The statement of the transaction `CreateCTx` makes. -/
def manyStatement (pp : PP G) (a : Account G) (vs : List ℤ) (pkrs : List G) (r : ℤ) (rs : List ℤ) (rStar : ℤ) : ManyStatement G :=
  ⟨a.sn, a.balance, a.pk, Twisted.enc pp.enc a.pk vs.sum r, pkrs, legCts pp vs pkrs rs, Twisted.enc pp.enc a.pk (a.m - vs.sum) rStar⟩

/-- `CreateCTx` for an account in order, with the parts named. -/
theorem createMany_eq (cv : Curve G) (H : Bytes → ℤ) (pp : PP G) (a : Account G) (vs : List ℤ) (pkrs : List G) (r : ℤ) (c : ManyCoins) (ha : Sane cv pp a)
    (h1 : pkrs.length = vs.length) (h2 : c.legs.length = vs.length) :
    let st := manyStatement pp a vs pkrs r (c.legs.map LegCoins.r) c.rStar
    createMany cv H pp a vs pkrs r c =
      (proveLegs cv H pp vs pkrs st.cts c.legs []).bind fun p1 =>
        let p2 := PlaintextKnowledge.prove cv pp.enc H st.kn (a.m - vs.sum) c.rStar c.knA c.knB p1.2
        (Bullet.prove cv H pp.bullet (vs.length + 1) (c.legs.map LegCoins.r ++ [c.rStar]) (vs ++ [a.m - vs.sum]) c.bullet p2.2).bind fun p3 =>
          let p4 := DLOGKnowledge.prove cv H (st.bal pp) (r - (c.legs.map LegCoins.r).sum) c.bal p3.2
          some (st.ctx p1.1 p3.1 p2.1 p4.1
            (DLOGEquality.prove cv H (st.dl pp) a.sk c.dl (p4.2 ++ toSignMany cv (st.ctx p1.1 p3.1 p2.1 p4.1 ⟨0, 0, 0⟩))).1) := by
  intro st
  obtain ⟨hkey, hne, hbal⟩ := ha
  have hupd : Twisted.Holds cv pp.enc a.sk (a.balance.sub (Twisted.enc pp.enc a.pk vs.sum r)) (a.m - vs.sum) := by
    have hv := Twisted.twisted_enc_holds cv pp.enc a.sk vs.sum r hne
    have hkk : Twisted.keyGen pp.enc a.sk = a.pk := by rw [hkey]; rfl
    rw [hkk] at hv
    unfold Twisted.Holds at *
    rw [decPoint_sub, hbal, hv, sub_smul]
  have hre := Gadget.reEnc_eq_enc cv pp.enc a.pk a.sk (a.m - vs.sum) c.rStar _ hupd
  unfold createMany finishCTx
  simp only [Option.bind_eq_bind, Option.pure_def, makeLegs_eq pp vs pkrs c.legs h1 h2, Option.bind_some, foldl_add, zero_add, foldl_sub, hre,
    ManyStatement.kn, ManyStatement.bal, ManyStatement.dl, ManyStatement.ctx, manyStatement, st]

/-- The exponents of the last two proofs. -/
theorem many_statement (cv : Curve G) (pp : PP G) (a : Account G) (vs : List ℤ) (pkrs : List G) (r : ℤ) (rs : List ℤ) (rStar : ℤ) (ha : Sane cv pp a)
    (h1 : pkrs.length = vs.length) (h2 : rs.length = vs.length) :
    let st := manyStatement pp a vs pkrs r rs rStar
    (st.bal pp).h = (r - rs.sum) • (st.bal pp).g ∧ (st.dl pp).h1 = a.sk • (st.dl pp).g1 ∧ (st.dl pp).h2 = a.sk • (st.dl pp).g2 := by
  intro st
  obtain ⟨hkey, hne, hbal⟩ := ha
  have hkk : Twisted.keyGen pp.enc a.sk = a.pk := by rw [hkey]; rfl
  have hupd : Twisted.Holds cv pp.enc a.sk (a.balance.sub (Twisted.enc pp.enc a.pk vs.sum r)) (a.m - vs.sum) := by
    have hv := Twisted.twisted_enc_holds cv pp.enc a.sk vs.sum r hne
    rw [hkk] at hv
    unfold Twisted.Holds at *
    rw [decPoint_sub, hbal, hv, sub_smul]
  have hst := Gadget.refresh_statement cv pp.enc a.sk (a.m - vs.sum) rStar hne _ hupd
  rw [hkk] at hst
  obtain ⟨-, y2⟩ := legs_Y (legCts_legs pp vs pkrs rs h1 h2)
  refine ⟨?_, ?_, ?_⟩
  · simp only [st, ManyStatement.bal, manyStatement, balanceInstance, foldl_sub, y2, Twisted.enc, msm_two]
    module
  · simp only [st, ManyStatement.dl, manyStatement, refreshInstance]
    rw [← neg_sub, hst, ← smul_neg]
    congr 1
    abel
  · simp only [st, ManyStatement.dl, manyStatement, refreshInstance]
    exact hkey

variable [Fintype V] [DecidableEq V] {Q : Finset Bytes}

/-- All answers of `D` to transactions with fixed amounts and encryption randomness, summed over the oracle and the scalars of the proofs. -/
noncomputable def realMany (cv : Curve G) [Fintype (ZMod cv.order)] (pp : PP G) (val : V → ℤ) (v0 : V) (D : (Q → V) → Option (ToMany G) → ℝ)
    (a : Account G) (vs : List ℤ) (pkrs : List G) (r : ℤ) (rs : List ℤ) (rStar : ℤ) : ℝ :=
  ∑ o, sumLists univ vs.length fun cs : List (ZMod cv.order × ZMod cv.order) => ∑ c2 : ZMod cv.order × ZMod cv.order,
    ∑ c3 : Shape cv.order (pp.bullet.rangeLen * (vs.length + 1)), ∑ c4 : ZMod cv.order, ∑ c5 : ZMod cv.order,
      D o (createMany cv (hash val v0 o) pp a vs pkrs r
        ⟨legCoins cv rs cs, rStar, ofF cv c2.1, ofF cv c2.2, coinsOf cv c3, ofF cv c4, ofF cv c5⟩)

/-- The simulated proofs of plaintext equality: one challenge is set for each; `S` goes on with the values set, the proofs and the transcript. -/
noncomputable def simLegs (cv : Curve G) [Fintype (ZMod cv.order)] (pp : PP G) (val : V → ℤ) : List (PlaintextEquality.Instance G) → List (Bytes × V) →
    Bytes → (List (Bytes × V) → List (PlaintextEquality.Proof G) → Bytes → ℝ) → ℝ
  | [], l, tr, S => S l [] tr
  | x :: xs, l, tr, S => ∑ e, ∑ w : ZMod cv.order × ZMod cv.order,
      let pf := simEq pp.enc x (val e) (ofF cv w.1) (ofF cv w.2)
      simLegs cv pp val xs (l ++ [(eqPoint cv x tr pf, e)]) (eqPoint cv x tr pf) fun l pfs tr => S l (pf :: pfs) tr

omit [DecidableEq G] in
theorem len_eq2 (cv : Curve G) {W : ℕ} (hE : cv.Encodes W) (pp : Twisted.PP G) (x : PlaintextEquality.Instance G) (h1 : x.vecPk.length = 2)
    (h2 : x.ct.vecX.length = 2) (tr : Bytes) (e z t : ℤ) : (eqPoint cv x tr (simEq pp x e z t)).length = tr.length + 8 * W := by
  simp only [eqPoint, simEq, List.length_append, hE.flatten_length, hE.len, List.length_zipWith, h1, h2, Nat.min_self]
  omega

theorem legs_step (cv : Curve G) [Fintype (ZMod cv.order)] {W : ℕ} (hE : cv.Encodes W) (hW : 0 < W) (pp : PP G) (val : V → ℤ) (v0 : V) (L : ℕ)
    (hQ : ∀ b : Bytes, b.length ≤ L → b ∈ Q) {pkrs : List G} {vs rs : List ℤ} {cts : List (Twisted.MRCT G)} (h : Legs pp pkrs vs rs cts)
    (K : (Q → V) → Option (List (PlaintextEquality.Proof G) × Bytes) → ℝ) (l : List (Bytes × V)) (tr : Bytes)
    (hl : ∀ b ∈ l.map Prod.fst, b.length ≤ tr.length) (ht : tr.length + 8 * W * vs.length ≤ L) :
    (Fintype.card V : ℝ) ^ vs.length * ∑ o, sumLists univ vs.length (fun cs : List (ZMod cv.order × ZMod cv.order) =>
        K (prog l o) (proveLegs cv (hash val v0 (prog l o)) pp vs pkrs cts (legCoins cv rs cs) tr)) =
      simLegs cv pp val (List.zipWith (fun pkr ct => ⟨[pkr, pp.pka], ct⟩) pkrs cts) l tr fun l pfs tr => ∑ o, K (prog l o) (some (pfs, tr)) := by
  induction h generalizing K l tr with
  | nil =>
    simp only [List.length_nil, pow_zero, one_mul, sumLists, proveLegs, List.zipWith_nil_left, simLegs]
  | cons pkr v r pkrs vs rs cts _ ih =>
    set x : PlaintextEquality.Instance G := ⟨[pkr, pp.pka], Twisted.encMulti pp.enc [pkr, pp.pka] v r⟩ with hx
    have hlen : ∀ (e : V) (w : ZMod cv.order × ZMod cv.order), (eqPoint cv x tr (simEq pp.enc x (val e) (ofF cv w.1) (ofF cv w.2))).length =
        tr.length + 8 * W := fun e w => len_eq2 cv hE pp.enc x rfl (by simp [hx, Twisted.encMulti]) tr _ _ _
    have hmul : 8 * W * (vs.length + 1) = 8 * W * vs.length + 8 * W := by ring
    simp only [List.length_cons] at ht
    have st := stage v0 l (fun o (c : ZMod cv.order × ZMod cv.order) => sumLists univ vs.length (fun cs : List (ZMod cv.order × ZMod cv.order) =>
        K o ((PlaintextEquality.prove cv pp.enc (hash val v0 o) x v r (ofF cv c.1) (ofF cv c.2) tr).bind fun p =>
          (proveLegs cv (hash val v0 o) pp vs pkrs cts (legCoins cv rs cs) p.2).bind fun q => some (p.1 :: q.1, q.2))))
      (fun e (w : ZMod cv.order × ZMod cv.order) => eqPoint cv x tr (simEq pp.enc x (val e) (ofF cv w.1) (ofF cv w.2)))
      (fun o e (w : ZMod cv.order × ZMod cv.order) => sumLists univ vs.length (fun cs : List (ZMod cv.order × ZMod cv.order) =>
        K o ((proveLegs cv (hash val v0 o) pp vs pkrs cts (legCoins cv rs cs) (eqPoint cv x tr (simEq pp.enc x (val e) (ofF cv w.1) (ofF cv w.2)))).bind
          fun q => some (simEq pp.enc x (val e) (ofF cv w.1) (ofF cv w.2) :: q.1, q.2)))) (fun o =>
        sum_eq cv (ext v0 o) val pp.enc [pkr, pp.pka] v r tr fun p => sumLists univ vs.length (fun cs : List (ZMod cv.order × ZMod cv.order) =>
          K o (p.bind fun p => (proveLegs cv (hash val v0 o) pp vs pkrs cts (legCoins cv rs cs) p.2).bind fun q => some (p.1 :: q.1, q.2))))
      (fun e w => hQ _ (by rw [hlen]; omega)) (fun e w hm => by
        have := hl _ hm
        rw [hlen] at this
        omega)
    have e1 : ∀ o : Q → V, sumLists univ (vs.length + 1) (fun cs : List (ZMod cv.order × ZMod cv.order) =>
        K (prog l o) (proveLegs cv (hash val v0 (prog l o)) pp (v :: vs) (pkr :: pkrs) (Twisted.encMulti pp.enc [pkr, pp.pka] v r :: cts)
          (legCoins cv (r :: rs) cs) tr)) = ∑ c : ZMod cv.order × ZMod cv.order, sumLists univ vs.length
        (fun cs : List (ZMod cv.order × ZMod cv.order) => K (prog l o)
          ((PlaintextEquality.prove cv pp.enc (hash val v0 (prog l o)) x v r (ofF cv c.1) (ofF cv c.2) tr).bind fun p =>
          (proveLegs cv (hash val v0 (prog l o)) pp vs pkrs cts (legCoins cv rs cs) p.2).bind fun q => some (p.1 :: q.1, q.2))) := fun o => rfl
    simp only [List.length_cons, e1]
    rw [pow_succ, mul_assoc, st]
    simp only [List.zipWith_cons_cons, simLegs, ← hx]
    rw [mul_sum]
    refine sum_congr rfl fun e _ => ?_
    rw [mul_sum]
    refine sum_congr rfl fun w _ => ?_
    exact ih (fun o p => K o (p.bind fun q => some (simEq pp.enc x (val e) (ofF cv w.1) (ofF cv w.2) :: q.1, q.2))) _ _ (by
      intro b hb
      simp only [List.map_append, List.map_cons, List.map_nil, List.mem_append, List.mem_singleton] at hb
      rw [hlen]
      rcases hb with hb | rfl
      · have := hl _ hb
        omega
      · rw [hlen]) (by rw [hlen]; omega)

theorem simLegs_mul (cv : Curve G) [Fintype (ZMod cv.order)] {W : ℕ} (hE : cv.Encodes W) (pp : PP G) (val : V → ℤ) (c : ℝ)
    (xs : List (PlaintextEquality.Instance G)) (hx : ∀ x ∈ xs, x.vecPk.length = 2 ∧ x.ct.vecX.length = 2)
    (S S' : List (Bytes × V) → List (PlaintextEquality.Proof G) → Bytes → ℝ) (l : List (Bytes × V)) (tr : Bytes)
    (hl : ∀ b ∈ l.map Prod.fst, b.length ≤ tr.length)
    (h : ∀ l' pfs tr', tr'.length = tr.length + 8 * W * xs.length → (∀ b ∈ l'.map Prod.fst, b.length ≤ tr'.length) → pfs.length = xs.length →
      (∀ pf ∈ pfs, pf.vecA.length = 2) → c * S l' pfs tr' = S' l' pfs tr') :
    c * simLegs cv pp val xs l tr S = simLegs cv pp val xs l tr S' := by
  induction xs generalizing S S' l tr with
  | nil => exact h l [] tr (by simp) hl rfl (by simp)
  | cons x xs ih =>
    obtain ⟨x1, x2⟩ := hx x (by simp)
    rw [simLegs, simLegs, mul_sum]
    refine sum_congr rfl fun e _ => ?_
    rw [mul_sum]
    refine sum_congr rfl fun w _ => ?_
    have hlen := len_eq2 cv hE pp.enc x x1 x2 tr (val e) (ofF cv w.1) (ofF cv w.2)
    refine ih (fun y hy => hx y (by simp [hy])) _ _ _ _ ?_ ?_
    · intro b hb
      simp only [List.map_append, List.map_cons, List.map_nil, List.mem_append, List.mem_singleton] at hb
      rw [hlen]
      rcases hb with hb | rfl
      · have := hl _ hb
        omega
      · rw [hlen]
    · intro l' pfs tr' t1 t2 t3 t4
      refine h l' _ tr' ?_ t2 (by simp [t3]) ?_
      · rw [t1, hlen, List.length_cons]
        ring
      · intro pf hpf
        rcases List.mem_cons.1 hpf with rfl | hpf
        · simp [simEq, x1, x2]
        · exact t4 pf hpf

theorem kn_stage (cv : Curve G) [Fintype (ZMod cv.order)] {W : ℕ} (hE : cv.Encodes W) (hW : 0 < W) (pp : PP G) (val : V → ℤ) (v0 : V) (L : ℕ)
    (hQ : ∀ b : Bytes, b.length ≤ L → b ∈ Q) (K : (Q → V) → PlaintextKnowledge.Proof G × Bytes → ℝ) (x : PlaintextKnowledge.Instance G) (m rStar : ℤ)
    (hx : x = ⟨x.pk, Twisted.enc pp.enc x.pk m rStar⟩) (tr : Bytes) (ht : tr.length + 5 * W ≤ L) (l : List (Bytes × V))
    (hl : ∀ b ∈ l.map Prod.fst, b.length ≤ tr.length) :
    (Fintype.card V : ℝ) * ∑ o, ∑ c2 : ZMod cv.order × ZMod cv.order,
        K (prog l o) (PlaintextKnowledge.prove cv pp.enc (hash val v0 (prog l o)) x m rStar (ofF cv c2.1) (ofF cv c2.2) tr) =
      ∑ e, ∑ w : ZMod cv.order × ZMod cv.order, ∑ o,
        K (prog (l ++ [(knPoint cv x tr (simKn pp.enc x (val e) (ofF cv w.1) (ofF cv w.2)), e)]) o)
          (simKn pp.enc x (val e) (ofF cv w.1) (ofF cv w.2), knPoint cv x tr (simKn pp.enc x (val e) (ofF cv w.1) (ofF cv w.2))) := by
  refine stage v0 l (fun o (c2 : ZMod cv.order × ZMod cv.order) => K o
    (PlaintextKnowledge.prove cv pp.enc (hash val v0 o) x m rStar (ofF cv c2.1) (ofF cv c2.2) tr))
    (fun e (w : ZMod cv.order × ZMod cv.order) => knPoint cv x tr (simKn pp.enc x (val e) (ofF cv w.1) (ofF cv w.2)))
    (fun o e (w : ZMod cv.order × ZMod cv.order) => K o
        (simKn pp.enc x (val e) (ofF cv w.1) (ofF cv w.2), knPoint cv x tr (simKn pp.enc x (val e) (ofF cv w.1) (ofF cv w.2)))) ?_ ?_ ?_
  · intro o
    rw [hx]
    exact sum_kn cv (ext v0 o) val pp.enc x.pk m rStar tr fun p => K o p
  · intro e w
    exact hQ _ (by rw [len_kn cv hE]; exact ht)
  · intro e w h
    have := hl _ h
    rw [len_kn cv hE] at this
    omega

theorem bullet_stage (cv : Curve G) [Fintype (ZMod cv.order)] {W : ℕ} (hE : cv.Encodes W) (hW : 0 < W) (pp : PP G) (val : V → ℤ) (v0 : V)
    (hval : ∀ e, ¬ (cv.order : ℤ) ∣ val e) (L : ℕ) (hQ : ∀ b : Bytes, b.length ≤ L → b ∈ Q)
    (K : (Q → V) → Option (Bullet.Proof G × Bytes) → ℝ) (n k : ℕ) (r : List ℤ) (v : List ℕ) (C : List G) (tr : Bytes)
    (hpow : pp.bullet.rangeLen * n = 2 ^ k) (hk : k < 64) (hg : pp.bullet.rangeLen * n ≤ pp.bullet.vecG.length)
    (hh : pp.bullet.rangeLen * n ≤ pp.bullet.vecH.length) (hv : v.length = n) (hr : r.length = n) (hb : ∀ a ∈ v, a < 2 ^ pp.bullet.rangeLen)
    (hcyc : ∀ P : G, ∃ a : ℤ, P = a • pp.bullet.g) (hh0 : pp.bullet.h ≠ 0)
    (hC : C = List.zipWith (fun (a : ℤ) (m : ℕ) => a • pp.bullet.g + m • pp.bullet.h) r v) (ht : tr.length + 4 * W ≤ L)
    (l : List (Bytes × V)) (hl : ∀ b ∈ l.map Prod.fst, b.length ≤ tr.length) :
    (Fintype.card V : ℝ) ^ 3 * ∑ o, ∑ c : Shape cv.order (pp.bullet.rangeLen * n),
        K (prog l o) (Bullet.prove cv (hash val v0 (prog l o)) pp.bullet n r (v.map (Nat.cast : ℕ → ℤ)) (coinsOf cv c) tr) =
      ∑ y, ∑ z, ∑ x, ∑ s : Shape cv.order (pp.bullet.rangeLen * n), ∑ o,
        K (prog (l ++ [(pointY cv pp.bullet (simOf cv s) tr, y), (pointZ cv pp.bullet n (val y) (val z) (val x) (simOf cv s) tr, z),
          (pointX cv pp.bullet n C (val y) (val z) (val x) (simOf cv s) tr, x)]) o)
        (simulate cv (hash val v0 (prog (l ++ [(pointY cv pp.bullet (simOf cv s) tr, y),
          (pointZ cv pp.bullet n (val y) (val z) (val x) (simOf cv s) tr, z),
          (pointX cv pp.bullet n C (val y) (val z) (val x) (simOf cv s) tr, x)]) o)) pp.bullet C (val y) (val z) (val x) (simOf cv s) tr) := by
  have e1 : ∀ o : Q → V, ∑ c : Shape cv.order (pp.bullet.rangeLen * n),
        K o (Bullet.prove cv (hash val v0 o) pp.bullet n r (v.map (Nat.cast : ℕ → ℤ)) (coinsOf cv c) tr) =
      ∑ y, ∑ z, ∑ x, ∑ s : Shape cv.order (pp.bullet.rangeLen * n),
      if ext v0 o (pointY cv pp.bullet (simOf cv s) tr) = y then
        (if ext v0 o (pointZ cv pp.bullet n (val y) (val z) (val x) (simOf cv s) tr) = z then
          (if ext v0 o (pointX cv pp.bullet n C (val y) (val z) (val x) (simOf cv s) tr) = x then
            K o (simulate cv (hash val v0 o) pp.bullet C (val y) (val z) (val x) (simOf cv s) tr) else 0) else 0)
        else 0 := by
    intro o
    refine (sum_bullet cv (ext v0 o) val hval pp.bullet n k r v C tr hpow hk hg hh hv hr hb hcyc hh0 hC fun p => K o p).trans ?_
    simp only [ite_and]
    rfl
  simp only [e1]
  rw [sum_comm, mul_sum]
  refine sum_congr rfl fun y _ => ?_
  rw [sum_comm, mul_sum]
  refine sum_congr rfl fun z _ => ?_
  rw [sum_comm, mul_sum]
  refine sum_congr rfl fun x _ => ?_
  rw [sum_comm, mul_sum]
  refine sum_congr rfl fun s _ => ?_
  have lY := len_Y cv hE pp (simOf cv s) tr
  have lZ := len_Z cv hE pp n (val y) (val z) (val x) (simOf cv s) tr
  have lX := len_X cv hE pp n C (val y) (val z) (val x) (simOf cv s) tr
  generalize pointY cv pp.bullet (simOf cv s) tr = pY at *
  generalize pointZ cv pp.bullet n (val y) (val z) (val x) (simOf cv s) tr = pZ at *
  generalize pointX cv pp.bullet n C (val y) (val z) (val x) (simOf cv s) tr = pX at *
  have nY : pY ∉ l.map Prod.fst := fun h => by have := hl _ h; omega
  have nZ : pZ ∉ (l ++ [(pY, y)]).map Prod.fst := by
    intro h
    simp only [List.map_append, List.map_cons, List.map_nil, List.mem_append, List.mem_singleton] at h
    rcases h with h | h
    · have := hl _ h; omega
    · rw [h] at lZ; omega
  have nX : pX ∉ (l ++ [(pY, y)] ++ [(pZ, z)]).map Prod.fst := by
    intro h
    simp only [List.map_append, List.map_cons, List.map_nil, List.mem_append, List.mem_singleton] at h
    rcases h with (h | h) | h
    · have := hl _ h; omega
    · rw [h] at lX; omega
    · rw [h] at lX; omega
  have t1 := sum_step_const v0 l pY (fun o => if ext v0 o pZ = z then (if ext v0 o pX = x then K o
    (simulate cv (hash val v0 o) pp.bullet C (val y) (val z) (val x) (simOf cv s) tr) else 0) else 0) y (hQ _ (by omega)) nY
  have t2 := sum_step_const v0 (l ++ [(pY, y)]) pZ (fun o => if ext v0 o pX = x then K o
    (simulate cv (hash val v0 o) pp.bullet C (val y) (val z) (val x) (simOf cv s) tr) else 0) z (hQ _ (by omega)) nZ
  have t3 := sum_step_const v0 (l ++ [(pY, y)] ++ [(pZ, z)]) pX (fun o => K o
    (simulate cv (hash val v0 o) pp.bullet C (val y) (val z) (val x) (simOf cv s) tr)) x (hQ _ (by omega)) nX
  rw [show (Fintype.card V : ℝ) ^ 3 = Fintype.card V * (Fintype.card V * Fintype.card V) by ring, mul_assoc, mul_assoc, t1, t2, t3]
  simp only [List.append_assoc, List.cons_append, List.nil_append]

/-- What is left to draw after the range proof: the proof of the balance and the last proof. -/
noncomputable def realEnd (cv : Curve G) [Fintype (ZMod cv.order)] (pp : PP G) (val : V → ℤ) (v0 : V) (D : (Q → V) → Option (ToMany G) → ℝ)
    (st : ManyStatement G) (w sk : ℤ) (pfs : List (PlaintextEquality.Proof G)) (pf2 : PlaintextKnowledge.Proof G) (o : Q → V)
    (p3 : Option (Bullet.Proof G × Bytes)) : ℝ :=
  ∑ c4 : ZMod cv.order, ∑ c5 : ZMod cv.order, D o (p3.bind fun p3 =>
    let p4 := DLOGKnowledge.prove cv (hash val v0 o) (st.bal pp) w (ofF cv c4) p3.2
    some (st.ctx pfs p3.1 pf2 p4.1 (DLOGEquality.prove cv (hash val v0 o) (st.dl pp) sk (ofF cv c5)
      (p4.2 ++ toSignMany cv (st.ctx pfs p3.1 pf2 p4.1 ⟨0, 0, 0⟩))).1))

/-- The end of the simulation: the range proof is simulated, the values at the points of the last two proofs are set. -/
noncomputable def simEnd (cv : Curve G) (pp : PP G) (val : V → ℤ) (v0 : V) (D : (Q → V) → Option (ToMany G) → ℝ) (st : ManyStatement G)
    (pfs : List (PlaintextEquality.Proof G)) (pf2 : PlaintextKnowledge.Proof G) (tr : Bytes) (y z x : V) (s : SimCoins)
    (e1 : V) (d1 : ZMod cv.order) (e2 : V) (d2 : ZMod cv.order) (o : Q → V) : ℝ :=
  match simulate cv (hash val v0 o) pp.bullet st.C (val y) (val z) (val x) s tr with
  | none => 0
  | some (bp, t) =>
    let b := simDk (st.bal pp) (val e1) (ofF cv d1)
    let d := simDl (st.dl pp) (val e2) (ofF cv d2)
    D (put (put o (st.lastPoint pp cv pfs bp pf2 b t d) e2) (dkPoint cv (st.bal pp) t b) e1) (some (st.ctx pfs bp pf2 b d))

theorem end_step (cv : Curve G) [Fintype (ZMod cv.order)] {W : Nat} (hE : cv.Encodes W) (hW : 0 < W) (pp : PP G) (val : V → ℤ) (v0 : V)
    (D : (Q → V) → Option (ToMany G) → ℝ) (st : ManyStatement G) (w sk : ℤ) (h0 : (st.bal pp).h = w • (st.bal pp).g)
    (h1 : (st.dl pp).h1 = sk • (st.dl pp).g1) (h2 : (st.dl pp).h2 = sk • (st.dl pp).g2) (k : Nat)
    (hpow : pp.bullet.rangeLen * st.C.length = 2 ^ k) (hk : k < 64) (hg : pp.bullet.rangeLen * st.C.length ≤ pp.bullet.vecG.length)
    (l : List (Bytes × V)) (pfs : List (PlaintextEquality.Proof G)) (pf2 : PlaintextKnowledge.Proof G) (tr : Bytes) (y z x : V) (s : SimCoins)
    (hs : s.Ok cv.order (pp.bullet.rangeLen * st.C.length))
    (hl : ∀ b ∈ l.map Prod.fst, b.length ≤ (pointX cv pp.bullet st.C.length st.C (val y) (val z) (val x) s tr).length)
    (hQ : ∀ (o : Q → V) bp t (e : V) (c : ZMod cv.order) (d : DLOGEquality.Proof G),
      simulate cv (hash val v0 o) pp.bullet st.C (val y) (val z) (val x) s tr = some (bp, t) →
      dkPoint cv (st.bal pp) t (simDk (st.bal pp) (val e) (ofF cv c)) ∈ Q ∧
      st.lastPoint pp cv pfs bp pf2 (simDk (st.bal pp) (val e) (ofF cv c)) t d ∈ Q) :
    (Fintype.card V : ℝ) ^ 2 * ∑ o : Q → V, realEnd cv pp val v0 D st w sk pfs pf2 (prog l o)
        (simulate cv (hash val v0 (prog l o)) pp.bullet st.C (val y) (val z) (val x) s tr) =
      ∑ e1, ∑ d1 : ZMod cv.order, ∑ e2, ∑ d2 : ZMod cv.order, ∑ o : Q → V, simEnd cv pp val v0 D st pfs pf2 tr y z x s e1 d1 e2 d2 (prog l o) := by
  have loc := fun H => simulate_local cv hE H pp.bullet st.C k s tr (val y) (val z) (val x) hpow hk hg hs
  have e1 : ∀ o : Q → V, realEnd cv pp val v0 D st w sk pfs pf2 o (simulate cv (hash val v0 o) pp.bullet st.C (val y) (val z) (val x) s tr) =
      ∑ e1, ∑ d1 : ZMod cv.order, ∑ e2, ∑ d2 : ZMod cv.order,
        if ext v0 o (match simulate cv (hash val v0 o) pp.bullet st.C (val y) (val z) (val x) s tr with
          | none => [] | some (_, t) => dkPoint cv (st.bal pp) t (simDk (st.bal pp) (val e1) (ofF cv d1))) = e1 then
        (if ext v0 o (match simulate cv (hash val v0 o) pp.bullet st.C (val y) (val z) (val x) s tr with
          | none => [] | some (bp, t) => st.lastPoint pp cv pfs bp pf2 (simDk (st.bal pp) (val e1) (ofF cv d1)) t
              (simDl (st.dl pp) (val e2) (ofF cv d2))) = e2 then
          (match simulate cv (hash val v0 o) pp.bullet st.C (val y) (val z) (val x) s tr with
            | none => 0
            | some (bp, _) => D o (some (st.ctx pfs bp pf2 (simDk (st.bal pp) (val e1) (ofF cv d1)) (simDl (st.dl pp) (val e2) (ofF cv d2)))))
          else 0) else 0 := by
    intro o
    obtain ⟨bp, t, hsim, -⟩ := loc (hash val v0 o)
    simp only [hsim, realEnd, Option.bind_some]
    refine (sum_dk cv (ext v0 o) val (st.bal pp) w h0 t fun p4 => ∑ c5 : ZMod cv.order, D o (some (st.ctx pfs bp pf2 p4.1
      (DLOGEquality.prove cv (hash val v0 o) (st.dl pp) sk (ofF cv c5) (p4.2 ++ toSignMany cv (st.ctx pfs bp pf2 p4.1 ⟨0, 0, 0⟩))).1))).trans ?_
    refine sum_congr rfl fun e1 _ => sum_congr rfl fun d1 _ => ?_
    by_cases he : ext v0 o (dkPoint cv (st.bal pp) t (simDk (st.bal pp) (val e1) (ofF cv d1))) = e1
    · simp only [if_pos he]
      exact sum_dl cv (ext v0 o) val (st.dl pp) sk h1 h2 _ fun d => D o (some (st.ctx pfs bp pf2 (simDk (st.bal pp) (val e1) (ofF cv d1)) d))
    · simp only [if_neg he, sum_const_zero]
  simp only [e1]
  rw [sum_comm, mul_sum]
  refine sum_congr rfl fun e1 _ => ?_
  rw [sum_comm, mul_sum]
  refine sum_congr rfl fun d1 _ => ?_
  rw [sum_comm, mul_sum]
  refine sum_congr rfl fun e2 _ => ?_
  rw [sum_comm, mul_sum]
  refine sum_congr rfl fun d2 _ => ?_
  set b := simDk (st.bal pp) (val e1) (ofF cv d1) with hb
  set d := simDl (st.dl pp) (val e2) (ofF cv d2) with hd
  have len1 : ∀ t : Bytes, (dkPoint cv (st.bal pp) t b).length = t.length + 3 * W := by
    intro t
    simp only [dkPoint, List.length_append, hE.len]
    omega
  have len2 : ∀ (bp : Bullet.Proof G) (t : Bytes), (dkPoint cv (st.bal pp) t b).length < (st.lastPoint pp cv pfs bp pf2 b t d).length := by
    intro bp t
    simp only [ManyStatement.lastPoint, dlPoint, DLOGEquality.initTranscript, List.length_append, hE.len]
    omega
  -- setting a value at a long string does not change the simulated range proof
  have keep : ∀ (o : Q → V) (bp : Bullet.Proof G) (t : Bytes) (c : Bytes) (a : V),
      simulate cv (hash val v0 o) pp.bullet st.C (val y) (val z) (val x) s tr = some (bp, t) → t.length < c.length →
      simulate cv (hash val v0 (put o c a)) pp.bullet st.C (val y) (val z) (val x) s tr = some (bp, t) := by
    intro o bp t c a hsim hc
    obtain ⟨bp', t', hsim', -, -, -, -, hcongr⟩ := loc (hash val v0 o)
    rw [hsim, Option.some.injEq, Prod.mk.injEq] at hsim'
    obtain ⟨rfl, rfl⟩ := hsim'
    refine hcongr _ fun b hb => ?_
    rw [hash, hash, ext_put_ne]
    rintro rfl
    omega
  have notl : ∀ (o : Q → V) (bp : Bullet.Proof G) (t c : Bytes),
      simulate cv (hash val v0 o) pp.bullet st.C (val y) (val z) (val x) s tr = some (bp, t) → t.length < c.length → c ∉ l.map Prod.fst := by
    intro o bp t c hsim hc hm
    obtain ⟨bp', t', hsim', ht', -⟩ := loc (hash val v0 o)
    rw [hsim, Option.some.injEq, Prod.mk.injEq] at hsim'
    obtain ⟨rfl, rfl⟩ := hsim'
    have := hl _ hm
    omega
  rw [sum_two v0 l (fun o => match simulate cv (hash val v0 o) pp.bullet st.C (val y) (val z) (val x) s tr with
          | none => [] | some (_, t) => dkPoint cv (st.bal pp) t b)
      (fun o => match simulate cv (hash val v0 o) pp.bullet st.C (val y) (val z) (val x) s tr with
          | none => [] | some (bp, t) => st.lastPoint pp cv pfs bp pf2 b t d)
      (fun o => match simulate cv (hash val v0 o) pp.bullet st.C (val y) (val z) (val x) s tr with
            | none => 0 | some (bp, _) => D o (some (st.ctx pfs bp pf2 b d))) e1 e2]
  · refine sum_congr rfl fun o _ => ?_
    obtain ⟨bp, t, hsim, -⟩ := loc (hash val v0 (prog l o))
    have l1 := len1 t
    have l2 := len2 bp t
    simp only [hsim, simEnd, ← hb, ← hd]
    rw [keep _ bp t _ _ (keep _ bp t _ _ hsim (by omega)) (by omega)]
  · intro o
    obtain ⟨bp, t, hsim, -⟩ := loc (hash val v0 o)
    simp only [hsim]
    exact (hQ _ _ _ e1 d1 d hsim).1
  · intro o
    obtain ⟨bp, t, hsim, -⟩ := loc (hash val v0 o)
    simp only [hsim]
    exact (hQ _ _ _ e1 d1 d hsim).2
  · intro o
    obtain ⟨bp, t, hsim, -⟩ := loc (hash val v0 o)
    have l1 := len1 t
    simp only [hsim]
    exact notl o bp t _ hsim (by omega)
  · intro o
    obtain ⟨bp, t, hsim, -⟩ := loc (hash val v0 o)
    have l1 := len1 t
    have l2 := len2 bp t
    simp only [hsim]
    exact notl o bp t _ hsim (by omega)
  · intro o
    obtain ⟨bp, t, hsim, -⟩ := loc (hash val v0 o)
    have l2 := len2 bp t
    simp only [hsim]
    intro h
    rw [h] at l2
    omega
  all_goals
    intro o a
    obtain ⟨bp, t, hsim, -⟩ := loc (hash val v0 o)
    have l1 := len1 t
    have l2 := len2 bp t
    simp only [hsim]
    rw [keep _ bp t _ _ hsim (by omega)]

/-- The strings hashed for a transaction with `n` receivers are not longer than this: `W` bytes for a point, at most `B` for a number below the order or a
challenge, `2^k` bits in the range proof. -/
def hashedMany (W B k n : ℕ) (sn : ℤ) : ℕ := (14 * n + 4 * k + 40) * W + 9 * B + (hexString sn).length

/-- What the comparison needs for `n` receivers: sizes of the parameters, an oracle for all strings that are hashed, challenges that are no multiples of
the order. -/
structure SettingMany (cv : Curve G) (pp : PP G) (val : V → ℤ) (Q : Finset Bytes) (W B k n : ℕ) (sn : ℤ) : Prop where
  base_g : pp.bullet.g = pp.enc.g
  base_h : pp.bullet.h = pp.enc.h
  pow : pp.bullet.rangeLen * (n + 1) = 2 ^ k
  small : k < 64
  lenG : pp.bullet.rangeLen * (n + 1) ≤ pp.bullet.vecG.length
  lenH : pp.bullet.rangeLen * (n + 1) ≤ pp.bullet.vecH.length
  gen : ∀ P : G, ∃ a : ℤ, P = a • pp.enc.g
  ne : pp.enc.h ≠ 0
  enc : cv.Encodes W
  pos : 0 < W
  chal : ∀ e, ¬ (cv.order : ℤ) ∣ val e
  bytes : ∀ a : ℤ, 0 ≤ a → a < cv.order → (BigInt.toByteString a).length ≤ B
  bytesV : ∀ e, (BigInt.toByteString (val e)).length ≤ B
  all : ∀ b : Bytes, b.length ≤ hashedMany W B k n sn → b ∈ Q

/-- All answers of `D` to simulated transactions with `n` receivers. Only the statement is used, no secret key, amounts or encryption randomness. -/
noncomputable def simMany (cv : Curve G) [Fintype (ZMod cv.order)] (pp : PP G) (val : V → ℤ) (v0 : V) (D : (Q → V) → Option (ToMany G) → ℝ)
    (n : ℕ) (st : ManyStatement G) : ℝ :=
  simLegs cv pp val (st.eqs pp) [] [] fun l pfs p1 => ∑ e2, ∑ w2 : ZMod cv.order × ZMod cv.order,
    let pf2 := simKn pp.enc st.kn (val e2) (ofF cv w2.1) (ofF cv w2.2)
    let p2 := knPoint cv st.kn p1 pf2
    ∑ y, ∑ z, ∑ x, ∑ s : Shape cv.order (pp.bullet.rangeLen * (n + 1)),
      let l' := l ++ [(p2, e2)] ++ [(pointY cv pp.bullet (simOf cv s) p2, y),
        (pointZ cv pp.bullet (n + 1) (val y) (val z) (val x) (simOf cv s) p2, z),
        (pointX cv pp.bullet (n + 1) st.C (val y) (val z) (val x) (simOf cv s) p2, x)]
      ∑ eb, ∑ db : ZMod cv.order, ∑ ed, ∑ dd : ZMod cv.order, ∑ o : Q → V,
        simEnd cv pp val v0 D st pfs pf2 p2 y z x (simOf cv s) eb db ed dd (prog l' o)

/-- Lengths of what is signed. -/
theorem toSignMany_length (cv : Curve G) {W : ℕ} (hE : cv.Encodes W) (ctx : ToMany G) (h1 : ∀ ct ∈ ctx.transfers, ct.vecX.length = 2)
    (h2 : ∀ pf ∈ ctx.pteqs, pf.vecA.length = 2) :
    (toSignMany cv ctx).length = (hexString ctx.sn).length + (11 + ctx.pkrs.length + 3 * ctx.transfers.length + 2 * ctx.pteqs.length + ctx.bullet.ip.vecL.length +
      ctx.bullet.ip.vecR.length + 3) * W + (BigInt.toByteString ctx.bullet.taux).length + (BigInt.toByteString ctx.bullet.mu).length +
      (BigInt.toByteString ctx.bullet.tx).length + (BigInt.toByteString ctx.bullet.ip.a).length + (BigInt.toByteString ctx.bullet.ip.b).length +
      (BigInt.toByteString ctx.ptke.z1).length + (BigInt.toByteString ctx.ptke.z2).length + (BigInt.toByteString ctx.balance.z).length := by
  have e1 : ((ctx.transfers.map (mrctBytes cv)).flatten).length = ctx.transfers.length * (3 * W) := by
    generalize ctx.transfers = l at h1
    induction l with
    | nil => simp
    | cons ct l ih =>
      simp only [List.map_cons, List.flatten_cons, List.length_append, ih fun c hc => h1 c (by simp [hc]), mrctBytes, hE.flatten_length, hE.len,
        h1 ct (by simp), List.length_cons]
      ring
  have e2 : ((ctx.pteqs.map (PlaintextEquality.proofToByteString cv)).flatten).length = ctx.pteqs.length * (2 * W) := by
    generalize ctx.pteqs = l at h2
    induction l with
    | nil => simp
    | cons ct l ih =>
      simp only [List.map_cons, List.flatten_cons, List.length_append, ih fun c hc => h2 c (by simp [hc]), PlaintextEquality.proofToByteString,
        hE.flatten_length, h2 ct (by simp), List.length_cons]
      ring
  simp only [toSignMany, List.length_append, e1, e2, hE.len, hE.flatten_length, ctBytes, Bullet.proofToByteString, InnerProduct.proofToByteString,
    PlaintextKnowledge.proofToByteString, DLOGKnowledge.proofToByteString]
  ring

/-- `CreateCTx` for many receivers, summed over all oracles and all scalars of the proofs, is the simulator, summed over all it draws. -/
theorem realMany_eq_sim (cv : Curve G) [Fintype (ZMod cv.order)] (pp : PP G) (val : V → ℤ) (v0 : V) {W B k : ℕ} (a : Account G) (vs : List ℕ)
    (hS : SettingMany cv pp val Q W B k vs.length a.sn) (D : (Q → V) → Option (ToMany G) → ℝ) (m : ℕ) (pkrs : List G) (r : ℤ) (rs : List ℤ) (rStar : ℤ)
    (ha : Sane cv pp a) (h1 : pkrs.length = vs.length) (h2 : rs.length = vs.length) (hm : a.m = m) (hv : vs.sum ≤ m)
    (hv1 : ∀ v ∈ vs, v < 2 ^ pp.bullet.rangeLen) (hv2 : m - vs.sum < 2 ^ pp.bullet.rangeLen) :
    (Fintype.card V : ℝ) ^ (vs.length + 6) * realMany cv pp val v0 D a (vs.map Nat.cast) pkrs r rs rStar =
      simMany cv pp val v0 D vs.length (manyStatement pp a (vs.map Nat.cast) pkrs r rs rStar) := by
  have hlv : (vs.map (Nat.cast : ℕ → ℤ)).length = vs.length := List.length_map _
  have hsum : (vs.map (Nat.cast : ℕ → ℤ)).sum = (vs.sum : ℕ) := by
    clear * -
    induction vs with
    | nil => simp
    | cons v vs ih => rw [List.map_cons, List.sum_cons, List.sum_cons, ih, Nat.cast_add]
  obtain ⟨w0, w1, w2⟩ := many_statement cv pp a (vs.map Nat.cast) pkrs r rs rStar ha (by rw [hlv, h1]) (by rw [hlv, h2])
  have hlegs := legCts_legs pp (vs.map Nat.cast) pkrs rs (by rw [hlv, h1]) (by rw [hlv, h2])
  have hcl := (legs_length hlegs).2.2
  have hcX := legs_X hlegs
  have hY := (legs_Y hlegs).1
  have hvs : (vs.map (Nat.cast : ℕ → ℤ)) ++ [a.m - (vs.map (Nat.cast : ℕ → ℤ)).sum] = (vs ++ [m - vs.sum]).map (Nat.cast : ℕ → ℤ) := by
    rw [hsum, hm, List.map_append, List.map_singleton, Nat.cast_sub hv]
  have hCC : (manyStatement pp a (vs.map Nat.cast) pkrs r rs rStar).C =
      List.zipWith (fun (a : ℤ) (m : ℕ) => a • pp.bullet.g + m • pp.bullet.h) (rs ++ [rStar]) (vs ++ [m - vs.sum]) := by
    rw [List.zipWith_append h2, hS.base_g, hS.base_h]
    simp only [ManyStatement.C, manyStatement, hY, hsum, hm, Twisted.enc, msm_two, List.zipWith_map_right, natCast_zsmul, List.zipWith_cons_cons,
      List.zipWith_nil_left]
    rw [← Nat.cast_sub hv, natCast_zsmul]
  have hkn : (manyStatement pp a (vs.map Nat.cast) pkrs r rs rStar).kn = ⟨(manyStatement pp a (vs.map Nat.cast) pkrs r rs rStar).kn.pk,
      Twisted.enc pp.enc (manyStatement pp a (vs.map Nat.cast) pkrs r rs rStar).kn.pk (a.m - (vs.map (Nat.cast : ℕ → ℤ)).sum) rStar⟩ := rfl
  have hsn : (manyStatement pp a (vs.map Nat.cast) pkrs r rs rStar).sn = a.sn := rfl
  have hpk : (manyStatement pp a (vs.map Nat.cast) pkrs r rs rStar).pkrs = pkrs := rfl
  have hct : (manyStatement pp a (vs.map Nat.cast) pkrs r rs rStar).cts = legCts pp (vs.map Nat.cast) pkrs rs := rfl
  -- the parts of `CreateCTx`
  set st := manyStatement pp a (vs.map Nat.cast) pkrs r rs rStar with hst
  have hC : st.C.length = vs.length + 1 := by
    rw [ManyStatement.C, List.length_append, List.length_map, hct, hcl, h1]
    rfl
  have e0 : realMany cv pp val v0 D a (vs.map Nat.cast) pkrs r rs rStar =
      ∑ o, sumLists univ vs.length fun cs : List (ZMod cv.order × ZMod cv.order) =>
        (fun (o : Q → V) (p1 : Option (List (PlaintextEquality.Proof G) × Bytes)) => ∑ c2 : ZMod cv.order × ZMod cv.order,
          ∑ c3 : Shape cv.order (pp.bullet.rangeLen * (vs.length + 1)), ∑ c4 : ZMod cv.order, ∑ c5 : ZMod cv.order, D o (p1.bind fun p1 =>
            let p2 := PlaintextKnowledge.prove cv pp.enc (hash val v0 o) st.kn (a.m - (vs.map (Nat.cast : ℕ → ℤ)).sum) rStar (ofF cv c2.1) (ofF cv c2.2) p1.2
            (Bullet.prove cv (hash val v0 o) pp.bullet (vs.length + 1) (rs ++ [rStar]) ((vs ++ [m - vs.sum]).map (Nat.cast : ℕ → ℤ)) (coinsOf cv c3) p2.2).bind
            fun p3 =>
              let p4 := DLOGKnowledge.prove cv (hash val v0 o) (st.bal pp) (r - rs.sum) (ofF cv c4) p3.2
              some (st.ctx p1.1 p3.1 p2.1 p4.1 (DLOGEquality.prove cv (hash val v0 o) (st.dl pp) a.sk (ofF cv c5)
                (p4.2 ++ toSignMany cv (st.ctx p1.1 p3.1 p2.1 p4.1 ⟨0, 0, 0⟩))).1))) o
          (proveLegs cv (hash val v0 o) pp (vs.map Nat.cast) pkrs (legCts pp (vs.map Nat.cast) pkrs rs) (legCoins cv rs cs) []) := by
    unfold realMany
    rw [hlv]
    refine sum_congr rfl fun o _ => sumLists_congr _ _ _ _ fun cs hcs _ => ?_
    have hr := legCoins_r cv rs cs (by rw [hcs, h2])
    refine sum_congr rfl fun c2 _ => sum_congr rfl fun c3 _ => sum_congr rfl fun c4 _ => sum_congr rfl fun c5 _ => ?_
    rw [createMany_eq cv _ pp a (vs.map Nat.cast) pkrs r _ ha (by rw [hlv, h1]) (by simp [legCoins, hcs, h2])]
    simp only [hr, ← hst, hct, hlv, hvs]
  have big : 14 * (vs.length * W) + 4 * (k * W) + 40 * W + 9 * B + (hexString a.sn).length = hashedMany W B k vs.length a.sn := by unfold hashedMany; ring
  have hxs : (st.eqs pp).length = vs.length := by
    rw [ManyStatement.eqs, List.length_zipWith, hpk, hct, hcl, h1, Nat.min_self]
  have hm8 : 8 * W * vs.length = 8 * (vs.length * W) := by ring
  rw [e0, pow_add, mul_comm ((Fintype.card V : ℝ) ^ vs.length), mul_assoc]
  have step1 := legs_step cv hS.enc hS.pos pp val v0 (hashedMany W B k vs.length a.sn) hS.all hlegs
    (fun (o : Q → V) (p1 : Option (List (PlaintextEquality.Proof G) × Bytes)) => ∑ c2 : ZMod cv.order × ZMod cv.order,
          ∑ c3 : Shape cv.order (pp.bullet.rangeLen * (vs.length + 1)), ∑ c4 : ZMod cv.order, ∑ c5 : ZMod cv.order, D o (p1.bind fun p1 =>
            let p2 := PlaintextKnowledge.prove cv pp.enc (hash val v0 o) st.kn (a.m - (vs.map (Nat.cast : ℕ → ℤ)).sum) rStar (ofF cv c2.1) (ofF cv c2.2) p1.2
            (Bullet.prove cv (hash val v0 o) pp.bullet (vs.length + 1) (rs ++ [rStar]) ((vs ++ [m - vs.sum]).map (Nat.cast : ℕ → ℤ)) (coinsOf cv c3) p2.2).bind
            fun p3 =>
              let p4 := DLOGKnowledge.prove cv (hash val v0 o) (st.bal pp) (r - rs.sum) (ofF cv c4) p3.2
              some (st.ctx p1.1 p3.1 p2.1 p4.1 (DLOGEquality.prove cv (hash val v0 o) (st.dl pp) a.sk (ofF cv c5)
                (p4.2 ++ toSignMany cv (st.ctx p1.1 p3.1 p2.1 p4.1 ⟨0, 0, 0⟩))).1))) [] [] (by simp) (by rw [hlv, List.length_nil]; omega)
  rw [hlv] at step1
  refine (congrArg _ step1).trans ?_
  unfold simMany
  have hxx : ∀ x ∈ st.eqs pp, x.vecPk.length = 2 ∧ x.ct.vecX.length = 2 := by
    intro x hx
    rw [ManyStatement.eqs, hct] at hx
    obtain ⟨i, hi, rfl⟩ := List.getElem_of_mem hx
    rw [List.getElem_zipWith]
    exact ⟨rfl, hcX _ (List.getElem_mem _)⟩
  refine simLegs_mul cv hS.enc pp val _ (st.eqs pp) hxx _ _ [] [] (by simp) ?_
  intro l pfs p1 t1 t2 t3 t4
  rw [hxs, List.length_nil, zero_add] at t1
  rw [show (Fintype.card V : ℝ) ^ 6 = (Fintype.card V : ℝ) ^ 5 * Fintype.card V by ring, mul_assoc]
  refine (congrArg _ (kn_stage cv hS.enc hS.pos pp val v0 (hashedMany W B k vs.length a.sn) hS.all
    (fun (o : Q → V) p2 => ∑ c3 : Shape cv.order (pp.bullet.rangeLen * (vs.length + 1)), realEnd cv pp val v0 D st (r - rs.sum) a.sk pfs p2.1 o
      (Bullet.prove cv (hash val v0 o) pp.bullet (vs.length + 1) (rs ++ [rStar]) ((vs ++ [m - vs.sum]).map (Nat.cast : ℕ → ℤ)) (coinsOf cv c3) p2.2))
    st.kn (a.m - (vs.map (Nat.cast : ℕ → ℤ)).sum) rStar hkn p1 (by omega) l t2)).trans ?_
  rw [mul_sum]
  refine sum_congr rfl fun e2 _ => ?_
  rw [mul_sum]
  refine sum_congr rfl fun w2' _ => ?_
  dsimp only
  have l2 := len_kn cv hS.enc st.kn p1 (simKn pp.enc st.kn (val e2) (ofF cv w2'.1) (ofF cv w2'.2))
  have z1 : (simKn pp.enc st.kn (val e2) (ofF cv w2'.1) (ofF cv w2'.2)).z1 = ofF cv w2'.1 := rfl
  have z2 : (simKn pp.enc st.kn (val e2) (ofF cv w2'.1) (ofF cv w2'.2)).z2 = ofF cv w2'.2 := rfl
  generalize simKn pp.enc st.kn (val e2) (ofF cv w2'.1) (ofF cv w2'.2) = pf2 at *
  generalize knPoint cv st.kn p1 pf2 = p2 at *
  have hl2 : ∀ b ∈ (l ++ [(p2, e2)]).map Prod.fst, b.length ≤ p2.length := by
    intro b hb
    simp only [List.map_append, List.map_cons, List.map_nil, List.mem_append, List.mem_singleton] at hb
    rcases hb with hb | rfl
    · have := t2 _ hb
      omega
    · exact le_rfl
  rw [show (Fintype.card V : ℝ) ^ 5 = (Fintype.card V : ℝ) ^ 2 * (Fintype.card V : ℝ) ^ 3 by ring, mul_assoc,
    bullet_stage cv hS.enc hS.pos pp val v0 hS.chal (hashedMany W B k vs.length a.sn) hS.all (fun o p3 => realEnd cv pp val v0 D st (r - rs.sum) a.sk pfs pf2 o p3)
      (vs.length + 1) k (rs ++ [rStar]) (vs ++ [m - vs.sum]) st.C p2 hS.pow hS.small hS.lenG hS.lenH (by simp) (by simp [h2]) (by
        intro x hx
        simp only [List.mem_append, List.mem_singleton] at hx
        rcases hx with hx | rfl
        · exact hv1 x hx
        · exact hv2) (by rw [hS.base_g]; exact hS.gen) (by rw [hS.base_h]; exact hS.ne) hCC (by omega) _ hl2]
  rw [mul_sum]
  refine sum_congr rfl fun y _ => ?_
  rw [mul_sum]
  refine sum_congr rfl fun z _ => ?_
  rw [mul_sum]
  refine sum_congr rfl fun x _ => ?_
  rw [mul_sum]
  refine sum_congr rfl fun s _ => ?_
  have lY := len_Y cv hS.enc pp (simOf cv s) p2
  have lZ := len_Z cv hS.enc pp (vs.length + 1) (val y) (val z) (val x) (simOf cv s) p2
  have lX := len_X cv hS.enc pp (vs.length + 1) st.C (val y) (val z) (val x) (simOf cv s) p2
  refine end_step cv hS.enc hS.pos pp val v0 D st (r - rs.sum) a.sk w0 w1 w2 k (by rw [hC]; exact hS.pow) hS.small (by rw [hC]; exact hS.lenG) _ pfs pf2 p2 y z x
    (simOf cv s) (by rw [hC]; exact simOf_ok cv s) ?_ ?_
  · intro b hb
    rw [List.map_append, List.mem_append] at hb
    rw [hC, lX]
    rcases hb with hb | hb
    · have := hl2 _ hb
      omega
    · simp only [List.map_cons, List.map_nil, List.mem_cons, List.not_mem_nil, or_false] at hb
      rcases hb with rfl | rfl | rfl <;> omega
  · intro o bp t e c d hsim
    obtain ⟨bp', t', hsim', ht, k1, k2, hcan, -⟩ := simulate_local cv hS.enc (hash val v0 o) pp.bullet st.C k (simOf cv s) p2 (val y) (val z) (val x)
      (by rw [hC]; exact hS.pow) hS.small (by rw [hC]; exact hS.lenG) (by rw [hC]; exact simOf_ok cv s)
    rw [hsim, Option.some.injEq, Prod.mk.injEq] at hsim'
    obtain ⟨rfl, rfl⟩ := hsim'
    rw [hC, lX] at ht
    have b1 := hS.bytesV x
    have bb : ∀ c ∈ [bp.taux, bp.mu, bp.tx, bp.ip.a, bp.ip.b], (BigInt.toByteString c).length ≤ B := fun c hc =>
      hS.bytes c (hcan c hc).1 (hcan c hc).2
    have b2 := bb bp.taux (by simp)
    have b3 := bb bp.mu (by simp)
    have b4 := bb bp.tx (by simp)
    have b5 := bb bp.ip.a (by simp)
    have b6 := bb bp.ip.b (by simp)
    have b7 := hS.bytes _ (ofF_range cv w2'.1).1 (ofF_range cv w2'.1).2
    have b8 := hS.bytes _ (ofF_range cv w2'.2).1 (ofF_range cv w2'.2).2
    have b9 : (BigInt.toByteString (simDk (st.bal pp) (val e) (ofF cv c)).z).length ≤ B := hS.bytes _ (ofF_range cv c).1 (ofF_range cv c).2
    rw [← z1] at b7
    rw [← z2] at b8
    generalize simDk (st.bal pp) (val e) (ofF cv c) = bal at *
    have ld : (dkPoint cv (st.bal pp) t bal).length = t.length + 3 * W := by
      simp only [dkPoint, List.length_append, hS.enc.len]
      omega
    have q2 : 2 * W * k = 2 * (k * W) := by ring
    have lsign := toSignMany_length cv hS.enc (st.ctx pfs bp pf2 bal ⟨0, 0, 0⟩) (by simpa only [ManyStatement.ctx, hct] using hcX) t4
    have f1 : (st.ctx pfs bp pf2 bal ⟨0, 0, 0⟩).pkrs.length = vs.length := by simp only [ManyStatement.ctx, hpk, h1]
    have f2 : (st.ctx pfs bp pf2 bal ⟨0, 0, 0⟩).transfers.length = vs.length := by simp only [ManyStatement.ctx, hct, hcl, h1]
    have f3 : (st.ctx pfs bp pf2 bal ⟨0, 0, 0⟩).pteqs.length = vs.length := by simp only [ManyStatement.ctx, t3, hxs]
    rw [f1, f2, f3] at lsign
    have f4 : (11 + vs.length + 3 * vs.length + 2 * vs.length + k + k + 3) * W = 14 * W + 6 * (vs.length * W) + 2 * (k * W) := by ring
    simp only [ManyStatement.ctx, k1, k2, hsn, f4] at lsign
    refine ⟨hS.all _ ?_, hS.all _ ?_⟩
    · rw [← big]
      omega
    · rw [← big]
      simp only [ManyStatement.lastPoint, dlPoint, DLOGEquality.initTranscript, List.length_append, hS.enc.len, ld, ManyStatement.ctx, hsn, lsign]
      omega

end ADCP

end Kunlun
