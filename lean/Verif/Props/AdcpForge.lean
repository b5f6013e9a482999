import Verif.Props.NizkForge
import Verif.Props.AdcpSound
import Verif.Props.BulletBind
import Verif.Props.AdcpMany
/-!
C129: what an accepted transaction of adcp/adcp.hpp shows, in the random-oracle model of C127 and C128. The sender is any program that asks for hash values and ends with a
transaction of its choice.
-/

namespace Kunlun.Fork

open Oracle
open Schnorr (hash ind ind_nonneg put_update)

variable {Q : Finset Bytes} {S : Finset ℤ} {R : Type}

/-- The hash value of `s`, asked for if `s` is one of the strings of the oracle. -/
def askFor (v0 : S) (s : Bytes) (k : S → Adv Q S R) : Adv Q S R := if h : s ∈ Q then .ask ⟨s, h⟩ k else k v0

theorem askFor_within (v0 : S) (s : Bytes) (k : S → Adv Q S R) (n : Nat) (h : ∀ v, (k v).Within n) : (askFor v0 s k).Within (n + 1) := by
  unfold askFor
  split
  · exact h
  · exact (k v0).within_mono n (n + 1) (h v0) (by omega)

theorem askFor_queries (v0 : S) (s : Bytes) (k : S → Adv Q S R) (o : Q → S) (x : Q) (v : S) (hv : (v : ℤ) = hash v0 o s) (hx : x ∈ (k v).queries o) :
    x ∈ (askFor v0 s k).queries o := by
  unfold askFor
  split
  · next h =>
    have : v = o ⟨s, h⟩ := Subtype.ext (by rw [hv]; simp [Schnorr.hash, ext, h])
    subst this
    exact List.mem_cons_of_mem _ hx
  · next h =>
    have : v = v0 := Subtype.ext (by rw [hv]; simp [Schnorr.hash, ext, h])
    rwa [← this]

/-- The program that, before it ends, asks for the value of the string `p` and then for that of the string `q` made with it (proof device). -/
def close2 (v0 : S) (p : R → Bytes) (q : ℤ → R → Bytes) : Adv Q S R → Adv Q S R
  | .done r => askFor v0 (p r) fun v => askFor v0 (q v r) fun _ => .done r
  | .ask x k => .ask x fun v => close2 v0 p q (k v)

theorem close2_within (v0 : S) (p : R → Bytes) (q : ℤ → R → Bytes) (P : Adv Q S R) (n : Nat) (h : P.Within n) : (close2 v0 p q P).Within (n + 2) := by
  induction P generalizing n with
  | done r =>
    rw [close2]
    exact askFor_within v0 _ _ _ fun v => (askFor_within v0 _ _ _ fun _ => trivial)
  | ask x k ih =>
    cases n with
    | zero => exact h.elim
    | succ n => exact fun v => ih v n (h v)

theorem close2_asked (v0 : S) (p : R → Bytes) (q : ℤ → R → Bytes) (P : Adv Q S R) (o : Q → S) (h : q (hash v0 o (p (P.run o))) (P.run o) ∈ Q) :
    (⟨_, h⟩ : Q) ∈ (close2 v0 p q P).queries o := by
  induction P with
  | done r =>
    rw [close2]
    refine askFor_queries v0 (p r) _ o _ (ext v0 o (p r)) rfl ?_
    change q (hash v0 o (p r)) r ∈ Q at h
    change _ ∈ (askFor v0 (q (hash v0 o (p r)) r) _).queries o
    unfold askFor
    rw [dif_pos h]
    simp [Adv.queries, Adv.run]
  | ask x k ih => exact List.mem_cons_of_mem _ (ih (o x) h)

end Kunlun.Fork

namespace Kunlun.Bullet

variable {G : Type} [AddCommGroup G] [DecidableEq G]

/-- The transcript `FastVerify` hands on: everything hashed, with the value `x` of the third string. -/
def endTr (cv : Curve G) (n : Nat) (tr : Bytes) (pf : Proof G) (x : ℤ) : Bytes :=
  tr ++ cv.toBytes pf.A ++ cv.toBytes pf.S ++ cv.toBytes pf.T1 ++ cv.toBytes pf.T2 ++ BigInt.toByteString x ++ InnerProduct.pairBytes cv pf.ip.vecL pf.ip.vecR n

theorem fastVerify_endTr (cv : Curve G) (H : Bytes → ℤ) (pp : PP G) (C : List G) (c : ℤ) (tr : Bytes) (pf : Proof G) (b : Bool) (t : Bytes)
    (h : fastVerify cv H pp C c tr pf = some (b, t)) : t = endTr cv (pp.rangeLen * C.length).log2 tr pf (H (query cv H tr pf 2)) := by
  unfold fastVerify at h
  dsimp only at h
  split at h
  · cases h
  obtain ⟨_, -, h⟩ := Option.bind_eq_some_iff.1 h
  obtain ⟨_, -, h⟩ := Option.bind_eq_some_iff.1 h
  obtain ⟨_, -, h⟩ := Option.bind_eq_some_iff.1 h
  obtain ⟨_, -, h⟩ := Option.bind_eq_some_iff.1 h
  split at h
  · cases h
  obtain ⟨_, -, h⟩ := Option.bind_eq_some_iff.1 h
  obtain ⟨_, -, h⟩ := Option.bind_eq_some_iff.1 h
  obtain ⟨⟨xs, t'⟩, hc, h⟩ := Option.bind_eq_some_iff.1 h
  obtain ⟨_, -, h⟩ := Option.bind_eq_some_iff.1 h
  obtain ⟨_, -, h⟩ := Option.bind_eq_some_iff.1 h
  obtain ⟨_, -, h⟩ := Option.bind_eq_some_iff.1 h
  rw [Option.pure_def, Option.some.injEq, Prod.mk.injEq] at h
  rw [← h.2]
  rw [InnerProduct.challenges_tr cv H _ _ _ _ _ _ hc]
  simp only [endTr, query, List.append_assoc]

end Kunlun.Bullet

namespace Kunlun.ADCP

open Fork

variable {G : Type} [AddCommGroup G] [DecidableEq G] {Q : Finset Bytes} {S : Finset ℤ}

/-! ### Transactions with one receiver -/

/-- The transaction is accepted, for some scalar that `FastVerify` may draw. -/
def Accepted (cv : Curve G) (pp : PP G) (H : Bytes → ℤ) (ctx : ToOne G) : Prop := ∃ s, verifyCTx cv H pp s ctx = some true

/-- The string hashed for the last challenge, `x` being the third challenge of the range proof. -/
def lastPoint (cv : Curve G) (pp : PP G) (x : ℤ) (ctx : ToOne G) : Bytes :=
  DLOGEquality.point cv (Bullet.endTr cv (pp.bullet.rangeLen * 2).log2 (rangeTr cv pp ctx) ctx.bullet x ++ toSign cv ctx,
    refreshInstance pp (updated ctx.senderBalance ((ctx.transfer.vecX[0]?).getD 0) ctx.transfer.Y) ctx.refresh ctx.pks, ctx.dlogeq)

/-- The string hashed for the third challenge of the range proof. -/
def thirdPoint (cv : Curve G) (pp : PP G) (ctx : ToOne G) : Bytes := Bullet.query cv (fun _ => 0) (rangeTr cv pp ctx) ctx.bullet 2

/-- The string hashed for the last challenge. -/
def spendPoint (cv : Curve G) (pp : PP G) (H : Bytes → ℤ) (ctx : ToOne G) : Bytes := lastPoint cv pp (H (thirdPoint cv pp ctx)) ctx

theorem accepted_last (cv : Curve G) (pp : PP G) (H : Bytes → ℤ) (ctx : ToOne G) (h : Accepted cv pp H ctx) :
    (DLOGEquality.verify cv H (refreshInstance pp (updated ctx.senderBalance ((ctx.transfer.vecX[0]?).getD 0) ctx.transfer.Y) ctx.refresh ctx.pks)
      (Bullet.endTr cv (pp.bullet.rangeLen * 2).log2 (rangeTr cv pp ctx) ctx.bullet (H (thirdPoint cv pp ctx)) ++ toSign cv ctx) ctx.dlogeq).1 = true := by
  obtain ⟨s, h⟩ := h
  obtain ⟨t, X0, -, -, h3, hX, h5⟩ := acceptedCTx_parts cv H pp s ctx h
  have ht := Bullet.fastVerify_endTr cv H pp.bullet _ s _ ctx.bullet true t h3
  rw [hX, Option.getD_some]
  rw [ht] at h5
  exact h5

/-- Two results with one last string: same statement and same first message. -/
theorem last_sound (cv : Curve G) {W : Nat} (hE : cv.Encodes W) (H H' : Bytes → ℤ) (x x' : DLOGEquality.Instance G) (t t' : Bytes) (pf pf' : DLOGEquality.Proof G)
    (hp : DLOGEquality.point cv (t, x, pf) = DLOGEquality.point cv (t', x', pf')) (h : (DLOGEquality.verify cv H x t pf).1 = true)
    (h' : (DLOGEquality.verify cv H' x' t' pf').1 = true)
    (hne : ¬ (cv.order : ℤ) ∣ H (DLOGEquality.point cv (t, x, pf)) - H' (DLOGEquality.point cv (t, x, pf))) :
    let w := extract cv pf.z pf'.z (H (DLOGEquality.point cv (t, x, pf))) (H' (DLOGEquality.point cv (t, x, pf)))
    x.h1 = w • x.g1 ∧ x.h2 = w • x.g2 := by
  obtain ⟨g1, h1, g2, h2⟩ := x
  obtain ⟨g1', h1', g2', h2'⟩ := x'
  obtain ⟨A1, A2, z⟩ := pf
  obtain ⟨A1', A2', z'⟩ := pf'
  simp only [DLOGEquality.point, List.append_assoc] at hp
  obtain ⟨rfl, p1⟩ := append_points hp (by simp [hE.len])
  obtain ⟨rfl, p2⟩ := hE.append p1
  obtain ⟨rfl, p3⟩ := hE.append p2
  obtain ⟨rfl, p4⟩ := hE.append p3
  obtain ⟨rfl, p5⟩ := hE.append p4
  obtain ⟨rfl, p6⟩ := hE.append p5
  obtain rfl := hE.inj p6
  exact DLOGEquality.dlogEquality_special_sound cv H H' ⟨g1, h1, g2, h2⟩ t t A1 A2 z z' h h' hne

open Classical in
/-- **C129** Coins are moved by whoever knows the secret key. A key `sk` is drawn, the thief gets the public key and ends with a transaction from that account; if it is
accepted with probability `ε`, then running the thief twice gives the discrete logarithm of the public key with probability at least `ε (ε / (a + 2) - 1 / |S|)`. -/
theorem adcp_spender_knows_key (cv : Curve G) [NeZero cv.order] {W : Nat} (hE : cv.Encodes W) (pp : PP G) (hS : ∀ x ∈ S, ∀ y ∈ S, (cv.order : ℤ) ∣ x - y → x = y) (v0 : S)
    {Ω : Type} [Fintype Ω] [Nonempty Ω] (P : G → Ω → Adv Q S (ToOne G)) (a : Nat) (hP : ∀ pk ω, (P pk ω).Within a) :
    let ε := acceptedOn v0 (spendPoint cv pp)
      (fun (k : Fin cv.order × Ω) H ctx => decide (Accepted cv pp H ctx ∧ ctx.pks = (k.1 : ℤ) • pp.enc.g)) fun k : Fin cv.order × Ω => P ((k.1 : ℤ) • pp.enc.g) k.2
    ε * (ε / (a + 2 : ℕ) - 1 / Fintype.card S) ≤
      knowsOn v0 (spendPoint cv pp) (fun (k : Fin cv.order × Ω) ctx ctx' e e' => decide (extract cv ctx.dlogeq.z ctx'.dlogeq.z e e' • pp.enc.g = (k.1 : ℤ) • pp.enc.g))
        fun k : Fin cv.order × Ω => P ((k.1 : ℤ) • pp.enc.g) k.2 := by
  refine extractsOn _ hS v0 _ _ _ ?_ _ (fun k => close2 v0 (thirdPoint cv pp) (lastPoint cv pp) (P ((k.1 : ℤ) • pp.enc.g) k.2)) (a + 2) (by omega)
    (fun k => close2_within v0 _ _ _ a (hP _ _)) (fun k o h => close2_asked v0 _ _ _ o h)
  intro k H H' ctx ctx' hp h1 h2 hne
  rw [decide_eq_true_eq] at h1 h2 ⊢
  obtain ⟨-, e⟩ := last_sound cv hE H H' _ _ _ _ _ _ hp (accepted_last cv pp H ctx h1.1) (accepted_last cv pp H' ctx' h2.1) hne
  rw [← h1.2]
  exact e.symm

open Classical in
/-- **C129** The refreshed ciphertext has the plaintext of the balance named in the transaction minus the transfer: otherwise the transaction is accepted with probability at
most `(a + 2) / |S|`. -/
theorem adcp_refresh_sound (cv : Curve G) {W : Nat} (hE : cv.Encodes W) (pp : PP G) (hS : ∀ x ∈ S, ∀ y ∈ S, (cv.order : ℤ) ∣ x - y → x = y) (v0 : S)
    {Ω : Type} [Fintype Ω] [Nonempty Ω] (P : Ω → Adv Q S (ToOne G)) (a : Nat) (hP : ∀ ω, (P ω).Within a) :
    acceptedOn v0 (spendPoint cv pp) (fun _ H ctx => decide (Accepted cv pp H ctx ∧ ctx.pks ≠ 0 ∧ ¬ ∃ sk : ℤ, ctx.pks = sk • pp.enc.g ∧
        Twisted.decPoint cv sk (updated ctx.senderBalance ((ctx.transfer.vecX[0]?).getD 0) ctx.transfer.Y) = Twisted.decPoint cv sk ctx.refresh)) P ≤
      (a + 2 : ℕ) / Fintype.card S := by
  refine soundOn cv.order hS v0 _ _ ?_ P (fun ω => close2 v0 (thirdPoint cv pp) (lastPoint cv pp) (P ω)) (a + 2) (by omega)
    (fun ω => close2_within v0 _ _ _ a (hP _)) (fun ω o h => close2_asked v0 _ _ _ o h)
  intro ω H H' ctx ctx' hp h1 h2
  rw [decide_eq_true_eq] at h1 h2
  by_contra hne
  obtain ⟨e1, e2⟩ := last_sound cv hE H H' _ _ _ _ _ _ hp (accepted_last cv pp H ctx h1.1) (accepted_last cv pp H' ctx' h2.1) hne
  exact h1.2.2 ⟨_, e2, Gadget.same_plaintext cv _ (key_exponent cv _ _ _ h1.2.1 e2) _ _ e1⟩

/-- Two accepted transactions with one string for the first challenge: the challenges are the same, unless the first is an encryption of one amount for the three keys. -/
theorem amount_once (cv : Curve G) {W : Nat} (hE : cv.Encodes W) (pp : PP G) (H H' : Bytes → ℤ) (ctx ctx' : ToOne G) (hp : eqTr cv pp ctx = eqTr cv pp ctx')
    (h1 : Accepted cv pp H ctx) (h2 : Accepted cv pp H' ctx') (hf : ¬ ∃ v r : ℤ,
        (⟨ctx.transfer.vecX.take 3, ctx.transfer.Y⟩ : Twisted.MRCT G) = Twisted.encMulti pp.enc [ctx.pks, ctx.pkr, pp.pka] v r) :
    (cv.order : ℤ) ∣ H (eqTr cv pp ctx) - H' (eqTr cv pp ctx) := by
  obtain ⟨s, k1⟩ := h1
  obtain ⟨s', k2⟩ := h2
  by_contra hne
  obtain ⟨-, -, q1, -⟩ := acceptedCTx_parts cv H pp s ctx k1
  obtain ⟨-, -, q2, -⟩ := acceptedCTx_parts cv H' pp s' ctx' k2
  obtain ⟨l1, l2⟩ := PlaintextEquality.verify_lengths cv pp.enc H _ _ _ _ _ q1
  obtain ⟨l3, l4⟩ := PlaintextEquality.verify_lengths cv pp.enc H' _ _ _ _ _ q2
  simp only [List.length_cons, List.length_nil, Nat.zero_add, Nat.reduceAdd] at l1 l2 l3 l4
  simp only [eqTr, List.map_cons, List.map_nil, List.flatten_cons, List.flatten_nil, List.append_nil, List.append_assoc] at hp
  obtain ⟨e1, h⟩ := hE.append hp
  obtain ⟨e2, h⟩ := hE.append h
  obtain ⟨-, h⟩ := hE.append h
  obtain ⟨e3, h⟩ := hE.flatten _ _ _ _ (by rw [List.length_take, List.length_take]; omega) h
  obtain ⟨e4, h⟩ := hE.append h
  obtain ⟨e5, h⟩ := hE.flatten _ _ _ _ (by rw [List.length_take, List.length_take]; omega) h
  have e6 := hE.inj h
  rw [← PlaintextEquality.verify_take] at q1 q2
  simp only [List.length_cons, List.length_nil, Nat.zero_add, Nat.reduceAdd] at q1 q2
  rw [← e1, ← e2, ← e3, ← e4, ← e5, ← e6] at q2
  have hc : ∀ H : Bytes → ℤ, PlaintextEquality.challenge cv H ⟨[ctx.pks, ctx.pkr, pp.pka], ⟨ctx.transfer.vecX.take 3, ctx.transfer.Y⟩⟩ []
      (ctx.pteq.vecA.take 3) ctx.pteq.B = H (eqTr cv pp ctx) := by
    intro H
    unfold PlaintextEquality.challenge eqTr
    simp only [List.nil_append, List.append_assoc]
  exact hf ⟨_, _, PlaintextEquality.plaintextEquality_special_sound cv pp.enc H H'
    ⟨[ctx.pks, ctx.pkr, pp.pka], ⟨ctx.transfer.vecX.take 3, ctx.transfer.Y⟩⟩ [] [] (ctx.pteq.vecA.take 3) ctx.pteq.B
    ctx.pteq.z ctx.pteq.t ctx'.pteq.z ctx'.pteq.t _ _
    (by simp only [List.length_take, List.length_cons, List.length_nil]; omega) (by simp only [List.length_take, List.length_cons, List.length_nil]; omega)
    q1 q2 (by rw [hc, hc]; exact hne)⟩

open Classical in
/-- **C129** Sender, receiver and supervisor get one amount: a transaction whose ciphertext is no encryption of one amount under the three keys is accepted with probability at
most `(a + 1) / |S|`. -/
theorem adcp_amount_sound (cv : Curve G) {W : Nat} (hE : cv.Encodes W) (pp : PP G) (hS : ∀ x ∈ S, ∀ y ∈ S, (cv.order : ℤ) ∣ x - y → x = y) (v0 : S)
    {Ω : Type} [Fintype Ω] [Nonempty Ω] (P : Ω → Adv Q S (ToOne G)) (a : Nat) (hP : ∀ ω, (P ω).Within a) :
    accepted v0 (eqTr cv pp) (fun H ctx => decide (Accepted cv pp H ctx ∧ ¬ ∃ v r : ℤ,
        (⟨ctx.transfer.vecX.take 3, ctx.transfer.Y⟩ : Twisted.MRCT G) = Twisted.encMulti pp.enc [ctx.pks, ctx.pkr, pp.pka] v r)) P ≤
      (a + 1 : ℕ) / Fintype.card S := by
  refine Fork.sound cv.order hS v0 _ _ ?_ P a hP
  intro H H' ctx ctx' hp h1 h2
  rw [decide_eq_true_eq] at h1 h2
  exact amount_once cv hE pp H H' ctx ctx' hp h1.1 h2.1 h1.2

/-! ### Transactions with many receivers -/

/-- The transaction is accepted, for some scalar that `FastVerify` may draw. -/
def AcceptedMany (cv : Curve G) (pp : PP G) (H : Bytes → ℤ) (ctx : ToMany G) : Prop := ∃ s, verifyMany cv H pp s ctx = some true

/-- What the plaintext-equality proof for one receiver hashes. -/
def legTr (cv : Curve G) (pp : PP G) (pkr : G) (ct : Twisted.MRCT G) (pf : PlaintextEquality.Proof G) : Bytes :=
  (cv.toBytes pkr ++ cv.toBytes pp.pka) ++ ((ct.vecX.take 2).map cv.toBytes).flatten ++ cv.toBytes ct.Y ++ ((pf.vecA.take 2).map cv.toBytes).flatten ++ cv.toBytes pf.B

/-- What is hashed for the first `n` receivers. -/
def legsTr (cv : Curve G) (pp : PP G) : Nat → List G → List (Twisted.MRCT G) → List (PlaintextEquality.Proof G) → Bytes
  | n + 1, pkr :: pkrs, ct :: cts, pf :: pfs => legTr cv pp pkr ct pf ++ legsTr cv pp n pkrs cts pfs
  | _, _, _, _ => []

theorem leg_tr (cv : Curve G) (pp : PP G) (H : Bytes → ℤ) (pkr : G) (ct : Twisted.MRCT G) (pf : PlaintextEquality.Proof G) (tr t : Bytes) (b : Bool)
    (h : PlaintextEquality.verify cv pp.enc H ⟨[pkr, pp.pka], ct⟩ tr pf = some (b, t)) :
    t = tr ++ legTr cv pp pkr ct pf ∧ 2 ≤ ct.vecX.length ∧ 2 ≤ pf.vecA.length := by
  obtain ⟨l1, l2⟩ := PlaintextEquality.verify_lengths cv pp.enc H _ _ _ _ _ h
  rw [← PlaintextEquality.verify_take] at h
  simp only [List.length_cons, List.length_nil, Nat.zero_add, Nat.reduceAdd] at h l1 l2
  obtain ⟨b, t', e1, -, e2⟩ := PlaintextEquality.verify_spec cv pp.enc H ⟨[pkr, pp.pka], ⟨ct.vecX.take 2, ct.Y⟩⟩ tr { pf with vecA := pf.vecA.take 2 }
    (by simp only [List.length_take, List.length_cons, List.length_nil]; omega) (by simp only [List.length_take, List.length_cons, List.length_nil]; omega)
  rw [h, Option.some.injEq, Prod.mk.injEq] at e1
  refine ⟨?_, by omega, by omega⟩
  rw [e1.2, e2]
  unfold legTr
  simp only [List.map_cons, List.map_nil, List.flatten_cons, List.flatten_nil, List.append_nil, List.append_assoc]

/-- The proof for receiver `i` of an accepted transaction. -/
theorem verifyLegs_parts (cv : Curve G) (H : Bytes → ℤ) (pp : PP G) : ∀ (pkrs : List G) (cts : List (Twisted.MRCT G)) (pfs : List (PlaintextEquality.Proof G)) (tr t : Bytes) (b : Bool),
    verifyLegs cv H pp pkrs cts pfs tr = some (b, t) → t = tr ++ legsTr cv pp pkrs.length pkrs cts pfs ∧ (b = true → ∀ i < pkrs.length, ∃ pkr ct pf u,
      pkrs[i]? = some pkr ∧ cts[i]? = some ct ∧ pfs[i]? = some pf ∧ tr ++ legsTr cv pp (i + 1) pkrs cts pfs = u ++ legTr cv pp pkr ct pf ∧
      PlaintextEquality.verify cv pp.enc H ⟨[pkr, pp.pka], ct⟩ u pf = some (true, u ++ legTr cv pp pkr ct pf))
  | [], _, _, tr, t, b, h => by
    simp only [verifyLegs, Option.some.injEq, Prod.mk.injEq] at h
    exact ⟨by simp [legsTr, h.2], fun _ i hi => absurd hi (by simp)⟩
  | pkr :: pkrs, [], _, tr, t, b, h => by simp [verifyLegs] at h
  | pkr :: pkrs, ct :: cts, [], tr, t, b, h => by simp [verifyLegs] at h
  | pkr :: pkrs, ct :: cts, pf :: pfs, tr, t, b, h => by
    simp only [verifyLegs, Option.bind_eq_bind, Option.bind_eq_some_iff, Option.pure_def, Option.some.injEq, Prod.mk.injEq] at h
    obtain ⟨⟨ok, t1⟩, h1, ⟨oks, t2⟩, h2, rfl, rfl⟩ := h
    obtain ⟨e1, -, -⟩ := leg_tr cv pp H pkr ct pf tr t1 ok h1
    obtain ⟨e2, e3⟩ := verifyLegs_parts cv H pp pkrs cts pfs t1 t2 oks h2
    refine ⟨?_, fun hb i hi => ?_⟩
    · rw [e2, e1]; simp [legsTr]
    rw [Bool.and_eq_true] at hb
    obtain ⟨rfl, rfl⟩ := hb
    cases i with
    | zero =>
      refine ⟨pkr, ct, pf, tr, rfl, rfl, rfl, by simp [legsTr], ?_⟩
      rw [h1, e1]
    | succ i =>
      obtain ⟨pkr', ct', pf', u, q1, q2, q3, q4, q5⟩ := e3 rfl i (by simpa using hi)
      refine ⟨pkr', ct', pf', u, q1, q2, q3, ?_, q5⟩
      rw [← q4, e1]
      simp [legsTr]

/-- What is hashed before the range proof. -/
def manyRangeTr (cv : Curve G) (pp : PP G) (ctx : ToMany G) : Bytes :=
  Gadget.rangeTr1 cv ⟨ctx.pks, ctx.refresh⟩ (legsTr cv pp ctx.pkrs.length ctx.pkrs ctx.transfers ctx.pteqs) ctx.ptke

/-- The commitments of the transfers. -/
def manyYs (ctx : ToMany G) : List G := (ctx.transfers.take ctx.pkrs.length).map (·.Y)

/-- The transcript after the range proof, `x` being its third challenge. -/
def manyEndTr (cv : Curve G) (pp : PP G) (x : ℤ) (ctx : ToMany G) : Bytes :=
  Bullet.endTr cv (pp.bullet.rangeLen * ((manyYs ctx).length + 1)).log2 (manyRangeTr cv pp ctx) ctx.bullet x

/-- The string hashed for the third challenge of the range proof. -/
def manyThird (cv : Curve G) (pp : PP G) (ctx : ToMany G) : Bytes := Bullet.query cv (fun _ => 0) (manyRangeTr cv pp ctx) ctx.bullet 2

/-- The string hashed for the balance proof. -/
def manyBalance (cv : Curve G) (pp : PP G) (x : ℤ) (ctx : ToMany G) : Bytes :=
  DLOGKnowledge.point cv (manyEndTr cv pp x ctx, balanceInstance pp ctx.senderTransfer.Y (manyYs ctx), ctx.balance)

/-- The string hashed for the last challenge. -/
def manyLast (cv : Curve G) (pp : PP G) (x : ℤ) (ctx : ToMany G) : Bytes :=
  DLOGEquality.point cv (manyBalance cv pp x ctx ++ toSignMany cv ctx,
    refreshInstance pp (ctx.senderBalance.sub ctx.senderTransfer) ctx.refresh ctx.pks, ctx.dlogeq)

theorem acceptedMany_parts (cv : Curve G) (pp : PP G) (H : Bytes → ℤ) (ctx : ToMany G) (h : AcceptedMany cv pp H ctx) :
    let x := H (manyThird cv pp ctx)
    (∃ t, verifyLegs cv H pp ctx.pkrs ctx.transfers ctx.pteqs [] = some (true, t)) ∧
    (DLOGKnowledge.verify cv H (balanceInstance pp ctx.senderTransfer.Y (manyYs ctx)) (manyEndTr cv pp x ctx) ctx.balance).1 = true ∧
    (DLOGEquality.verify cv H (refreshInstance pp (ctx.senderBalance.sub ctx.senderTransfer) ctx.refresh ctx.pks)
      (manyBalance cv pp x ctx ++ toSignMany cv ctx) ctx.dlogeq).1 = true := by
  intro x
  obtain ⟨s, h⟩ := h
  unfold verifyMany at h
  simp only [Option.bind_eq_bind, Option.bind_eq_some_iff, Option.pure_def, Option.some.injEq, Bool.and_eq_true] at h
  obtain ⟨⟨c1, t1⟩, h1, ⟨c3, t⟩, h3, ⟨⟨⟨rfl, -⟩, rfl⟩, h4⟩, h5⟩ := h
  obtain ⟨e1, -⟩ := verifyLegs_parts cv H pp _ _ _ _ _ _ h1
  rw [List.nil_append] at e1
  subst e1
  have ht := Bullet.fastVerify_endTr cv H pp.bullet _ s _ ctx.bullet true t h3
  rw [List.length_append, List.length_singleton] at ht
  have ht' : t = manyEndTr cv pp x ctx := ht
  subst ht'
  exact ⟨⟨_, h1⟩, h4, h5⟩

open Classical in
/-- **C129** `adcp_spender_knows_key` for transactions with many receivers. -/
theorem adcpMany_spender_knows_key (cv : Curve G) [NeZero cv.order] {W : Nat} (hE : cv.Encodes W) (pp : PP G) (hS : ∀ x ∈ S, ∀ y ∈ S, (cv.order : ℤ) ∣ x - y → x = y)
    (v0 : S) {Ω : Type} [Fintype Ω] [Nonempty Ω] (P : G → Ω → Adv Q S (ToMany G)) (a : Nat) (hP : ∀ pk ω, (P pk ω).Within a) :
    let ε := acceptedOn v0 (fun H ctx => manyLast cv pp (H (manyThird cv pp ctx)) ctx)
      (fun (k : Fin cv.order × Ω) H ctx => decide (AcceptedMany cv pp H ctx ∧ ctx.pks = (k.1 : ℤ) • pp.enc.g)) fun k : Fin cv.order × Ω => P ((k.1 : ℤ) • pp.enc.g) k.2
    ε * (ε / (a + 2 : ℕ) - 1 / Fintype.card S) ≤
      knowsOn v0 (fun H ctx => manyLast cv pp (H (manyThird cv pp ctx)) ctx)
        (fun (k : Fin cv.order × Ω) ctx ctx' e e' => decide (extract cv ctx.dlogeq.z ctx'.dlogeq.z e e' • pp.enc.g = (k.1 : ℤ) • pp.enc.g))
        fun k : Fin cv.order × Ω => P ((k.1 : ℤ) • pp.enc.g) k.2 := by
  refine extractsOn _ hS v0 _ _ _ ?_ _ (fun k => close2 v0 (manyThird cv pp) (manyLast cv pp) (P ((k.1 : ℤ) • pp.enc.g) k.2)) (a + 2) (by omega)
    (fun k => close2_within v0 _ _ _ a (hP _ _)) (fun k o h => close2_asked v0 _ _ _ o h)
  intro k H H' ctx ctx' hp h1 h2 hne
  rw [decide_eq_true_eq] at h1 h2 ⊢
  obtain ⟨-, e⟩ := last_sound cv hE H H' _ _ _ _ _ _ hp (acceptedMany_parts cv pp H ctx h1.1).2.2 (acceptedMany_parts cv pp H' ctx' h2.1).2.2 hne
  rw [← h1.2]
  exact e.symm

open Classical in
/-- **C129** `adcp_refresh_sound` for transactions with many receivers. -/
theorem adcpMany_refresh_sound (cv : Curve G) {W : Nat} (hE : cv.Encodes W) (pp : PP G) (hS : ∀ x ∈ S, ∀ y ∈ S, (cv.order : ℤ) ∣ x - y → x = y) (v0 : S)
    {Ω : Type} [Fintype Ω] [Nonempty Ω] (P : Ω → Adv Q S (ToMany G)) (a : Nat) (hP : ∀ ω, (P ω).Within a) :
    acceptedOn v0 (fun H ctx => manyLast cv pp (H (manyThird cv pp ctx)) ctx) (fun _ H ctx => decide (AcceptedMany cv pp H ctx ∧ ctx.pks ≠ 0 ∧
        ¬ ∃ sk : ℤ, ctx.pks = sk • pp.enc.g ∧
          Twisted.decPoint cv sk (ctx.senderBalance.sub ctx.senderTransfer) = Twisted.decPoint cv sk ctx.refresh)) P ≤
      (a + 2 : ℕ) / Fintype.card S := by
  refine soundOn cv.order hS v0 _ _ ?_ P (fun ω => close2 v0 (manyThird cv pp) (manyLast cv pp) (P ω)) (a + 2) (by omega)
    (fun ω => close2_within v0 _ _ _ a (hP _)) (fun ω o h => close2_asked v0 _ _ _ o h)
  intro ω H H' ctx ctx' hp h1 h2
  rw [decide_eq_true_eq] at h1 h2
  by_contra hne
  obtain ⟨e1, e2⟩ := last_sound cv hE H H' _ _ _ _ _ _ hp (acceptedMany_parts cv pp H ctx h1.1).2.2 (acceptedMany_parts cv pp H' ctx' h2.1).2.2 hne
  exact h1.2.2 ⟨_, e2, Gadget.same_plaintext cv _ (key_exponent cv _ _ _ h1.2.1 e2) _ _ e1⟩

open Classical in
/-- **C129** What the receivers get is what the sender pays: the sender knows `w` with `Y - (Y_1 + ... + Y_n) = w g`, where `Y` is the commitment debited and `Y_i` are those
credited. -/
theorem adcpMany_balance_extracts (cv : Curve G) {W : Nat} (hE : cv.Encodes W) (pp : PP G) (hS : ∀ x ∈ S, ∀ y ∈ S, (cv.order : ℤ) ∣ x - y → x = y) (v0 : S)
    {Ω : Type} [Fintype Ω] [Nonempty Ω] (P : Ω → Adv Q S (ToMany G)) (a : Nat) (hP : ∀ ω, (P ω).Within a) :
    let ε := acceptedOn v0 (fun H ctx => manyBalance cv pp (H (manyThird cv pp ctx)) ctx) (fun _ H ctx => decide (AcceptedMany cv pp H ctx)) P
    ε * (ε / (a + 2 : ℕ) - 1 / Fintype.card S) ≤
      knowsOn v0 (fun H ctx => manyBalance cv pp (H (manyThird cv pp ctx)) ctx)
        (fun _ ctx ctx' e e' => decide (ctx.senderTransfer.Y - ((ctx.transfers.take ctx.pkrs.length).map (·.Y)).sum = extract cv ctx.balance.z ctx'.balance.z e e' • pp.enc.g)) P := by
  refine extractsOn _ hS v0 _ _ _ ?_ P (fun ω => close2 v0 (manyThird cv pp) (manyBalance cv pp) (P ω)) (a + 2) (by omega)
    (fun ω => close2_within v0 _ _ _ a (hP _)) (fun ω o h => close2_asked v0 _ _ _ o h)
  intro ω H H' ctx ctx' hp h1 h2 hne
  rw [decide_eq_true_eq] at h1 h2 ⊢
  have k1 := (acceptedMany_parts cv pp H ctx h1).2.1
  have k2 := (acceptedMany_parts cv pp H' ctx' h2).2.1
  have hfold : ∀ (l : List G) (y : G), l.foldl (· - ·) y = y - l.sum := by
    intro l
    induction l with
    | nil => intro y; simp
    | cons b l ih => intro y; rw [List.foldl_cons, ih, List.sum_cons]; abel
  have hs : (balanceInstance pp ctx.senderTransfer.Y (manyYs ctx)).h = ctx.senderTransfer.Y - ((ctx.transfers.take ctx.pkrs.length).map (·.Y)).sum := hfold _ _
  rw [← hs]
  rcases hb : ctx.balance with ⟨A, z⟩
  rcases hb' : ctx'.balance with ⟨A', z'⟩
  simp only [manyBalance, DLOGKnowledge.point, hb, hb'] at hp
  obtain ⟨p1, e1⟩ := append_points hp (by simp [hE.len])
  obtain ⟨-, p2⟩ := append_points p1 (by simp [hE.len])
  obtain ⟨-, p3⟩ := hE.append p2
  have e2 := hE.inj p3
  have e3 := hE.inj e1
  rw [hb] at k1
  rw [hb'] at k2
  have e4 : balanceInstance pp ctx'.senderTransfer.Y (manyYs ctx') = balanceInstance pp ctx.senderTransfer.Y (manyYs ctx) := by
    unfold balanceInstance at e2 ⊢
    simp only at e2
    rw [e2]
  rw [e4, ← e3] at k2
  have hz : ∀ K : Bytes → ℤ, ∀ t, t ++ (cv.toBytes (balanceInstance pp ctx.senderTransfer.Y (manyYs ctx)).g ++
    cv.toBytes (balanceInstance pp ctx.senderTransfer.Y (manyYs ctx)).h) ++ cv.toBytes A = manyBalance cv pp (H (manyThird cv pp ctx)) ctx →
    DLOGKnowledge.challenge cv K (balanceInstance pp ctx.senderTransfer.Y (manyYs ctx)) t A = K (manyBalance cv pp (H (manyThird cv pp ctx)) ctx) := by
    intro K t ht
    rw [← ht]
    rfl
  have c1 := hz H (manyEndTr cv pp (H (manyThird cv pp ctx)) ctx) (by simp only [manyBalance, DLOGKnowledge.point, hb])
  have c2 := hz H' (manyEndTr cv pp (H' (manyThird cv pp ctx')) ctx') (by
    have := hp.symm
    simp only [manyBalance, DLOGKnowledge.point, hb]
    rw [e4, ← e3] at this
    exact this)
  have := DLOGKnowledge.dlogKnowledge_special_sound cv H H' _ _ _ A z z' k1 k2 (by rw [c1, c2]; exact hne)
  rw [c1, c2] at this
  exact this

open Classical in
/-- **C129** Receiver `i` and supervisor get one amount: a transaction in which this fails is accepted with probability at most `(a + 1) / |S|`. -/
theorem adcpMany_amount_sound (cv : Curve G) {W : Nat} (hE : cv.Encodes W) (pp : PP G) (i : Nat) (hS : ∀ x ∈ S, ∀ y ∈ S, (cv.order : ℤ) ∣ x - y → x = y) (v0 : S)
    {Ω : Type} [Fintype Ω] [Nonempty Ω] (P : Ω → Adv Q S (ToMany G)) (a : Nat) (hP : ∀ ω, (P ω).Within a) :
    accepted v0 (fun ctx => legsTr cv pp (i + 1) ctx.pkrs ctx.transfers ctx.pteqs) (fun H ctx => decide (AcceptedMany cv pp H ctx ∧ i < ctx.pkrs.length ∧
        ¬ ∃ pkr ct, ∃ v r : ℤ, ctx.pkrs[i]? = some pkr ∧ ctx.transfers[i]? = some ct ∧
          (⟨ct.vecX.take 2, ct.Y⟩ : Twisted.MRCT G) = Twisted.encMulti pp.enc [pkr, pp.pka] v r)) P ≤
      (a + 1 : ℕ) / Fintype.card S := by
  refine Fork.sound cv.order hS v0 _ _ ?_ P a hP
  intro H H' ctx ctx' hp h1 h2
  rw [decide_eq_true_eq] at h1 h2
  obtain ⟨k1, hi, hf⟩ := h1
  obtain ⟨k2, hi', -⟩ := h2
  by_contra hne
  obtain ⟨t1, q1⟩ := (acceptedMany_parts cv pp H ctx k1).1
  obtain ⟨t2, q2⟩ := (acceptedMany_parts cv pp H' ctx' k2).1
  obtain ⟨pkr, ct, pf, u, a1, a2, a3, a4, a5⟩ := (verifyLegs_parts cv H pp _ _ _ _ _ _ q1).2 rfl i hi
  obtain ⟨pkr', ct', pf', u', b1, b2, b3, b4, b5⟩ := (verifyLegs_parts cv H' pp _ _ _ _ _ _ q2).2 rfl i hi'
  rw [List.nil_append] at a4 b4
  rw [a4] at hne
  rw [a4, b4] at hp
  obtain ⟨-, l1, l2⟩ := leg_tr cv pp H pkr ct pf u _ _ a5
  obtain ⟨-, l3, l4⟩ := leg_tr cv pp H' pkr' ct' pf' u' _ _ b5
  have hlen : ∀ (pkr : G) (ct : Twisted.MRCT G) (pf : PlaintextEquality.Proof G), 2 ≤ ct.vecX.length → 2 ≤ pf.vecA.length →
      (legTr cv pp pkr ct pf).length = 2 * W + 2 * W + W + 2 * W + W := by
    intro pkr ct pf h1 h2
    simp only [legTr, List.length_append, hE.len, hE.flatten_length, List.length_take, Nat.min_eq_left h1, Nat.min_eq_left h2]
    omega
  obtain ⟨rfl, hl⟩ := append_points hp (by rw [hlen _ _ _ l1 l2, hlen _ _ _ l3 l4])
  simp only [legTr, List.append_assoc] at hl
  obtain ⟨rfl, h⟩ := hE.append hl
  obtain ⟨-, h⟩ := hE.append h
  obtain ⟨e3, h⟩ := hE.flatten _ _ _ _ (by rw [List.length_take, List.length_take]; omega) h
  obtain ⟨e4, h⟩ := hE.append h
  obtain ⟨e5, h⟩ := hE.flatten _ _ _ _ (by rw [List.length_take, List.length_take]; omega) h
  have e6 := hE.inj h
  rw [← PlaintextEquality.verify_take] at a5 b5
  simp only [List.length_cons, List.length_nil, Nat.zero_add, Nat.reduceAdd] at a5 b5
  rw [← e3, ← e4, ← e5, ← e6] at b5
  have hc : ∀ H : Bytes → ℤ, PlaintextEquality.challenge cv H ⟨[pkr, pp.pka], ⟨ct.vecX.take 2, ct.Y⟩⟩ u (pf.vecA.take 2) pf.B = H (u ++ legTr cv pp pkr ct pf) := by
    intro H
    unfold PlaintextEquality.challenge legTr
    simp only [List.map_cons, List.map_nil, List.flatten_cons, List.flatten_nil, List.append_nil, List.append_assoc]
  exact hf ⟨pkr, ct, _, _, a1, a2, PlaintextEquality.plaintextEquality_special_sound cv pp.enc H H'
    ⟨[pkr, pp.pka], ⟨ct.vecX.take 2, ct.Y⟩⟩ u u (pf.vecA.take 2) pf.B pf.z pf.t pf'.z pf'.t _ _
    (by simp only [List.length_take, List.length_cons, List.length_nil]; omega) (by simp only [List.length_take, List.length_cons, List.length_nil]; omega)
    a5 b5 (by rw [hc, hc]; exact hne)⟩

/-! ### The hypotheses can be met -/

/-- A sender with secret key 3 whose transaction is accepted when all hash values are 1; it asks for nothing. -/
def exSender (_pk : ZMod 11) (_ω : Unit) : Adv ({[1], [2]} : Finset Bytes) ({1, 2} : Finset ℤ) (ToOne (ZMod 11)) := .done (sTx sH0)

example : Bullet.sCurve.Encodes 1 ∧ (∀ x ∈ ({1, 2} : Finset ℤ), ∀ y ∈ ({1, 2} : Finset ℤ), (Bullet.sCurve.order : ℤ) ∣ x - y → x = y) ∧
    (∀ pk ω, (exSender pk ω).Within 0) ∧ Accepted Bullet.sCurve sPP sH0 (sTx sH0) ∧ (sTx sH0).pks = (3 : ℤ) • sPP.enc.g := by
  refine ⟨⟨fun _ => rfl, by decide⟩, by decide, fun _ _ => trivial, ⟨1, s_accepted.1⟩, by decide +kernel⟩

end Kunlun.ADCP
