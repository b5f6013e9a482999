import Verif.Props.AdcpForge
import Verif.Props.AdcpPolicy
/-!
C130: what an accepted audit of the open, rate or limit policy says, when the hash function is a random oracle. The claimer chooses the key it names, the transactions and the
figures itself, after having asked for as many hash values as it likes.
-/
namespace Kunlun.ADCP

open Fork
open Schnorr (hash ind ind_nonneg ind_le_one)

variable {G : Type} [AddCommGroup G] [DecidableEq G] {Q : Finset Bytes} {S : Finset ℤ}

/-- The parts of the ciphertext that the code reads encrypt `v` for sender, receiver and supervisor. -/
def Says (pp : PP G) (ctx : ToOne G) (v : ℤ) : Prop :=
  ∃ r : ℤ, (⟨ctx.transfer.vecX.take 3, ctx.transfer.Y⟩ : Twisted.MRCT G) = Twisted.encMulti pp.enc [ctx.pks, ctx.pkr, pp.pka] v r

theorem Says.parts {pp : PP G} {ctx : ToOne G} {v : ℤ} (h : Says pp ctx v) :
    ∃ r : ℤ, ctx.transfer.vecX[0]? = some (r • ctx.pks) ∧ ctx.transfer.vecX[1]? = some (r • ctx.pkr) ∧ ctx.transfer.Y = r • pp.enc.g + v • pp.enc.h := by
  obtain ⟨r, h⟩ := h
  have h1 : ctx.transfer.vecX.take 3 = [r • ctx.pks, r • ctx.pkr, r • pp.pka] := congrArg Twisted.MRCT.vecX h
  have h2 : ctx.transfer.Y = r • pp.enc.g + v • pp.enc.h := congrArg Twisted.MRCT.Y h
  refine ⟨r, ?_, ?_, h2⟩
  · have := congrArg (fun l : List G => l[0]?) h1
    simpa [List.getElem?_take] using this
  · have := congrArg (fun l : List G => l[1]?) h1
    simpa [List.getElem?_take] using this

theorem ind_union (a b c : Bool) (h : a = true → b = true ∨ c = true) : ind a ≤ ind b + ind c := by
  cases a
  · exact le_trans (le_of_eq rfl) (add_nonneg (ind_nonneg _) (ind_nonneg _))
  · rcases h rfl with rfl | rfl
    · exact le_add_of_nonneg_right (ind_nonneg _)
    · exact le_add_of_nonneg_left (ind_nonneg _)

/-! ### The open policy -/

/-- What the claimer hands to the auditor: key, transaction, amount, proof. -/
structure OpenClaim (G : Type) where
  pk : G
  ctx : ToOne G
  v : ℤ
  pf : DLOGEquality.Proof G

/-- The string hashed in an audit; empty if there is no statement. -/
def auditPoint (cv : Curve G) (x : Option (DLOGEquality.Instance G)) (pf : DLOGEquality.Proof G) : Bytes :=
  match x with
  | some x => DLOGEquality.point cv ([], x, pf)
  | none => []

/-- The string hashed in the audit of an opened amount. -/
def openPoint (cv : Curve G) (pp : PP G) (c : OpenClaim G) : Bytes := auditPoint cv (openInstance pp c.pk c.ctx c.v) c.pf

theorem auditOpen_parts (cv : Curve G) (H : Bytes → ℤ) (pp : PP G) (c : OpenClaim G) (h : auditOpen cv H pp c.pk c.ctx c.v c.pf = some true) :
    ∃ x, openInstance pp c.pk c.ctx c.v = some x ∧ (DLOGEquality.verify cv H x [] c.pf).1 = true ∧ x.g2 = pp.enc.g ∧ x.h2 = c.pk ∧
      x.g1 = c.ctx.transfer.Y - c.v • pp.enc.h ∧ (c.pk = c.ctx.pks ∧ c.ctx.transfer.vecX[0]? = some x.h1 ∨ c.pk = c.ctx.pkr ∧ c.ctx.transfer.vecX[1]? = some x.h1) := by
  unfold auditOpen at h
  split_ifs at h with hk
  · exact absurd h (by simp)
  simp only [Option.bind_eq_bind, Option.bind_eq_some_iff, Option.pure_def, Option.some.injEq] at h
  obtain ⟨x, hx, h⟩ := h
  refine ⟨x, hx, h, ?_⟩
  unfold openInstance at hx
  by_cases hs : c.pk = c.ctx.pks
  · rw [if_pos hs] at hx
    simp only [Option.bind_eq_bind, Option.bind_eq_some_iff, Option.pure_def, Option.some.injEq] at hx
    obtain ⟨X, hX, rfl⟩ := hx
    exact ⟨rfl, hs.symm, rfl, .inl ⟨hs, hX⟩⟩
  · have hr : c.pk = c.ctx.pkr := by tauto
    rw [if_neg hs] at hx
    simp only [Option.bind_eq_bind, Option.bind_eq_some_iff, Option.pure_def, Option.some.injEq] at hx
    obtain ⟨X, hX, rfl⟩ := hx
    exact ⟨rfl, hr.symm, rfl, .inr ⟨hr, hX⟩⟩

/-- Two audits accepted with one string and different challenges: the exponent computed from the answers is the key, and takes the first base to its power. -/
theorem audits_extract (cv : Curve G) {W : Nat} (hE : cv.Encodes W) (H H' : Bytes → ℤ) (x x' : DLOGEquality.Instance G) (pf pf' : DLOGEquality.Proof G)
    (hp : auditPoint cv (some x) pf = auditPoint cv (some x') pf') (h : (DLOGEquality.verify cv H x [] pf).1 = true) (h' : (DLOGEquality.verify cv H' x' [] pf').1 = true)
    (hne : ¬ (cv.order : ℤ) ∣ H (auditPoint cv (some x) pf) - H' (auditPoint cv (some x) pf)) :
    let w := extract cv pf.z pf'.z (H (auditPoint cv (some x) pf)) (H' (auditPoint cv (some x) pf))
    x.h1 = w • x.g1 ∧ x.h2 = w • x.g2 :=
  last_sound cv hE H H' x x' [] [] pf pf' hp h h' hne

open Classical in
/-- **C130** An amount that is not the one in the ciphertext is opened with probability at most `(a + 1) / |S|`. -/
theorem adcp_open_sound_rom (cv : Curve G) {W : Nat} (hE : cv.Encodes W) (pp : PP G) (hh : pp.enc.h ≠ 0) (hS : ∀ x ∈ S, ∀ y ∈ S, (cv.order : ℤ) ∣ x - y → x = y) (v0 : S)
    {Ω : Type} [Fintype Ω] [Nonempty Ω] (P : Ω → Adv Q S (OpenClaim G)) (a : Nat) (hP : ∀ ω, (P ω).Within a) :
    accepted v0 (openPoint cv pp) (fun H c => decide (auditOpen cv H pp c.pk c.ctx c.v c.pf = some true ∧ c.pk ≠ 0 ∧
        ∃ v, Says pp c.ctx v ∧ ¬ (cv.order : ℤ) ∣ v - c.v)) P ≤ (a + 1 : ℕ) / Fintype.card S := by
  refine Fork.sound cv.order hS v0 _ _ ?_ P a hP
  intro H H' c c' hp h1 h2
  rw [decide_eq_true_eq] at h1 h2
  obtain ⟨k1, hpk, v, hs, hv⟩ := h1
  by_contra hne
  obtain ⟨x, hx, q1, xg, xh, x1, xX⟩ := auditOpen_parts cv H pp c k1
  obtain ⟨x', hx', q2, -⟩ := auditOpen_parts cv H' pp c' h2.1
  simp only [openPoint, hx, hx'] at hp hne
  obtain ⟨s1, s2⟩ := audits_extract cv hE H H' x x' c.pf c'.pf hp q1 q2 hne
  generalize extract cv _ _ _ _ = w at s1 s2
  rw [xg, xh] at s2
  obtain ⟨r, e0, e1, eY⟩ := hs.parts
  have hX : x.h1 = r • c.pk := by
    rcases xX with ⟨k, e⟩ | ⟨k, e⟩
    · rw [e0, Option.some.injEq] at e; rw [← e, k]
    · rw [e1, Option.some.injEq] at e; rw [← e, k]
  refine hv (exponent_zero cv pp.enc.g pp.enc.h w r (v - c.v) hh (key_exponent cv _ _ w hpk s2) ?_)
  rw [← s2, ← hX, s1, x1, eY]
  congr 1
  module

open Classical in
/-- **C130** Only the holder of the key opens amounts: a key is drawn, the claimer gets the public key; if its claim for that key is accepted with probability `ε`, running it
twice gives the secret key with probability at least `ε (ε / (a + 1) - 1 / |S|)`. -/
theorem adcp_open_knows_key (cv : Curve G) [NeZero cv.order] {W : Nat} (hE : cv.Encodes W) (pp : PP G) (hS : ∀ x ∈ S, ∀ y ∈ S, (cv.order : ℤ) ∣ x - y → x = y) (v0 : S)
    {Ω : Type} [Fintype Ω] [Nonempty Ω] (P : G → Ω → Adv Q S (OpenClaim G)) (a : Nat) (hP : ∀ pk ω, (P pk ω).Within a) :
    let ε := acceptedOn v0 (fun _ => openPoint cv pp) (fun (k : Fin cv.order × Ω) H c => decide (auditOpen cv H pp c.pk c.ctx c.v c.pf = some true ∧ c.pk = (k.1 : ℤ) • pp.enc.g))
      fun k : Fin cv.order × Ω => P ((k.1 : ℤ) • pp.enc.g) k.2
    ε * (ε / (a + 1 : ℕ) - 1 / Fintype.card S) ≤
      knowsOn v0 (fun _ => openPoint cv pp) (fun (k : Fin cv.order × Ω) c c' e e' => decide (extract cv c.pf.z c'.pf.z e e' • pp.enc.g = (k.1 : ℤ) • pp.enc.g))
        fun k : Fin cv.order × Ω => P ((k.1 : ℤ) • pp.enc.g) k.2 := by
  refine extractsOn _ hS v0 _ _ _ ?_ _ (fun k => close (openPoint cv pp) (P ((k.1 : ℤ) • pp.enc.g) k.2)) (a + 1) (by omega)
    (fun k => close_within _ _ a (hP _ _)) (fun k o h => close_asked _ _ o h)
  intro k H H' c c' hp h1 h2 hne
  rw [decide_eq_true_eq] at h1 h2 ⊢
  obtain ⟨x, hx, q1, xg, xh, -⟩ := auditOpen_parts cv H pp c h1.1
  obtain ⟨x', hx', q2, -⟩ := auditOpen_parts cv H' pp c' h2.1
  simp only [openPoint, hx, hx'] at hp hne ⊢
  obtain ⟨-, s2⟩ := audits_extract cv hE H H' x x' c.pf c'.pf hp q1 q2 hne
  rw [xg, xh, h1.2] at s2
  exact s2.symm

open Classical in
/-- **C130** The amount opened is the amount paid: that one claim brings a transaction that is accepted, an amount that the audit accepts, and a ciphertext that does not give
sender, receiver and supervisor this amount, has probability at most `2 (a + 1) / |S|`. -/
theorem adcp_opened_is_paid (cv : Curve G) {W : Nat} (hE : cv.Encodes W) (pp : PP G) (hh : pp.enc.h ≠ 0) (hS : ∀ x ∈ S, ∀ y ∈ S, (cv.order : ℤ) ∣ x - y → x = y) (v0 : S)
    {Ω : Type} [Fintype Ω] [Nonempty Ω] (P : Ω → Adv Q S (OpenClaim G)) (a : Nat) (hP : ∀ ω, (P ω).Within a) :
    (avg fun ω => avg fun o : Q → S => ind (decide (
      let c := (P ω).run o
      (openPoint cv pp c ∈ Q ∧ eqTr cv pp c.ctx ∈ Q) ∧ Accepted cv pp (hash v0 o) c.ctx ∧ auditOpen cv (hash v0 o) pp c.pk c.ctx c.v c.pf = some true ∧ c.pk ≠ 0 ∧
        ¬ ∃ v, Says pp c.ctx v ∧ (cv.order : ℤ) ∣ v - c.v))) ≤ (2 * (a + 1) : ℕ) / Fintype.card S := by
  haveI : Nonempty S := ⟨v0⟩
  have h1 := adcp_open_sound_rom cv hE pp hh hS v0 P a hP
  have h2 : accepted v0 (fun c : OpenClaim G => eqTr cv pp c.ctx) (fun H c => decide (Accepted cv pp H c.ctx ∧ ¬ ∃ v, Says pp c.ctx v)) P ≤
      (a + 1 : ℕ) / Fintype.card S := by
    refine Fork.sound cv.order hS v0 _ _ ?_ P a hP
    intro H H' c c' hp k1 k2
    rw [decide_eq_true_eq] at k1 k2
    exact amount_once cv hE pp H H' c.ctx c'.ctx hp k1.1 k2.1 k1.2
  have h3 := add_le_add h1 h2
  have e : ((2 * (a + 1) : ℕ) : ℝ) / Fintype.card S = (a + 1 : ℕ) / Fintype.card S + (a + 1 : ℕ) / Fintype.card S := by push_cast; ring
  rw [e]
  refine le_trans ?_ h3
  unfold accepted
  rw [← isAvg_avg.add]
  refine isAvg_avg.mono _ _ fun ω => ?_
  rw [← isAvg_avg.add]
  refine isAvg_avg.mono _ _ fun o => ?_
  generalize (P ω).run o = c
  refine ind_union _ _ _ fun hc => ?_
  obtain ⟨⟨m1, m2⟩, k1, k2, k3, k4⟩ := of_decide_eq_true hc
  by_cases hv : ∃ v, Says pp c.ctx v
  · obtain ⟨v, hv⟩ := hv
    refine .inl (Bool.and_eq_true _ _ ▸ ⟨decide_eq_true m1, decide_eq_true ⟨k2, k3, v, hv, fun hd => k4 ⟨v, hv, hd⟩⟩⟩)
  · exact .inr (Bool.and_eq_true _ _ ▸ ⟨decide_eq_true m2, decide_eq_true ⟨k1, hv⟩⟩)

/-! ### The rate policy -/

/-- What the claimer hands to the auditor: key, the incoming and the outgoing transaction, the two factors, proof. -/
structure RateClaim (G : Type) where
  pk : G
  ctx1 : ToOne G
  ctx2 : ToOne G
  t1 : ℤ
  t2 : ℤ
  pf : DLOGEquality.Proof G

/-- `AuditPolicy` (rate) on a claim. -/
def rateOk (cv : Curve G) (H : Bytes → ℤ) (pp : PP G) (c : RateClaim G) : Prop := auditRate cv H pp c.pk c.ctx1 c.ctx2 c.t1 c.t2 c.pf = some true

/-- The string hashed in the audit of a rate. -/
def ratePoint (cv : Curve G) (pp : PP G) (c : RateClaim G) : Bytes := auditPoint cv (rateInstance pp c.pk c.ctx1 c.ctx2 c.t1 c.t2) c.pf

theorem auditRate_parts (cv : Curve G) (H : Bytes → ℤ) (pp : PP G) (c : RateClaim G) (h : rateOk cv H pp c) :
    ∃ X1 X2, c.ctx1.transfer.vecX[1]? = some X1 ∧ c.ctx2.transfer.vecX[0]? = some X2 ∧ c.pk = c.ctx1.pkr ∧ c.pk = c.ctx2.pks ∧
      let x : DLOGEquality.Instance G := ⟨pp.enc.g, c.pk, c.t1 • c.ctx1.transfer.Y - c.t2 • c.ctx2.transfer.Y, c.t1 • X1 - c.t2 • X2⟩
      rateInstance pp c.pk c.ctx1 c.ctx2 c.t1 c.t2 = some x ∧ (DLOGEquality.verify cv H x [] c.pf).1 = true := by
  unfold rateOk auditRate at h
  split_ifs at h with hk
  · exact absurd h (by simp)
  simp only [Option.bind_eq_bind, Option.bind_eq_some_iff, Option.pure_def, Option.some.injEq] at h
  obtain ⟨x, hx, h⟩ := h
  have hx0 := hx
  unfold rateInstance at hx
  simp only [Option.bind_eq_bind, Option.bind_eq_some_iff, Option.pure_def, Option.some.injEq, CT.scale, CT.sub] at hx
  obtain ⟨X1, h1, X2, h2, rfl⟩ := hx
  exact ⟨X1, X2, h1, h2, by tauto, by tauto, hx0, h⟩

open Classical in
/-- **C130** A false rate is accepted with probability at most `(a + 1) / |S|`. -/
theorem adcp_rate_sound_rom (cv : Curve G) {W : Nat} (hE : cv.Encodes W) (pp : PP G) (hh : pp.enc.h ≠ 0) (hS : ∀ x ∈ S, ∀ y ∈ S, (cv.order : ℤ) ∣ x - y → x = y) (v0 : S)
    {Ω : Type} [Fintype Ω] [Nonempty Ω] (P : Ω → Adv Q S (RateClaim G)) (a : Nat) (hP : ∀ ω, (P ω).Within a) :
    accepted v0 (ratePoint cv pp) (fun H c => decide (auditRate cv H pp c.pk c.ctx1 c.ctx2 c.t1 c.t2 c.pf = some true ∧ c.pk ≠ 0 ∧
        ∃ v1 v2, Says pp c.ctx1 v1 ∧ Says pp c.ctx2 v2 ∧ ¬ (cv.order : ℤ) ∣ c.t1 * v1 - c.t2 * v2)) P ≤ (a + 1 : ℕ) / Fintype.card S := by
  refine Fork.sound cv.order hS v0 _ _ ?_ P a hP
  intro H H' c c' hp h1 h2
  rw [decide_eq_true_eq] at h1 h2
  obtain ⟨k1, hpk, v1, v2, hs1, hs2, hv⟩ := h1
  by_contra hne
  obtain ⟨X1, X2, e1, e2, p1, p2, hx, q1⟩ := auditRate_parts cv H pp c k1
  obtain ⟨X1', X2', -, -, -, -, hx', q2⟩ := auditRate_parts cv H' pp c' h2.1
  simp only [ratePoint, hx, hx'] at hp hne
  obtain ⟨s1, s2⟩ := audits_extract cv hE H H' _ _ c.pf c'.pf hp q1 q2 hne
  generalize extract cv _ _ _ _ = w at s1 s2
  simp only at s1 s2
  obtain ⟨r1, -, f1, Y1⟩ := hs1.parts
  obtain ⟨r2, f2, -, Y2⟩ := hs2.parts
  rw [e1, Option.some.injEq] at f1
  rw [e2, Option.some.injEq] at f2
  subst f1 f2
  rw [← p1, ← p2, Y1, Y2] at s2
  refine hv (exponent_zero cv pp.enc.g pp.enc.h w (c.t1 * r1 - c.t2 * r2) _ hh (key_exponent cv _ _ w hpk s1) ?_)
  have e : c.t1 • r1 • c.pk - c.t2 • r2 • c.pk = (c.t1 * r1 - c.t2 * r2) • w • pp.enc.g := by rw [← s1]; module
  rw [← e, s2]
  congr 1
  module

open Classical in
/-- **C130** Only the holder of the key proves rates. -/
theorem adcp_rate_knows_key (cv : Curve G) [NeZero cv.order] {W : Nat} (hE : cv.Encodes W) (pp : PP G) (hS : ∀ x ∈ S, ∀ y ∈ S, (cv.order : ℤ) ∣ x - y → x = y) (v0 : S)
    {Ω : Type} [Fintype Ω] [Nonempty Ω] (P : G → Ω → Adv Q S (RateClaim G)) (a : Nat) (hP : ∀ pk ω, (P pk ω).Within a) :
    let ε := acceptedOn v0 (fun _ => ratePoint cv pp) (fun (k : Fin cv.order × Ω) H c =>
        decide (auditRate cv H pp c.pk c.ctx1 c.ctx2 c.t1 c.t2 c.pf = some true ∧ c.pk = (k.1 : ℤ) • pp.enc.g))
      fun k : Fin cv.order × Ω => P ((k.1 : ℤ) • pp.enc.g) k.2
    ε * (ε / (a + 1 : ℕ) - 1 / Fintype.card S) ≤
      knowsOn v0 (fun _ => ratePoint cv pp) (fun (k : Fin cv.order × Ω) c c' e e' => decide (extract cv c.pf.z c'.pf.z e e' • pp.enc.g = (k.1 : ℤ) • pp.enc.g))
        fun k : Fin cv.order × Ω => P ((k.1 : ℤ) • pp.enc.g) k.2 := by
  refine extractsOn _ hS v0 _ _ _ ?_ _ (fun k => close (ratePoint cv pp) (P ((k.1 : ℤ) • pp.enc.g) k.2)) (a + 1) (by omega)
    (fun k => close_within _ _ a (hP _ _)) (fun k o h => close_asked _ _ o h)
  intro k H H' c c' hp h1 h2 hne
  rw [decide_eq_true_eq] at h1 h2 ⊢
  obtain ⟨X1, X2, -, -, -, -, hx, q1⟩ := auditRate_parts cv H pp c h1.1
  obtain ⟨X1', X2', -, -, -, -, hx', q2⟩ := auditRate_parts cv H' pp c' h2.1
  simp only [ratePoint, hx, hx'] at hp hne ⊢
  obtain ⟨s1, -⟩ := audits_extract cv hE H H' _ _ c.pf c'.pf hp q1 q2 hne
  exact s1.symm.trans h1.2

/-! ### The limit policy -/

/-- What the claimer hands to the auditor: key, transactions, bounds, proof. -/
structure LimitClaim (G : Type) where
  pk : G
  ctxs : List (ToOne G)
  L : ℤ
  R : ℤ
  pf : Gadget.Proof2 G

/-- `AuditPolicy` (limit) accepts, for some scalar that `FastVerify` may draw. -/
def LimitOk (cv : Curve G) (H : Bytes → ℤ) (pp : PP G) (c : LimitClaim G) : Prop := ∃ s, auditLimit cv H pp s c.pk c.ctxs c.L c.R c.pf = some true

/-- The string hashed for the refreshing proof of a limit. -/
def limitPoint (cv : Curve G) (pp : PP G) (c : LimitClaim G) : Bytes :=
  auditPoint cv ((sumLoop ⟨0, 0⟩ c.ctxs).map fun ct => Gadget.refreshInstance ⟨pp.enc, pp.bullet⟩ ⟨c.pk, ct⟩ c.pf.refresh) c.pf.dlogeq

theorem limitOk_parts (cv : Curve G) (H : Bytes → ℤ) (pp : PP G) (c : LimitClaim G) (h : LimitOk cv H pp c) :
    (∀ ctx ∈ c.ctxs, ctx.pks = c.pk) ∧ ∃ ct, sumLoop ⟨0, 0⟩ c.ctxs = some ct ∧
      (DLOGEquality.verify cv H (Gadget.refreshInstance ⟨pp.enc, pp.bullet⟩ ⟨c.pk, ct⟩ c.pf.refresh) [] c.pf.dlogeq).1 = true := by
  obtain ⟨s, h⟩ := h
  unfold auditLimit at h
  split_ifs at h with hk
  · exact absurd h (by simp)
  simp only [Option.bind_eq_bind, Option.bind_eq_some_iff, Option.pure_def, Option.some.injEq] at h
  obtain ⟨ct, hct, ⟨ok, t⟩, g1, rfl⟩ := h
  unfold Gadget.verify2 at g1
  simp only [Option.bind_eq_bind, Option.bind_eq_some_iff, Option.pure_def, Option.some.injEq, Prod.mk.injEq, Bool.and_eq_true] at g1
  obtain ⟨-, -, ⟨⟨d1, -⟩, -⟩, -⟩ := g1
  refine ⟨fun ctx hm => ?_, ct, hct, d1⟩
  simp only [Bool.not_eq_true, List.any_eq_false, decide_eq_true_eq, not_not] at hk
  exact (hk ctx hm).symm

/-- The running sum has the sum of the amounts as plaintext. -/
theorem sumLoop_says (cv : Curve G) (pp : PP G) (sk : ℤ) (hsk : ¬ (cv.order : ℤ) ∣ sk) (ctxs : List (ToOne G)) (vs : List ℤ)
    (h : List.Forall₂ (fun ctx v => ctx.pks = sk • pp.enc.g ∧ Says pp ctx v) ctxs vs) (acc : CT G) (a : ℤ) (hacc : Twisted.Holds cv pp.enc sk acc a) :
    ∃ ct, sumLoop acc ctxs = some ct ∧ Twisted.Holds cv pp.enc sk ct (a + vs.sum) := by
  induction h generalizing acc a with
  | nil => exact ⟨acc, rfl, by simpa using hacc⟩
  | @cons ctx v ctxs vs hd _ ih =>
    obtain ⟨hp, hs⟩ := hd
    obtain ⟨r, hX, -, hY⟩ := hs.parts
    rw [hp] at hX
    obtain ⟨ct, h1, h2⟩ := ih (acc.add ⟨r • sk • pp.enc.g, r • pp.enc.g + v • pp.enc.h⟩) (a + v) (by
      unfold Twisted.Holds at hacc ⊢
      rw [decPoint_add, leg cv pp sk v r hsk, hacc]
      module)
    refine ⟨ct, ?_, ?_⟩
    · unfold sumLoop
      simp [hX, hY, h1]
    · rw [List.sum_cons, ← add_assoc]
      exact h2

open Classical in
/-- **C130** The ciphertext on which the range proof of a limit speaks has the sum of the amounts as plaintext: with another plaintext the audit accepts with probability at most
`(a + 1) / |S|`. -/
theorem adcp_limit_sum_sound (cv : Curve G) {W : Nat} (hE : cv.Encodes W) (pp : PP G) (hS : ∀ x ∈ S, ∀ y ∈ S, (cv.order : ℤ) ∣ x - y → x = y) (v0 : S)
    {Ω : Type} [Fintype Ω] [Nonempty Ω] (P : Ω → Adv Q S (LimitClaim G)) (a : Nat) (hP : ∀ ω, (P ω).Within a) :
    accepted v0 (limitPoint cv pp) (fun H c => decide (LimitOk cv H pp c ∧ c.pk ≠ 0 ∧ ∃ vs : List ℤ, List.Forall₂ (Says pp) c.ctxs vs ∧
        ¬ ∃ sk : ℤ, c.pk = sk • pp.enc.g ∧ Twisted.Holds cv pp.enc sk c.pf.refresh vs.sum)) P ≤ (a + 1 : ℕ) / Fintype.card S := by
  refine Fork.sound cv.order hS v0 _ _ ?_ P a hP
  intro H H' c c' hp h1 h2
  rw [decide_eq_true_eq] at h1 h2
  obtain ⟨k1, hpk, vs, hvs, hf⟩ := h1
  by_contra hne
  obtain ⟨hall, ct, hct, q1⟩ := limitOk_parts cv H pp c k1
  obtain ⟨-, ct', hct', q2⟩ := limitOk_parts cv H' pp c' h2.1
  simp only [limitPoint, hct, hct', Option.map_some] at hp hne
  obtain ⟨s2, s1⟩ := audits_extract cv hE H H' _ _ _ _ hp q1 q2 hne
  generalize extract cv _ _ _ _ = w at s1 s2
  simp only [Gadget.refreshInstance] at s1 s2
  have hw := key_exponent cv _ _ w hpk s2
  have hd : Twisted.decPoint cv w ct = Twisted.decPoint cv w c.pf.refresh := (Gadget.same_plaintext cv w hw _ _ s1).symm
  obtain ⟨ct2, e1, e2⟩ := sumLoop_says cv pp w hw c.ctxs vs (by
    refine (List.forall₂_and_left (p := fun ctx : ToOne G => ctx.pks = w • pp.enc.g) c.ctxs vs).2 ⟨fun ctx hm => ?_, hvs⟩
    rw [hall ctx hm, s2]) ⟨0, 0⟩ 0 (zero_holds cv pp w)
  rw [hct, Option.some.injEq] at e1
  subst e1
  rw [zero_add] at e2
  refine hf ⟨w, s2, ?_⟩
  unfold Twisted.Holds at e2 ⊢
  rw [← hd]
  exact e2

open Classical in
/-- **C130** Only the holder of the key proves limits. -/
theorem adcp_limit_knows_key (cv : Curve G) [NeZero cv.order] {W : Nat} (hE : cv.Encodes W) (pp : PP G) (hS : ∀ x ∈ S, ∀ y ∈ S, (cv.order : ℤ) ∣ x - y → x = y) (v0 : S)
    {Ω : Type} [Fintype Ω] [Nonempty Ω] (P : G → Ω → Adv Q S (LimitClaim G)) (a : Nat) (hP : ∀ pk ω, (P pk ω).Within a) :
    let ε := acceptedOn v0 (fun _ => limitPoint cv pp) (fun (k : Fin cv.order × Ω) H c => decide (LimitOk cv H pp c ∧ c.pk = (k.1 : ℤ) • pp.enc.g))
      fun k : Fin cv.order × Ω => P ((k.1 : ℤ) • pp.enc.g) k.2
    ε * (ε / (a + 1 : ℕ) - 1 / Fintype.card S) ≤
      knowsOn v0 (fun _ => limitPoint cv pp)
        (fun (k : Fin cv.order × Ω) c c' e e' => decide (extract cv c.pf.dlogeq.z c'.pf.dlogeq.z e e' • pp.enc.g = (k.1 : ℤ) • pp.enc.g))
        fun k : Fin cv.order × Ω => P ((k.1 : ℤ) • pp.enc.g) k.2 := by
  refine extractsOn _ hS v0 _ _ _ ?_ _ (fun k => close (limitPoint cv pp) (P ((k.1 : ℤ) • pp.enc.g) k.2)) (a + 1) (by omega)
    (fun k => close_within _ _ a (hP _ _)) (fun k o h => close_asked _ _ o h)
  intro k H H' c c' hp h1 h2 hne
  rw [decide_eq_true_eq] at h1 h2 ⊢
  obtain ⟨-, ct, hct, q1⟩ := limitOk_parts cv H pp c h1.1
  obtain ⟨-, ct', hct', q2⟩ := limitOk_parts cv H' pp c' h2.1
  simp only [limitPoint, hct, hct', Option.map_some] at hp hne ⊢
  obtain ⟨s1, -⟩ := audits_extract cv hE H H' _ _ _ _ hp q1 q2 hne
  exact s1.symm.trans h1.2

/-! ### The hypotheses can be met -/

/-- The sender with secret key 3 opens its payment of 1. -/
def exOpen : OpenClaim (ZMod 11) := ⟨3, sTx sH0, 1, (justifyOpen Bullet.sCurve sH0 sPP sAcct (sTx sH0) 1 4).getD ⟨0, 0, 0⟩⟩

example : Bullet.sCurve.Encodes 1 ∧ sPP.enc.h ≠ 0 ∧ Accepted Bullet.sCurve sPP sH0 exOpen.ctx ∧
    auditOpen Bullet.sCurve sH0 sPP exOpen.pk exOpen.ctx exOpen.v exOpen.pf = some true ∧ exOpen.pk ≠ 0 ∧ exOpen.pk = (3 : ℤ) • sPP.enc.g ∧ Says sPP exOpen.ctx 1 := by
  refine ⟨⟨fun _ => rfl, by decide⟩, by decide, ⟨1, s_accepted.1⟩, by decide +kernel, by decide, by decide +kernel, 6, ?_⟩
  have h : (exOpen.ctx.transfer.vecX.take 3) = (Twisted.encMulti sPP.enc [exOpen.ctx.pks, exOpen.ctx.pkr, sPP.pka] 1 6).vecX ∧
      exOpen.ctx.transfer.Y = (Twisted.encMulti sPP.enc [exOpen.ctx.pks, exOpen.ctx.pkr, sPP.pka] 1 6).Y := by decide +kernel
  rw [h.1, h.2]

/-- A claimer that asks for nothing. -/
example (ω : Unit) : ((fun _ => .done exOpen : Unit → Adv ({[1], [2]} : Finset Bytes) ({1, 2} : Finset ℤ) (OpenClaim (ZMod 11))) ω).Within 0 := trivial

/-- The rate of what it sends to what it got: a payment received and the same payment sent on, at the rate 1. -/
example : rateOk Bullet.sCurve sH0 sPP ⟨3, { sTx sH0 with pks := 4, pkr := 3, transfer := Twisted.encMulti sPP.enc [4, 3, sPP.pka] 1 5 }, sTx sH0, 1, 1,
    (justifyRate Bullet.sCurve sH0 sPP sAcct { sTx sH0 with pks := 4, pkr := 3, transfer := Twisted.encMulti sPP.enc [4, 3, sPP.pka] 1 5 } (sTx sH0) 1 1 4).getD ⟨0, 0, 0⟩⟩ := by
  unfold rateOk
  decide +kernel

/-- Alice sent 40 and 50 and proves that this is less than 100. -/
example : ∃ pf, LimitOk Dlog.exCurve (fun _ => 3) exPP ⟨exAlice.pk, [limCTx 40 3, limCTx 50 4], 0, 100, pf⟩ ∧
    List.Forall₂ (Says exPP) [limCTx 40 3, limCTx 50 4] [40, 50] := by
  obtain ⟨pf, -, h⟩ := adcp_limit_complete Dlog.exCurve (fun _ => 3) exPP exEnv exSched exAlice [limCTx 40 3, limCTx 50 4] [40, 50] 0 100
    ⟨1, 2, 3, 4, exCoins.bullet⟩ 4 90 exAlice_sane.key exAlice_sane.ne
    (List.Forall₂.cons ⟨rfl, 3, rfl⟩ (List.Forall₂.cons ⟨rfl, 4, rfl⟩ List.Forall₂.nil)) rfl (exReady 90) (by decide) exSized (by decide)
    (by decide) (by decide) (fun _ => by decide)
  exact ⟨pf, ⟨1, h 1⟩, .cons ⟨3, rfl⟩ (.cons ⟨4, rfl⟩ .nil)⟩

end Kunlun.ADCP
