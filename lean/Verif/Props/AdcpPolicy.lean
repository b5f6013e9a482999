import Verif.Props.Adcp
/-!
C45: the open, rate and limit policies.
-/

namespace Kunlun.ADCP

variable {G : Type} [AddCommGroup G] [DecidableEq G]

/-- C45, open policy: the sender or the receiver of a transfer of `v` justifies the amount `v`, and the audit accepts. -/
theorem adcp_open_complete (cv : Curve G) (H : Bytes → ℤ) (pp : PP G) (a : Account G) (ctx : ToOne G) (v r w : ℤ)
    (hk : a.pk = a.sk • pp.enc.g) (ht : Transfers pp ctx v r) (hp : a.pk = ctx.pks ∨ a.pk = ctx.pkr) :
    ∃ pf, justifyOpen cv H pp a ctx v w = some pf ∧ auditOpen cv H pp a.pk ctx v pf = some true := by
  have hX0 : ctx.transfer.vecX[0]? = some (r • ctx.pks) := by rw [ht]; rfl
  have hX1 : ctx.transfer.vecX[1]? = some (r • ctx.pkr) := by rw [ht]; rfl
  have hY : ctx.transfer.Y = r • pp.enc.g + v • pp.enc.h := by rw [ht]; rfl
  have key : ∃ x, openInstance pp a.pk ctx v = some x ∧ x.h1 = a.sk • x.g1 ∧ x.h2 = a.sk • x.g2 := by
    unfold openInstance
    by_cases hs : a.pk = ctx.pks
    · rw [if_pos hs]
      refine ⟨⟨ctx.transfer.Y - v • pp.enc.h, r • ctx.pks, pp.enc.g, ctx.pks⟩, by simp [hX0], ?_, ?_⟩
      · simp only [hY, ← hs, hk]; module
      · simp only [← hs, hk]
    · have hr := hp.resolve_left hs
      rw [if_neg hs]
      refine ⟨⟨ctx.transfer.Y - v • pp.enc.h, r • ctx.pkr, pp.enc.g, ctx.pkr⟩, by simp [hX1], ?_, ?_⟩
      · simp only [hY, ← hr, hk]; module
      · simp only [← hr, hk]
  obtain ⟨x, hx, h1, h2⟩ := key
  have hg : ¬ (a.pk ≠ ctx.pks ∧ a.pk ≠ ctx.pkr) := by tauto
  have hc := DLOGEquality.dlogEquality_complete cv H x a.sk w [] h1 h2
  refine ⟨(DLOGEquality.prove cv H x a.sk w []).1, ?_, ?_⟩
  · unfold justifyOpen
    simp [hg, hx]
  · unfold auditOpen
    simp [hg, hx, hc]

/-- Two ciphertext components with the key as common exponent have the plaintext zero. -/
theorem exponent_zero (cv : Curve G) (g h : G) (w r u : ℤ) (hh : h ≠ 0) (hw : ¬ (cv.order : ℤ) ∣ w)
    (hX : r • w • g = w • (r • g + u • h)) : (cv.order : ℤ) ∣ u := by
  have h0 : (w * u) • h = 0 := by
    have : w • (r • g + u • h) - r • w • g = (w * u) • h := by module
    rw [← this, ← hX, sub_self]
  rw [cv.smul_eq_zero_iff _ _ hh] at h0
  have hprime : Prime (cv.order : ℤ) := Nat.prime_iff_prime_int.1 cv.prime
  exact (hprime.dvd_or_dvd h0).resolve_left hw

theorem key_exponent (cv : Curve G) (g pk : G) (w : ℤ) (hpk : pk ≠ 0) (h : pk = w • g) : ¬ (cv.order : ℤ) ∣ w := by
  rintro ⟨d, rfl⟩
  apply hpk
  rw [h, mul_comm, mul_smul, Nat.cast_smul_eq_nsmul, cv.smul_order, smul_zero]

/-- C45, open policy, soundness: two accepted audits of the amount `v` with the same first message and different challenges: the amount
`v'` in the ciphertext is `v` modulo the order. -/
theorem adcp_open_sound (cv : Curve G) (H H' : Bytes → ℤ) (pp : PP G) (pk : G) (ctx : ToOne G) (v v' r : ℤ) (A1 A2 : G) (z z' : ℤ)
    (ht : Transfers pp ctx v' r) (hh : pp.enc.h ≠ 0) (hpk : pk ≠ 0)
    (h1 : auditOpen cv H pp pk ctx v ⟨A1, A2, z⟩ = some true) (h2 : auditOpen cv H' pp pk ctx v ⟨A1, A2, z'⟩ = some true)
    (hne : ∀ x, openInstance pp pk ctx v = some x →
      ¬ (cv.order : ℤ) ∣ DLOGEquality.challenge cv H x [] A1 A2 - DLOGEquality.challenge cv H' x [] A1 A2) :
    (cv.order : ℤ) ∣ v' - v := by
  have hX0 : ctx.transfer.vecX[0]? = some (r • ctx.pks) := by rw [ht]; rfl
  have hX1 : ctx.transfer.vecX[1]? = some (r • ctx.pkr) := by rw [ht]; rfl
  have hY : ctx.transfer.Y = r • pp.enc.g + v' • pp.enc.h := by rw [ht]; rfl
  unfold auditOpen at h1 h2
  split_ifs at h1 h2 with c
  · exact absurd h1 (by simp)
  simp only [Option.bind_eq_bind, Option.bind_eq_some_iff, Option.pure_def, Option.some.injEq] at h1 h2
  obtain ⟨x, hx, h1⟩ := h1
  obtain ⟨x', hx', h2⟩ := h2
  rw [hx] at hx'
  cases hx'
  obtain ⟨s1, s2⟩ := DLOGEquality.dlogEquality_special_sound cv H H' x [] [] A1 A2 z z' h1 h2 (hne x hx)
  generalize extract cv z z' _ _ = w at s1 s2
  have hform : x = ⟨ctx.transfer.Y - v • pp.enc.h, r • pk, pp.enc.g, pk⟩ := by
    unfold openInstance at hx
    by_cases hs : pk = ctx.pks
    · rw [if_pos hs] at hx
      simp only [hX0, Option.bind_eq_bind, Option.bind_some, Option.pure_def, Option.some.injEq] at hx
      rw [← hx, hs]
    · have hr : pk = ctx.pkr := by tauto
      rw [if_neg hs] at hx
      simp only [hX1, Option.bind_eq_bind, Option.bind_some, Option.pure_def, Option.some.injEq] at hx
      rw [← hx, hr]
  subst hform
  simp only at s1 s2
  refine exponent_zero cv pp.enc.g pp.enc.h w r (v' - v) hh (key_exponent cv _ _ w hpk s2) ?_
  rw [← s2, s1, hY]
  congr 1
  module

/-- C45, rate policy: if the receiver of `v1` who sends `v2` keeps `t1 v1 = t2 v2` (also only modulo the order), the audit accepts. -/
theorem adcp_rate_complete (cv : Curve G) (H : Bytes → ℤ) (pp : PP G) (a : Account G) (ctx1 ctx2 : ToOne G) (v1 r1 v2 r2 t1 t2 w : ℤ)
    (hk : a.pk = a.sk • pp.enc.g) (ht1 : Transfers pp ctx1 v1 r1) (ht2 : Transfers pp ctx2 v2 r2) (hp1 : a.pk = ctx1.pkr)
    (hp2 : a.pk = ctx2.pks) (hrate : (cv.order : ℤ) ∣ t1 * v1 - t2 * v2) :
    ∃ pf, justifyRate cv H pp a ctx1 ctx2 t1 t2 w = some pf ∧ auditRate cv H pp a.pk ctx1 ctx2 t1 t2 pf = some true := by
  have hX1 : ctx1.transfer.vecX[1]? = some (r1 • a.sk • pp.enc.g) := by rw [ht1, ← hk, hp1]; rfl
  have hX2 : ctx2.transfer.vecX[0]? = some (r2 • a.sk • pp.enc.g) := by rw [ht2, ← hk, hp2]; rfl
  have hY1 : ctx1.transfer.Y = r1 • pp.enc.g + v1 • pp.enc.h := by rw [ht1]; rfl
  have hY2 : ctx2.transfer.Y = r2 • pp.enc.g + v2 • pp.enc.h := by rw [ht2]; rfl
  have hz : (t1 * v1 - t2 * v2) • pp.enc.h = 0 := by
    obtain ⟨d, hd⟩ := hrate
    rw [hd, mul_comm, mul_smul, Nat.cast_smul_eq_nsmul, cv.smul_order, smul_zero]
  have key : ∃ x, rateInstance pp a.pk ctx1 ctx2 t1 t2 = some x ∧ x.h1 = a.sk • x.g1 ∧ x.h2 = a.sk • x.g2 := by
    unfold rateInstance
    simp only [hX1, hX2, Option.bind_eq_bind, Option.bind_some, Option.pure_def, Option.some.injEq]
    refine ⟨_, rfl, hk, ?_⟩
    simp only [CT.scale, CT.sub, hY1, hY2]
    have e : t1 • (r1 • pp.enc.g + v1 • pp.enc.h) - t2 • (r2 • pp.enc.g + v2 • pp.enc.h) =
        (t1 * r1 - t2 * r2) • pp.enc.g + (t1 * v1 - t2 * v2) • pp.enc.h := by module
    rw [e, hz, add_zero]
    module
  obtain ⟨x, hx, h1, h2⟩ := key
  have hg : ¬ (a.pk ≠ ctx1.pkr ∨ a.pk ≠ ctx2.pks) := by tauto
  have hc := DLOGEquality.dlogEquality_complete cv H x a.sk w [] h1 h2
  refine ⟨(DLOGEquality.prove cv H x a.sk w []).1, ?_, ?_⟩
  · unfold justifyRate
    rw [if_neg hg]
    simp [hx]
  · unfold auditRate
    rw [if_neg hg]
    simp [hx, hc]

/-- C45, rate policy, soundness: two accepted audits imply `t1 v1 ≡ t2 v2`. -/
theorem adcp_rate_sound (cv : Curve G) (H H' : Bytes → ℤ) (pp : PP G) (pk : G) (ctx1 ctx2 : ToOne G) (v1 r1 v2 r2 t1 t2 : ℤ) (A1 A2 : G)
    (z z' : ℤ) (ht1 : Transfers pp ctx1 v1 r1) (ht2 : Transfers pp ctx2 v2 r2) (hh : pp.enc.h ≠ 0) (hpk : pk ≠ 0)
    (h1 : auditRate cv H pp pk ctx1 ctx2 t1 t2 ⟨A1, A2, z⟩ = some true)
    (h2 : auditRate cv H' pp pk ctx1 ctx2 t1 t2 ⟨A1, A2, z'⟩ = some true)
    (hne : ∀ x, rateInstance pp pk ctx1 ctx2 t1 t2 = some x →
      ¬ (cv.order : ℤ) ∣ DLOGEquality.challenge cv H x [] A1 A2 - DLOGEquality.challenge cv H' x [] A1 A2) :
    (cv.order : ℤ) ∣ t1 * v1 - t2 * v2 := by
  unfold auditRate at h1 h2
  split_ifs at h1 h2 with c
  · exact absurd h1 (by simp)
  have c1 : pk = ctx1.pkr := by tauto
  have c2 : pk = ctx2.pks := by tauto
  have hX1 : ctx1.transfer.vecX[1]? = some (r1 • pk) := by rw [ht1, c1]; rfl
  have hX2 : ctx2.transfer.vecX[0]? = some (r2 • pk) := by rw [ht2, c2]; rfl
  have hY1 : ctx1.transfer.Y = r1 • pp.enc.g + v1 • pp.enc.h := by rw [ht1]; rfl
  have hY2 : ctx2.transfer.Y = r2 • pp.enc.g + v2 • pp.enc.h := by rw [ht2]; rfl
  simp only [Option.bind_eq_bind, Option.bind_eq_some_iff, Option.pure_def, Option.some.injEq] at h1 h2
  obtain ⟨x, hx, h1⟩ := h1
  obtain ⟨x', hx', h2⟩ := h2
  rw [hx] at hx'
  cases hx'
  obtain ⟨s1, s2⟩ := DLOGEquality.dlogEquality_special_sound cv H H' x [] [] A1 A2 z z' h1 h2 (hne x hx)
  generalize extract cv z z' _ _ = w at s1 s2
  unfold rateInstance at hx
  simp only [hX1, hX2, Option.bind_eq_bind, Option.bind_some, Option.pure_def, Option.some.injEq] at hx
  subst hx
  simp only [CT.scale, CT.sub, hY1, hY2] at s1 s2
  refine exponent_zero cv pp.enc.g pp.enc.h w (t1 * r1 - t2 * r2) _ hh (key_exponent cv _ _ w hpk s1) ?_
  have e : t1 • r1 • pk - t2 • r2 • pk = (t1 * r1 - t2 * r2) • w • pp.enc.g := by rw [← s1]; module
  rw [← e, s2]
  congr 1
  module

/-- A list of transfers by one sender, with their amounts. -/
def TransfersAll (pp : PP G) (pk : G) (ctxs : List (ToOne G)) (vs : List ℤ) : Prop :=
  List.Forall₂ (fun ctx v => ctx.pks = pk ∧ ∃ r, Transfers pp ctx v r) ctxs vs

theorem sumLoop_holds (cv : Curve G) (pp : PP G) (sk : ℤ) (hsk : ¬ (cv.order : ℤ) ∣ sk) (ctxs : List (ToOne G)) (vs : List ℤ)
    (h : TransfersAll pp (sk • pp.enc.g) ctxs vs) (acc : CT G) (a : ℤ) (hacc : Twisted.Holds cv pp.enc sk acc a) :
    ∃ ct, sumLoop acc ctxs = some ct ∧ Twisted.Holds cv pp.enc sk ct (a + vs.sum) := by
  unfold TransfersAll at h
  induction h generalizing acc a with
  | nil => exact ⟨acc, rfl, by simpa using hacc⟩
  | @cons ctx v ctxs vs hd _ ih =>
    obtain ⟨hp, r, ht⟩ := hd
    have hX : ctx.transfer.vecX[0]? = some (r • sk • pp.enc.g) := by rw [ht, hp]; rfl
    have hY : ctx.transfer.Y = r • pp.enc.g + v • pp.enc.h := by rw [ht]; rfl
    obtain ⟨ct, h1, h2⟩ := ih (acc.add ⟨r • sk • pp.enc.g, r • pp.enc.g + v • pp.enc.h⟩) (a + v) (by
      unfold Twisted.Holds at hacc ⊢
      rw [decPoint_add, leg cv pp sk v r hsk, hacc]
      module)
    refine ⟨ct, ?_, ?_⟩
    · unfold sumLoop
      simp [hX, hY, h1]
    · rw [List.sum_cons, ← add_assoc]
      exact h2

theorem zero_holds (cv : Curve G) (pp : PP G) (sk : ℤ) : Twisted.Holds cv pp.enc sk ⟨0, 0⟩ 0 := by
  simp [Twisted.Holds, Twisted.decPoint]

theorem all_sender {pp : PP G} {pk : G} {ctxs : List (ToOne G)} {vs : List ℤ} (h : TransfersAll pp pk ctxs vs) :
    ctxs.any (fun ctx => decide (pk ≠ ctx.pks)) = false := by
  rw [List.any_eq_false]
  intro ctx hm
  unfold TransfersAll at h
  induction h with
  | nil => exact absurd hm (by simp)
  | cons hd _ ih =>
    rcases List.mem_cons.1 hm with rfl | hm
    · simp [hd.1]
    · exact ih hm

/-- C45, limit policy: a sender whose outgoing amounts sum to a value in `[LEFT, RIGHT)` justifies it, and the audit accepts whatever
scalar it draws. -/
theorem adcp_limit_complete (cv : Curve G) (H : Bytes → ℤ) (pp : PP G) (env : DecEnv G) (sched : List (Nat × Bool)) (a : Account G)
    (ctxs : List (ToOne G)) (vs : List ℤ) (L R : ℤ) (c : LimitCoins) (k : Nat) (m : Nat)
    (hk : a.pk = a.sk • pp.enc.g) (hne : ¬ (cv.order : ℤ) ∣ a.sk) (ht : TransfersAll pp a.pk ctxs vs) (hm : vs.sum = m)
    (hready : Ready cv env pp.enc.h sched m) (hmn : m < 2 ^ env.msgLen) (hs : Gadget.Sized ⟨pp.enc, pp.bullet⟩ c.bullet k)
    (h0 : 0 ≤ L) (hR : R ≤ 2 ^ pp.bullet.rangeLen) (hin : L ≤ m ∧ (m : ℤ) < R) (hH : ∀ b, ¬ (cv.order : ℤ) ∣ H b) :
    ∃ pf, justifyLimit cv H pp env sched a ctxs L R c = some (some pf) ∧ ∀ s, auditLimit cv H pp s a.pk ctxs L R pf = some true := by
  obtain ⟨ct, hsum, hct⟩ := sumLoop_holds cv pp a.sk hne ctxs vs (hk ▸ ht) ⟨0, 0⟩ 0 (zero_holds cv pp a.sk)
  rw [zero_add, hm] at hct
  obtain ⟨pf, tr', hp, hv⟩ := Gadget.gadget_type2_complete cv H ⟨pp.enc, pp.bullet⟩ env sched m hready hmn c.bullet k hs a.sk hne ct L R
    c.rStar c.w c.a c.b [] hct h0 hR hin
  have hkk : Twisted.keyGen pp.enc a.sk = a.pk := by rw [hk]; rfl
  simp only [hkk] at hp hv
  refine ⟨pf, ?_, fun s => ?_⟩
  · unfold justifyLimit
    simp only [all_sender ht, hsum, Option.bind_eq_bind, Option.bind_some, hp, Option.pure_def]
    simp
  · have hv' := hv (Bullet.good_of_hash cv H hH _ _) s
    unfold auditLimit
    simp only [all_sender ht, hsum, Option.bind_eq_bind, Option.bind_some, hv', Option.pure_def]
    simp

/-- C45, limit policy, what the audit gives besides the range proof: two accepted audits with the same first message of the refreshing
proof and different challenges give the claimer's key, and the refreshed ciphertext, on which the range proof speaks, has the plaintext
`Σ vᵢ`. With an opening `(r, m)` of the refreshed ciphertext and openings of the two shifted commitments to `n`-bit values, `Σ vᵢ` modulo
the order lies in `[LEFT, RIGHT)`, or the openings give a relation between `g` and `h`. Those openings are extracted in `adcp_limit_sound`. -/
theorem adcp_limit_openings (cv : Curve G) (H H' : Bytes → ℤ) (pp : PP G) (s s' : ℤ) (pk : G) (ctxs : List (ToOne G)) (vs : List ℤ)
    (L R : ℤ) (pf pf' : Gadget.Proof2 G) (ht : TransfersAll pp pk ctxs vs) (hpk : pk ≠ 0) (hh : pp.enc.h ≠ 0)
    (h1 : auditLimit cv H pp s pk ctxs L R pf = some true) (h2 : auditLimit cv H' pp s' pk ctxs L R pf' = some true)
    (e1 : pf'.refresh = pf.refresh) (e2 : pf'.dlogeq.A1 = pf.dlogeq.A1) (e3 : pf'.dlogeq.A2 = pf.dlogeq.A2)
    (hne : ∀ ct, sumLoop ⟨0, 0⟩ ctxs = some ct →
      ¬ (cv.order : ℤ) ∣ DLOGEquality.challenge cv H (Gadget.refreshInstance ⟨pp.enc, pp.bullet⟩ ⟨pk, ct⟩ pf.refresh) [] pf.dlogeq.A1 pf.dlogeq.A2 -
        DLOGEquality.challenge cv H' (Gadget.refreshInstance ⟨pp.enc, pp.bullet⟩ ⟨pk, ct⟩ pf.refresh) [] pf.dlogeq.A1 pf.dlogeq.A2) :
    (∃ ct, sumLoop ⟨0, 0⟩ ctxs = some ct ∧
      let x := Gadget.refreshInstance ⟨pp.enc, pp.bullet⟩ ⟨pk, ct⟩ pf.refresh
      let w := extract cv pf.dlogeq.z pf'.dlogeq.z (DLOGEquality.challenge cv H x [] pf.dlogeq.A1 pf.dlogeq.A2)
        (DLOGEquality.challenge cv H' x [] pf.dlogeq.A1 pf.dlogeq.A2)
      pk = w • pp.enc.g ∧ Twisted.Holds cv pp.enc w pf.refresh vs.sum) ∧
    ∀ r m r0 a r1 b : ℤ, pf.refresh = Twisted.enc pp.enc pk m r → pp.bullet.g = pp.enc.g → pp.bullet.h = pp.enc.h →
      2 ^ (pp.bullet.rangeLen + 1) ≤ cv.order → 0 ≤ L → L ≤ R → R ≤ 2 ^ pp.bullet.rangeLen →
      Gadget.adjustInstance pp.bullet L R pf.refresh.Y pf.refresh.Y =
        [r0 • pp.bullet.g + a • pp.bullet.h, r1 • pp.bullet.g + b • pp.bullet.h] →
      (0 ≤ a ∧ a < 2 ^ pp.bullet.rangeLen) → (0 ≤ b ∧ b < 2 ^ pp.bullet.rangeLen) →
      (L ≤ vs.sum % cv.order ∧ vs.sum % cv.order < R) ∨
      ((r - r0) • pp.bullet.g = (a - (m - L)) • pp.bullet.h ∧ ¬ (cv.order : ℤ) ∣ a - (m - L)) ∨
      ((r - r1) • pp.bullet.g = (b - (m + 2 ^ pp.bullet.rangeLen - R)) • pp.bullet.h ∧
        ¬ (cv.order : ℤ) ∣ b - (m + 2 ^ pp.bullet.rangeLen - R)) := by
  unfold auditLimit at h1 h2
  simp only [all_sender ht, Bool.false_eq_true, if_false, Option.bind_eq_bind, Option.bind_eq_some_iff, Option.pure_def, Option.some.injEq] at h1 h2
  obtain ⟨ct, hct, ⟨ok, o⟩, g1, rfl⟩ := h1
  obtain ⟨ct', hct', ⟨ok', o'⟩, g2, rfl⟩ := h2
  rw [hct] at hct'
  cases hct'
  unfold Gadget.verify2 at g1 g2
  simp only [Option.bind_eq_bind, Option.bind_eq_some_iff, Option.pure_def, Option.some.injEq, Prod.mk.injEq, Bool.and_eq_true] at g1 g2
  obtain ⟨-, -, ⟨⟨d1, -⟩, -⟩, -⟩ := g1
  obtain ⟨-, -, ⟨⟨d2, -⟩, -⟩, -⟩ := g2
  have d2' : (DLOGEquality.verify cv H' (Gadget.refreshInstance ⟨pp.enc, pp.bullet⟩ ⟨pk, ct⟩ pf.refresh) []
      ⟨pf.dlogeq.A1, pf.dlogeq.A2, pf'.dlogeq.z⟩).1 = true := by
    rw [← e1, ← e2, ← e3]; exact d2
  obtain ⟨k1, k2⟩ := Gadget.gadget_type2_refresh_sound cv H H' ⟨pp.enc, pp.bullet⟩ ⟨pk, ct⟩ pf.refresh [] [] pf.dlogeq.A1 pf.dlogeq.A2
    pf.dlogeq.z pf'.dlogeq.z d1 d2' hpk (hne ct hct)
  simp only at k1 k2
  refine ⟨⟨ct, hct, k1, ?_⟩, ?_⟩ <;> generalize extract cv _ _ _ _ = w at k1 k2
  · obtain ⟨c2, hc2, hold⟩ := sumLoop_holds cv pp w (key_exponent cv _ _ w hpk k1) ctxs vs (k1 ▸ ht) ⟨0, 0⟩ 0 (zero_holds cv pp w)
    rw [hct] at hc2
    cases hc2
    rw [Twisted.Holds, k2, ← zero_add vs.sum]
    exact hold
  · intro r m r0 a r1 b hrf hg hbh hq h0 hLR hR hC ha hb
    obtain ⟨c2, hc2, hold⟩ := sumLoop_holds cv pp w (key_exponent cv _ _ w hpk k1) ctxs vs (k1 ▸ ht) ⟨0, 0⟩ 0 (zero_holds cv pp w)
    rw [hct] at hc2
    cases hc2
    rw [zero_add, Twisted.Holds, ← k2, hrf] at hold
    have hkk : pk = Twisted.keyGen pp.enc w := k1
    have hm := Twisted.twisted_enc_holds cv pp.enc w m r (key_exponent cv _ _ w hpk k1)
    rw [← hkk, Twisted.Holds, hold, cv.smul_eq_iff _ _ _ hh] at hm
    have hmm : vs.sum % cv.order = m % cv.order := Int.emod_eq_emod_iff_emod_sub_eq_zero.2 (Int.emod_eq_zero_of_dvd hm)
    rw [hmm]
    exact Gadget.gadget_interval_sound cv ⟨pp.enc, pp.bullet⟩ L R r m r0 a r1 b pf.refresh.Y hq h0 hLR hR
      (by rw [hrf]; simp only [Twisted.enc, msm_two, hg, hbh]) hC ha hb

/-! ### Examples -/

/-- A transfer of 3 from key 4 to key 6 (secret 4 and 6, `g = 1`, `h = 5`, supervisor key 2). -/
def toyPP : PP (ZMod 7) := ⟨4, 1, 4, Bullet.exPP, ⟨1, 5⟩, 2⟩
def toyCTx (v r : ℤ) (pks pkr : ZMod 7) : ToOne (ZMod 7) :=
  ⟨1, ⟨0, 0⟩, pks, pkr, Twisted.encMulti toyPP.enc [pks, pkr, toyPP.pka] v r, ⟨[], 0, 0, 0⟩, ⟨0, 0, 0, 0, 0, 0, 0, ⟨[], [], 0, 0⟩⟩, ⟨0, 0⟩,
    ⟨0, 0, 0, 0⟩, ⟨0, 0, 0⟩⟩

example : Transfers toyPP (toyCTx 3 2 4 6) 3 2 := rfl

/-- The receiver opens 3 and the audit accepts for two hash functions; it rejects the amount 2. -/
example : auditOpen toyCurve (fun _ => 1) toyPP 6 (toyCTx 3 2 4 6) 3 ((justifyOpen toyCurve (fun _ => 1) toyPP ⟨[], 6, 6, ⟨0, 0⟩, 0, 0⟩
      (toyCTx 3 2 4 6) 3 5).getD ⟨0, 0, 0⟩) = some true ∧
    auditOpen toyCurve (fun _ => 2) toyPP 6 (toyCTx 3 2 4 6) 3 ((justifyOpen toyCurve (fun _ => 2) toyPP ⟨[], 6, 6, ⟨0, 0⟩, 0, 0⟩
      (toyCTx 3 2 4 6) 3 5).getD ⟨0, 0, 0⟩) = some true ∧
    auditOpen toyCurve (fun _ => 1) toyPP 6 (toyCTx 3 2 4 6) 2 ((justifyOpen toyCurve (fun _ => 1) toyPP ⟨[], 6, 6, ⟨0, 0⟩, 0, 0⟩
      (toyCTx 3 2 4 6) 2 5).getD ⟨0, 0, 0⟩) = some false := by
  decide +kernel

/-- Rate: received 3, sent 2, rates 2 and 3; not with rates 1 and 1. -/
example : auditRate toyCurve (fun _ => 1) toyPP 6 (toyCTx 3 2 4 6) (toyCTx 2 5 6 4) 2 3 ((justifyRate toyCurve (fun _ => 1) toyPP
      ⟨[], 6, 6, ⟨0, 0⟩, 0, 0⟩ (toyCTx 3 2 4 6) (toyCTx 2 5 6 4) 2 3 5).getD ⟨0, 0, 0⟩) = some true ∧
    auditRate toyCurve (fun _ => 1) toyPP 6 (toyCTx 3 2 4 6) (toyCTx 2 5 6 4) 1 1 ((justifyRate toyCurve (fun _ => 1) toyPP
      ⟨[], 6, 6, ⟨0, 0⟩, 0, 0⟩ (toyCTx 3 2 4 6) (toyCTx 2 5 6 4) 1 1 5).getD ⟨0, 0, 0⟩) = some false := by
  decide +kernel

/-- Limit: the hypotheses of `adcp_limit_complete` are met by Alice sending 40 and 50 with limit 100. -/
def limCTx (v r : ℤ) : ToOne (ZMod 8209) :=
  ⟨1, ⟨0, 0⟩, exAlice.pk, exBob.pk, Twisted.encMulti exPP.enc [exAlice.pk, exBob.pk, exPP.pka] v r, ⟨[], 0, 0, 0⟩,
    ⟨0, 0, 0, 0, 0, 0, 0, ⟨[], [], 0, 0⟩⟩, ⟨0, 0⟩, ⟨0, 0, 0, 0⟩, ⟨0, 0, 0⟩⟩

example : ∃ pf, justifyLimit Dlog.exCurve (fun _ => 3) exPP exEnv exSched exAlice [limCTx 40 3, limCTx 50 4] 0 100 ⟨1, 2, 3, 4, exCoins.bullet⟩ =
      some (some pf) ∧
    ∀ s, auditLimit Dlog.exCurve (fun _ => 3) exPP s exAlice.pk [limCTx 40 3, limCTx 50 4] 0 100 pf = some true :=
  adcp_limit_complete Dlog.exCurve (fun _ => 3) exPP exEnv exSched exAlice [limCTx 40 3, limCTx 50 4] [40, 50] 0 100
    ⟨1, 2, 3, 4, exCoins.bullet⟩ 4 90 exAlice_sane.key exAlice_sane.ne
    (List.Forall₂.cons ⟨rfl, 3, rfl⟩ (List.Forall₂.cons ⟨rfl, 4, rfl⟩ List.Forall₂.nil)) rfl (exReady 90) (by decide) exSized (by decide)
    (by decide) (by decide) (fun _ => by decide)

end Kunlun.ADCP
