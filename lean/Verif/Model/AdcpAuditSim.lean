import Verif.Model.AdcpManySim
import Verif.Props.AdcpAudit
/-!
Simulators for the audits of `adcp/adcp.hpp` (`JustifyPolicy`). They are not part of the code: they are given what the auditor has anyway (keys,
transactions, the claim) and values they may set in a random oracle, and are what `JustifyPolicy` is compared with.
-/

namespace Kunlun.ADCP

open Finset Bullet Oracle

variable {G V : Type} [AddCommGroup G] [DecidableEq G] [Fintype V] [DecidableEq V] {Q : Finset Bytes}

theorem len_dl (cv : Curve G) {W : ℕ} (hE : cv.Encodes W) (x : DLOGEquality.Instance G) (tr : Bytes) (pf : DLOGEquality.Proof G) :
    (dlPoint cv x tr pf).length = tr.length + 6 * W := by
  simp only [dlPoint, DLOGEquality.initTranscript, List.length_append, hE.len]
  omega

/-- A proof of discrete-log equality: on average the simulator may set the value at the string that is hashed. -/
theorem dl_stage (cv : Curve G) [Fintype (ZMod cv.order)] {W : ℕ} (hE : cv.Encodes W) (hW : 0 < W) (val : V → ℤ) (v0 : V) (L : ℕ)
    (hQ : ∀ b : Bytes, b.length ≤ L → b ∈ Q) (K : (Q → V) → DLOGEquality.Proof G × Bytes → ℝ) (x : DLOGEquality.Instance G) (w : ℤ)
    (h1 : x.h1 = w • x.g1) (h2 : x.h2 = w • x.g2) (tr : Bytes) (ht : tr.length + 6 * W ≤ L) (l : List (Bytes × V))
    (hl : ∀ b ∈ l.map Prod.fst, b.length ≤ tr.length) :
    (Fintype.card V : ℝ) * ∑ o, ∑ c : ZMod cv.order, K (prog l o) (DLOGEquality.prove cv (hash val v0 (prog l o)) x w (ofF cv c) tr) =
      ∑ e, ∑ z : ZMod cv.order, ∑ o, K (prog (l ++ [(dlPoint cv x tr (simDl x (val e) (ofF cv z)), e)]) o)
        (simDl x (val e) (ofF cv z), dlPoint cv x tr (simDl x (val e) (ofF cv z))) := by
  refine stage v0 l (fun o (c : ZMod cv.order) => K o (DLOGEquality.prove cv (hash val v0 o) x w (ofF cv c) tr))
    (fun e (z : ZMod cv.order) => dlPoint cv x tr (simDl x (val e) (ofF cv z)))
    (fun o e (z : ZMod cv.order) => K o (simDl x (val e) (ofF cv z), dlPoint cv x tr (simDl x (val e) (ofF cv z)))) ?_ ?_ ?_
  · intro o
    exact sum_dl cv (ext v0 o) val x w h1 h2 tr fun p => K o (p, dlPoint cv x tr p)
  · intro e z
    exact hQ _ (by rw [len_dl cv hE]; exact ht)
  · intro e z h
    have := hl _ h
    rw [len_dl cv hE] at this
    omega

/-- All answers of `D` to simulated limit proofs with a given refreshed ciphertext. -/
noncomputable def simLimitAt (cv : Curve G) [Fintype (ZMod cv.order)] (pp : PP G) (val : V → ℤ) (v0 : V)
    (D : (Q → V) → Option (Option (Gadget.Proof2 G)) → ℝ) (pk : G) (ct : CT G) (L R : ℤ) (refresh : CT G) : ℝ :=
  ∑ e1, ∑ d : ZMod cv.order,
    let x := Gadget.refreshInstance ⟨pp.enc, pp.bullet⟩ ⟨pk, ct⟩ refresh
    let pf1 := simDl x (val e1) (ofF cv d)
    let p1 := dlPoint cv x [] pf1
    ∑ e2, ∑ w : ZMod cv.order × ZMod cv.order,
      let pf2 := simKn pp.enc ⟨pk, refresh⟩ (val e2) (ofF cv w.1) (ofF cv w.2)
      let p2 := knPoint cv ⟨pk, refresh⟩ p1 pf2
      let C := Gadget.adjustInstance pp.bullet L R refresh.Y refresh.Y
      ∑ y, ∑ z, ∑ x, ∑ s : Shape cv.order (pp.bullet.rangeLen * 2), ∑ o : Q → V,
        let o' := prog ([(p1, e1)] ++ [(p2, e2)] ++ [(pointY cv pp.bullet (simOf cv s) p2, y),
          (pointZ cv pp.bullet 2 (val y) (val z) (val x) (simOf cv s) p2, z),
          (pointX cv pp.bullet 2 C (val y) (val z) (val x) (simOf cv s) p2, x)]) o
        D o' ((simulate cv (hash val v0 o') pp.bullet C (val y) (val z) (val x) (simOf cv s) p2).map fun p => some ⟨refresh, pf1, pf2, p.1⟩)

/-- All answers of `D` to simulated limit proofs: the ciphertext is re-randomised without the secret key, then the proofs are simulated. Only the key, the sum
of the ciphertexts and the bounds are used. -/
noncomputable def simLimit (cv : Curve G) [Fintype (ZMod cv.order)] (pp : PP G) (val : V → ℤ) (v0 : V)
    (D : (Q → V) → Option (Option (Gadget.Proof2 G)) → ℝ) (pk : G) (ct : CT G) (L R : ℤ) : ℝ :=
  ∑ ρ : ZMod cv.order, simLimitAt cv pp val v0 D pk ct L R (ct.add (Twisted.enc pp.enc pk 0 (ofF cv ρ)))

/-- All answers of `D` to the limit proofs `JustifyPolicy` makes. -/
noncomputable def realLimit (cv : Curve G) [Fintype (ZMod cv.order)] (pp : PP G) (val : V → ℤ) (v0 : V)
    (D : (Q → V) → Option (Option (Gadget.Proof2 G)) → ℝ) (env : DecEnv G) (sched : List (Nat × Bool)) (a : Account G) (ctxs : List (ToOne G))
    (L R : ℤ) : ℝ :=
  ∑ o : Q → V, ∑ c0 : ZMod cv.order, ∑ c1 : ZMod cv.order, ∑ c2 : ZMod cv.order × ZMod cv.order, ∑ c3 : Shape cv.order (pp.bullet.rangeLen * 2),
    D o (justifyLimit cv (hash val v0 o) pp env sched a ctxs L R ⟨ofF cv c0, ofF cv c1, ofF cv c2.1, ofF cv c2.2, coinsOf cv c3⟩)

/-- Fresh encryptions of the plaintext of a ciphertext are its re-randomisations. -/
theorem sum_rerandomised (cv : Curve G) [Fintype (ZMod cv.order)] (pp : Twisted.PP G) (hgen : ∀ P : G, ∃ a : ℤ, P = a • pp.g) (sk m : ℤ)
    (hsk : ¬ (cv.order : ℤ) ∣ sk) (ct : CT G) (h : Twisted.Holds cv pp sk ct m) (f : CT G → ℝ) :
    ∑ c : ZMod cv.order, f (Twisted.enc pp (sk • pp.g) m (ofF cv c)) = ∑ ρ : ZMod cv.order, f (ct.add (Twisted.enc pp (sk • pp.g) 0 (ofF cv ρ))) := by
  haveI := cv.fact
  letI := cv.toModule
  unfold Twisted.Holds Twisted.decPoint at h
  obtain ⟨r0, hr0⟩ := hgen (BigInt.modInverse sk cv.order • ct.X)
  have hX : ct.X = r0 • sk • pp.g := by
    rw [smul_comm, ← hr0, smul_comm]
    exact (Twisted.inv_smul_smul cv sk hsk ct.X).symm
  have hY : ct.Y = r0 • pp.g + m • pp.h := by
    rw [hr0] at h
    rw [← h]
    abel
  rw [← Equiv.sum_comp (Equiv.addRight (r0 : ZMod cv.order))]
  refine sum_congr rfl fun ρ _ => congrArg f ?_
  cases ct
  simp only [CT.add, Twisted.enc, msm_two, CT.mk.injEq, Equiv.coe_addRight] at hX hY ⊢
  subst hX hY
  simp only [cv.ofF_smul, cv.cast_smul]
  constructor <;> module

/-- The limit proof with the parts named. -/
theorem justifyLimit_eq (cv : Curve G) (H : Bytes → ℤ) (pp : PP G) (env : DecEnv G) (sched : List (Nat × Bool)) (a : Account G) (ctxs : List (ToOne G))
    (L R : ℤ) (c : LimitCoins) (ct : CT G) (m : ℤ) (hpk : ∀ ctx ∈ ctxs, ctx.pks = a.pk) (hsum : sumLoop ⟨0, 0⟩ ctxs = some ct)
    (hct : Twisted.Holds cv pp.enc a.sk ct m) (hdec : Twisted.dec cv env sched a.sk ct = some m) (hLR : L ≤ R) (hR : R ≤ 2 ^ pp.bullet.rangeLen) :
    justifyLimit cv H pp env sched a ctxs L R c =
      let rf := Twisted.enc pp.enc a.pk m c.rStar
      let p1 := DLOGEquality.prove cv H (Gadget.refreshInstance ⟨pp.enc, pp.bullet⟩ ⟨a.pk, ct⟩ rf) a.sk c.w []
      let p2 := PlaintextKnowledge.prove cv pp.enc H ⟨a.pk, rf⟩ m c.rStar c.a c.b p1.2
      (Bullet.prove cv H pp.bullet 2 [c.rStar, c.rStar] (Gadget.adjustWitness pp.bullet.rangeLen L R m m) c.bullet p2.2).map
        fun p => some ⟨rf, p1.1, p2.1, p.1⟩ := by
  have hany : ctxs.any (fun ctx => decide (a.pk ≠ ctx.pks)) = false := by
    rw [List.any_eq_false]
    intro ctx hc
    simp [hpk ctx hc]
  have hre := Gadget.reEnc_eq_enc cv pp.enc a.pk a.sk m c.rStar ct hct
  unfold justifyLimit Gadget.prove2
  simp only [hany, hsum, hdec, hre, (Gadget.gadget_checkRange L R pp.bullet.rangeLen).2 ⟨hLR, hR⟩, Gadget.adjustInstance, List.length_cons, List.length_nil,
    Nat.zero_add, Nat.reduceAdd, Option.bind_eq_bind, Option.bind_some, Bool.false_eq_true, if_false, Option.pure_def, Bool.true_eq_false]
  cases Bullet.prove cv H pp.bullet 2 [c.rStar, c.rStar] (Gadget.adjustWitness pp.bullet.rangeLen L R m m) c.bullet _ with
  | none => rfl
  | some p => rfl

theorem realLimit_eq_sim (cv : Curve G) [Fintype (ZMod cv.order)] (pp : PP G) (val : V → ℤ) (v0 : V) {W B k : ℕ} {sn : ℤ}
    (hS : Setting cv pp val Q W B k sn) (D : (Q → V) → Option (Option (Gadget.Proof2 G)) → ℝ) (env : DecEnv G) (sched : List (Nat × Bool))
    (a : Account G) (ctxs : List (ToOne G)) (L R : ℤ) (ct : CT G) (m : ℕ) (hkey : a.pk = a.sk • pp.enc.g) (hsk : ¬ (cv.order : ℤ) ∣ a.sk)
    (hpk : ∀ ctx ∈ ctxs, ctx.pks = a.pk) (hsum : sumLoop ⟨0, 0⟩ ctxs = some ct) (hct : Twisted.Holds cv pp.enc a.sk ct m)
    (hdec : Twisted.dec cv env sched a.sk ct = some (m : ℤ)) (h0 : 0 ≤ L) (hR : R ≤ 2 ^ pp.bullet.rangeLen) (hm : L ≤ m ∧ (m : ℤ) < R) :
    (Fintype.card V : ℝ) ^ 5 * realLimit cv pp val v0 D env sched a ctxs L R = simLimit cv pp val v0 D a.pk ct L R := by
  have hL : ∀ b : Bytes, b.length ≤ 15 * W → b ∈ Q := fun b hb => hS.all b (by unfold hashedLen; nlinarith [Nat.zero_le (k * W)])
  unfold realLimit simLimit
  simp only [justifyLimit_eq cv _ pp env sched a ctxs L R _ ct m hpk hsum hct hdec (by omega) hR]
  rw [sum_comm, mul_sum, hkey, ← sum_rerandomised cv pp.enc hS.gen a.sk m hsk ct hct (fun rf => simLimitAt cv pp val v0 D (a.sk • pp.enc.g) ct L R rf)]
  refine sum_congr rfl fun c0 _ => ?_
  set rf := Twisted.enc pp.enc (a.sk • pp.enc.g) m (ofF cv c0) with hrf
  set x := Gadget.refreshInstance ⟨pp.enc, pp.bullet⟩ ⟨a.sk • pp.enc.g, ct⟩ rf with hx
  have hst := Gadget.refresh_statement cv pp.enc a.sk m (ofF cv c0) hsk ct hct
  have s1 := dl_stage cv hS.enc hS.pos val v0 (15 * W) hL (fun o p1 => ∑ c2 : ZMod cv.order × ZMod cv.order, ∑ c3 : Shape cv.order (pp.bullet.rangeLen * 2),
    D o (let p2 := PlaintextKnowledge.prove cv pp.enc (hash val v0 o) ⟨a.sk • pp.enc.g, rf⟩ m (ofF cv c0) (ofF cv c2.1) (ofF cv c2.2) p1.2
      (Bullet.prove cv (hash val v0 o) pp.bullet 2 [ofF cv c0, ofF cv c0] (Gadget.adjustWitness pp.bullet.rangeLen L R m m) (coinsOf cv c3) p2.2).map
        fun p => some ⟨rf, p1.1, p2.1, p.1⟩)) x a.sk rfl hst [] (by simp; omega) [] (by simp)
  rw [show (Fintype.card V : ℝ) ^ 5 = Fintype.card V ^ 3 * (Fintype.card V * Fintype.card V) by ring, mul_assoc, mul_assoc]
  refine (congrArg (fun t => (Fintype.card V : ℝ) ^ 3 * ((Fintype.card V : ℝ) * t)) s1).trans ?_
  unfold simLimitAt
  rw [mul_sum, mul_sum]
  refine sum_congr rfl fun e1 _ => ?_
  rw [mul_sum, mul_sum]
  refine sum_congr rfl fun d _ => ?_
  simp only [List.nil_append, ← hx]
  set pf1 := simDl x (val e1) (ofF cv d) with hpf1
  have l1 := len_dl cv hS.enc x [] pf1
  generalize dlPoint cv x [] pf1 = p1 at l1 ⊢
  simp only [List.length_nil, Nat.zero_add] at l1
  have s2 := kn_stage cv hS.enc hS.pos pp val v0 (15 * W) hL (fun o p2 => ∑ c3 : Shape cv.order (pp.bullet.rangeLen * 2),
    D o ((Bullet.prove cv (hash val v0 o) pp.bullet 2 [ofF cv c0, ofF cv c0] (Gadget.adjustWitness pp.bullet.rangeLen L R m m) (coinsOf cv c3) p2.2).map
        fun p => some ⟨rf, pf1, p2.1, p.1⟩)) ⟨a.sk • pp.enc.g, rf⟩ m (ofF cv c0) rfl p1 (by omega) [(p1, e1)] (by simp)
  refine (congrArg _ s2).trans ?_
  rw [mul_sum]
  refine sum_congr rfl fun e2 _ => ?_
  rw [mul_sum]
  refine sum_congr rfl fun w _ => ?_
  set pf2 := simKn pp.enc ⟨a.sk • pp.enc.g, rf⟩ (val e2) (ofF cv w.1) (ofF cv w.2) with hpf2
  have l2 := len_kn cv hS.enc ⟨a.sk • pp.enc.g, rf⟩ p1 pf2
  generalize knPoint cv ⟨a.sk • pp.enc.g, rf⟩ p1 pf2 = p2 at l2 ⊢
  have hw : Gadget.adjustWitness pp.bullet.rangeLen L R m m = ([(m - L).toNat, (m + (2 ^ pp.bullet.rangeLen - R)).toNat] : List ℕ).map Nat.cast := by
    simp only [Gadget.adjustWitness, List.map_cons, List.map_nil, sub_zero]
    rw [Int.toNat_of_nonneg (by omega), Int.toNat_of_nonneg (by omega)]
  rw [hw]
  exact bullet_stage cv hS.enc hS.pos pp val v0 hS.chal (15 * W) hL (fun o p3 => D o (p3.map fun p => some ⟨rf, pf1, pf2, p.1⟩)) 2 k
    [ofF cv c0, ofF cv c0] [(m - L).toNat, (m + (2 ^ pp.bullet.rangeLen - R)).toNat] (Gadget.adjustInstance pp.bullet L R rf.Y rf.Y) p2 hS.pow hS.small hS.lenG
    hS.lenH rfl rfl (by
      intro b hb
      simp only [List.mem_cons, List.not_mem_nil, or_false] at hb
      zify
      rcases hb with rfl | rfl
      · rw [Int.toNat_of_nonneg (by omega)]; omega
      · rw [Int.toNat_of_nonneg (by omega)]; omega) (by rw [hS.base_g]; exact hS.gen) (by rw [hS.base_h]; exact hS.ne) (by
      simp only [Gadget.adjustInstance, List.zipWith_cons_cons, List.zipWith_nil_right, hrf, Twisted.enc, msm_two, hS.base_g, hS.base_h]
      rw [← natCast_zsmul, ← natCast_zsmul, Int.toNat_of_nonneg (by omega), Int.toNat_of_nonneg (by omega)]
      simp only [List.cons.injEq, and_true]
      constructor <;> module) (by omega) [(p1, e1), (p2, e2)] (by
      intro b hb
      simp only [List.map_cons, List.map_nil, List.mem_cons, List.not_mem_nil, or_false] at hb
      rcases hb with rfl | rfl <;> omega)

end Kunlun.ADCP
