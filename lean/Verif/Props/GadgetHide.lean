import Verif.Model.AdcpAuditSim
import Verif.Props.AdcpHide
/-!
C134: what the proofs of gadget/range_proof.hpp tell besides that the plaintext lies in the interval. With hash values drawn at random, both kinds of proof, together with
the transcript handed back, are distributed exactly as what a simulator makes that is given the public key, the ciphertext, the bounds and the transcript so far.
-/

namespace Kunlun.Gadget

open Finset Bullet Oracle ADCP

variable {G V : Type} [AddCommGroup G] [DecidableEq G] [Fintype V] [DecidableEq V] {Q : Finset Bytes}

/-- What the comparison needs: sizes of the parameters, an oracle for all strings of at most `N` bytes, challenges that are no multiples of the order. -/
structure Setting (cv : Curve G) (pp : PP G) (val : V → ℤ) (Q : Finset Bytes) (W k N : ℕ) : Prop where
  base_g : pp.bullet.g = pp.enc.g
  base_h : pp.bullet.h = pp.enc.h
  pow : pp.bullet.rangeLen * 2 = 2 ^ k
  small : k < 64
  lenG : pp.bullet.rangeLen * 2 ≤ pp.bullet.vecG.length
  lenH : pp.bullet.rangeLen * 2 ≤ pp.bullet.vecH.length
  gen : ∀ P : G, ∃ a : ℤ, P = a • pp.enc.g
  ne : pp.enc.h ≠ 0
  enc : cv.Encodes W
  pos : 0 < W
  chal : ∀ e, ¬ (cv.order : ℤ) ∣ val e
  all : ∀ b : Bytes, b.length ≤ N → b ∈ Q

/-- The values of the hash function and the scalars: `n` single ones and those of the range proof. -/
noncomputable def draws (V : Type) [Fintype V] (Q : Finset Bytes) (cv : Curve G) [Fintype (ZMod cv.order)] (pp : PP G) (n : ℕ) : ℝ :=
  (Fintype.card (Q → V) : ℝ) * ((cv.order : ℝ) ^ n * (Fintype.card (Shape cv.order (pp.bullet.rangeLen * 2)) : ℝ))

/-- The simulated end of both kinds of proof: plaintext knowledge and range proof for a ciphertext, after the transcript `tr`. `l` holds the hash values set so far, `K` goes on
with the hash function, the proofs and the transcript. -/
noncomputable def simEnd (cv : Curve G) [Fintype (ZMod cv.order)] (pp : PP G) (val : V → ℤ) (v0 : V) (pk : G) (ct : CT G) (L R : ℤ) (tr : Bytes) (l : List (Bytes × V))
    (K : (Q → V) → Option (PlaintextKnowledge.Proof G × Bullet.Proof G × Bytes) → ℝ) : ℝ :=
  ∑ e, ∑ w : ZMod cv.order × ZMod cv.order,
    let pf := simKn pp.enc ⟨pk, ct⟩ (val e) (ofF cv w.1) (ofF cv w.2)
    let p := knPoint cv ⟨pk, ct⟩ tr pf
    let C := adjustInstance pp.bullet L R ct.Y ct.Y
    ∑ y, ∑ z, ∑ x, ∑ s : Shape cv.order (pp.bullet.rangeLen * 2), ∑ o : Q → V,
      let o' := prog (l ++ [(p, e)] ++ [(pointY cv pp.bullet (simOf cv s) p, y), (pointZ cv pp.bullet 2 (val y) (val z) (val x) (simOf cv s) p, z),
        (pointX cv pp.bullet 2 C (val y) (val z) (val x) (simOf cv s) p, x)]) o
      K o' ((simulate cv (hash val v0 o') pp.bullet C (val y) (val z) (val x) (simOf cv s) p).map fun q => (pf, q.1, q.2))

theorem end_eq_sim (cv : Curve G) [Fintype (ZMod cv.order)] (pp : PP G) (val : V → ℤ) (v0 : V) {W k N : ℕ} (hS : Setting cv pp val Q W k N) (pk : G) (m : ℕ) (r L R : ℤ)
    (tr : Bytes) (ht : tr.length + 9 * W ≤ N) (l : List (Bytes × V)) (hl : ∀ b ∈ l.map Prod.fst, b.length ≤ tr.length)
    (K : (Q → V) → Option (PlaintextKnowledge.Proof G × Bullet.Proof G × Bytes) → ℝ) (h0 : 0 ≤ L) (hR : R ≤ 2 ^ pp.bullet.rangeLen) (hm : L ≤ m ∧ (m : ℤ) < R) :
    (Fintype.card V : ℝ) ^ 4 * ∑ o : Q → V, ∑ c2 : ZMod cv.order × ZMod cv.order, ∑ c3 : Shape cv.order (pp.bullet.rangeLen * 2),
        K (prog l o) (let p := PlaintextKnowledge.prove cv pp.enc (hash val v0 (prog l o)) ⟨pk, Twisted.enc pp.enc pk m r⟩ m r (ofF cv c2.1) (ofF cv c2.2) tr
          (Bullet.prove cv (hash val v0 (prog l o)) pp.bullet 2 [r, r] (adjustWitness pp.bullet.rangeLen L R m m) (coinsOf cv c3) p.2).map fun q => (p.1, q.1, q.2)) =
      simEnd cv pp val v0 pk (Twisted.enc pp.enc pk m r) L R tr l K := by
  set ct := Twisted.enc pp.enc pk m r with hct
  have s2 := kn_stage cv hS.enc hS.pos ⟨0, 0, 0, pp.bullet, pp.enc, 0⟩ val v0 N hS.all (fun o p => ∑ c3 : Shape cv.order (pp.bullet.rangeLen * 2),
    K o ((Bullet.prove cv (hash val v0 o) pp.bullet 2 [r, r] (adjustWitness pp.bullet.rangeLen L R m m) (coinsOf cv c3) p.2).map fun q => (p.1, q.1, q.2)))
    ⟨pk, ct⟩ m r rfl tr (by omega) l hl
  rw [show (Fintype.card V : ℝ) ^ 4 = Fintype.card V ^ 3 * Fintype.card V by ring, mul_assoc]
  refine (congrArg _ s2).trans ?_
  unfold simEnd
  rw [mul_sum]
  refine sum_congr rfl fun e _ => ?_
  rw [mul_sum]
  refine sum_congr rfl fun w _ => ?_
  simp only
  set pf := simKn pp.enc ⟨pk, ct⟩ (val e) (ofF cv w.1) (ofF cv w.2) with hpf
  have l2 := len_kn cv hS.enc ⟨pk, ct⟩ tr pf
  generalize knPoint cv ⟨pk, ct⟩ tr pf = p at l2 ⊢
  have hw : adjustWitness pp.bullet.rangeLen L R m m = ([(m - L).toNat, (m + (2 ^ pp.bullet.rangeLen - R)).toNat] : List ℕ).map Nat.cast := by
    simp only [adjustWitness, List.map_cons, List.map_nil, sub_zero]
    rw [Int.toNat_of_nonneg (by omega), Int.toNat_of_nonneg (by omega)]
  rw [hw]
  exact bullet_stage cv hS.enc hS.pos ⟨0, 0, 0, pp.bullet, pp.enc, 0⟩ val v0 hS.chal N hS.all (fun o q => K o (q.map fun q => (pf, q.1, q.2))) 2 k
    [r, r] [(m - L).toNat, (m + (2 ^ pp.bullet.rangeLen - R)).toNat] (adjustInstance pp.bullet L R ct.Y ct.Y) p hS.pow hS.small hS.lenG hS.lenH rfl rfl (by
      intro b hb
      simp only [List.mem_cons, List.not_mem_nil, or_false] at hb
      zify
      rcases hb with rfl | rfl
      · rw [Int.toNat_of_nonneg (by omega)]; show _ < (2 : ℤ) ^ pp.bullet.rangeLen; omega
      · rw [Int.toNat_of_nonneg (by omega)]; show _ < (2 : ℤ) ^ pp.bullet.rangeLen; omega) (by
      show ∀ P : G, ∃ a : ℤ, P = a • pp.bullet.g
      rw [hS.base_g]; exact hS.gen) (by
      show pp.bullet.h ≠ 0
      rw [hS.base_h]; exact hS.ne) (by
      simp only [adjustInstance, List.zipWith_cons_cons, List.zipWith_nil_right, hct, Twisted.enc, msm_two, hS.base_g, hS.base_h]
      rw [← natCast_zsmul, ← natCast_zsmul, Int.toNat_of_nonneg (by omega), Int.toNat_of_nonneg (by omega)]
      simp only [List.cons.injEq, and_true]
      constructor <;> module) (by omega) (l ++ [(p, e)]) (by
      intro b hb
      simp only [List.map_append, List.map_cons, List.map_nil, List.mem_append, List.mem_singleton] at hb
      rcases hb with hb | rfl
      · have := hl b hb; omega
      · omega)

/-- The average answer of `D`, that sees the hash function, the proof `Prove` makes with the plaintext and the randomness of the ciphertext, and the new transcript. -/
noncomputable def avg1 (cv : Curve G) [Fintype (ZMod cv.order)] (pp : PP G) (val : V → ℤ) (v0 : V) (D : (Q → V) → Option (Proof1 G × Bytes) → ℝ) (x : Instance G)
    (L R r m : ℤ) (tr : Bytes) : ℝ :=
  (∑ o : Q → V, ∑ c2 : ZMod cv.order × ZMod cv.order, ∑ c3 : Shape cv.order (pp.bullet.rangeLen * 2),
    D o (prove1 cv (hash val v0 o) pp x L R r m (ofF cv c2.1) (ofF cv c2.2) (coinsOf cv c3) tr)) / draws V Q cv pp 2

/-- The average answer of `D` to what the simulator makes of the key, the ciphertext, the bounds and the transcript. -/
noncomputable def simAvg1 (cv : Curve G) [Fintype (ZMod cv.order)] (pp : PP G) (val : V → ℤ) (v0 : V) (D : (Q → V) → Option (Proof1 G × Bytes) → ℝ) (x : Instance G)
    (L R : ℤ) (tr : Bytes) : ℝ :=
  simEnd cv pp val v0 x.pk x.ct L R tr [] (fun o q => D o (q.map fun q => (⟨q.1, q.2.1⟩, q.2.2))) / ((Fintype.card V : ℝ) ^ 4 * draws V Q cv pp 2)

/-- **C134, type 1.** The proof made by somebody who knows plaintext and randomness can be simulated without both. -/
theorem gadget_type1_simulated [Nonempty V] (cv : Curve G) [Fintype (ZMod cv.order)] (pp : PP G) (val : V → ℤ) (v0 : V) {W k N : ℕ} (hS : Setting cv pp val Q W k N)
    (D : (Q → V) → Option (Proof1 G × Bytes) → ℝ) (pk : G) (m : ℕ) (r L R : ℤ) (tr : Bytes) (ht : tr.length + 9 * W ≤ N) (h0 : 0 ≤ L)
    (hR : R ≤ 2 ^ pp.bullet.rangeLen) (hm : L ≤ m ∧ (m : ℤ) < R) :
    avg1 cv pp val v0 D ⟨pk, Twisted.enc pp.enc pk m r⟩ L R r m tr = simAvg1 cv pp val v0 D ⟨pk, Twisted.enc pp.enc pk m r⟩ L R tr := by
  have h := end_eq_sim cv pp val v0 hS pk m r L R tr ht [] (by simp) (fun o q => D o (q.map fun q => (⟨q.1, q.2.1⟩, q.2.2))) h0 hR hm
  have hc : (Fintype.card V : ℝ) ^ 4 ≠ 0 := pow_ne_zero _ (Nat.cast_ne_zero.2 Fintype.card_ne_zero)
  unfold simAvg1 avg1
  rw [← h, mul_div_mul_left _ _ hc]
  congr 1
  refine sum_congr rfl fun o _ => sum_congr rfl fun c2 _ => sum_congr rfl fun c3 _ => congrArg (D o) ?_
  unfold prove1
  simp only [(gadget_checkRange L R pp.bullet.rangeLen).2 ⟨by omega, hR⟩, Bool.true_eq_false, if_false, adjustInstance, List.length_cons, List.length_nil, Nat.zero_add,
    Nat.reduceAdd, Option.map_map]
  simp only [prog]
  cases Bullet.prove cv (hash val v0 o) pp.bullet 2 [r, r] (adjustWitness pp.bullet.rangeLen L R m m) (coinsOf cv c3) _ with
  | none => rfl
  | some p => rfl

/-- The average answer of `D`, that sees the hash function, the proof `Prove` makes with the secret key, and the new transcript. -/
noncomputable def avg2 (cv : Curve G) [Fintype (ZMod cv.order)] (pp : PP G) (val : V → ℤ) (v0 : V) (D : (Q → V) → Option (Proof2 G × Bytes) → ℝ) (env : DecEnv G)
    (sched : List (Nat × Bool)) (x : Instance G) (L R sk : ℤ) (tr : Bytes) : ℝ :=
  (∑ o : Q → V, ∑ c0 : ZMod cv.order, ∑ c1 : ZMod cv.order, ∑ c2 : ZMod cv.order × ZMod cv.order, ∑ c3 : Shape cv.order (pp.bullet.rangeLen * 2),
    D o (prove2 cv (hash val v0 o) pp env sched x L R sk (ofF cv c0) (ofF cv c1) (ofF cv c2.1) (ofF cv c2.2) (coinsOf cv c3) tr)) / draws V Q cv pp 4

/-- What the simulator makes after it has chosen the second ciphertext `rf`. -/
noncomputable def simAt2 (cv : Curve G) [Fintype (ZMod cv.order)] (pp : PP G) (val : V → ℤ) (v0 : V) (D : (Q → V) → Option (Proof2 G × Bytes) → ℝ) (x : Instance G)
    (L R : ℤ) (tr : Bytes) (rf : CT G) : ℝ :=
  ∑ e, ∑ z : ZMod cv.order,
    let pf := simDl (refreshInstance pp x rf) (val e) (ofF cv z)
    let p := dlPoint cv (refreshInstance pp x rf) tr pf
    simEnd cv pp val v0 x.pk rf L R p [(p, e)] (fun o q => D o (q.map fun q => (⟨rf, pf, q.1, q.2.1⟩, q.2.2)))

/-- The average answer of `D` to what the simulator makes: it adds an encryption of 0 to the ciphertext and simulates the three proofs. -/
noncomputable def simAvg2 (cv : Curve G) [Fintype (ZMod cv.order)] (pp : PP G) (val : V → ℤ) (v0 : V) (D : (Q → V) → Option (Proof2 G × Bytes) → ℝ) (x : Instance G)
    (L R : ℤ) (tr : Bytes) : ℝ :=
  (∑ ρ : ZMod cv.order, simAt2 cv pp val v0 D x L R tr (x.ct.add (Twisted.enc pp.enc x.pk 0 (ofF cv ρ)))) /
    ((Fintype.card V : ℝ) ^ 5 * draws V Q cv pp 4)

theorem prove2_eq (cv : Curve G) (H : Bytes → ℤ) (pp : PP G) (env : DecEnv G) (sched : List (Nat × Bool)) (pk : G) (ct : CT G) (L R sk r c1 a b : ℤ) (c3 : Bullet.Coins)
    (tr : Bytes) (m : ℤ) (hct : Twisted.Holds cv pp.enc sk ct m) (hdec : Twisted.dec cv env sched sk ct = some m) (hLR : L ≤ R) (hR : R ≤ 2 ^ pp.bullet.rangeLen) :
    prove2 cv H pp env sched ⟨pk, ct⟩ L R sk r c1 a b c3 tr =
      let rf := Twisted.enc pp.enc pk m r
      let p1 := DLOGEquality.prove cv H (refreshInstance pp ⟨pk, ct⟩ rf) sk c1 tr
      (let p := PlaintextKnowledge.prove cv pp.enc H ⟨pk, rf⟩ m r a b p1.2
       (Bullet.prove cv H pp.bullet 2 [r, r] (adjustWitness pp.bullet.rangeLen L R m m) c3 p.2).map fun q => (p.1, q.1, q.2)).map
        fun q => (⟨rf, p1.1, q.1, q.2.1⟩, q.2.2) := by
  have hre := reEnc_eq_enc cv pp.enc pk sk m r ct hct
  unfold prove2
  simp only [(gadget_checkRange L R pp.bullet.rangeLen).2 ⟨hLR, hR⟩, hre, hdec, Bool.true_eq_false, if_false, adjustInstance, List.length_cons, List.length_nil,
    Nat.zero_add, Nat.reduceAdd, Option.bind_eq_bind, Option.bind_some, Option.pure_def]
  cases Bullet.prove cv H pp.bullet 2 [r, r] (adjustWitness pp.bullet.rangeLen L R m m) c3 _ with
  | none => rfl
  | some p => rfl

theorem at2_eq_sim (cv : Curve G) [Fintype (ZMod cv.order)] (pp : PP G) (val : V → ℤ) (v0 : V) {W k N : ℕ} (hS : Setting cv pp val Q W k N)
    (D : (Q → V) → Option (Proof2 G × Bytes) → ℝ) (pk : G) (sk : ℤ) (ct rf : CT G) (m : ℕ) (r L R : ℤ)
    (tr : Bytes) (ht : tr.length + 15 * W ≤ N) (hrf : rf = Twisted.enc pp.enc pk m r) (h0 : 0 ≤ L) (hR : R ≤ 2 ^ pp.bullet.rangeLen) (hm : L ≤ m ∧ (m : ℤ) < R)
    (x : DLOGEquality.Instance G) (hx : x = refreshInstance pp ⟨pk, ct⟩ rf) (hst : x.h1 = sk • x.g1 ∧ x.h2 = sk • x.g2) :
    (Fintype.card V : ℝ) ^ 5 * ∑ o : Q → V, ∑ c1 : ZMod cv.order, ∑ c2 : ZMod cv.order × ZMod cv.order, ∑ c3 : Shape cv.order (pp.bullet.rangeLen * 2),
      D o (let p1 := DLOGEquality.prove cv (hash val v0 o) x sk (ofF cv c1) tr
        (let p := PlaintextKnowledge.prove cv pp.enc (hash val v0 o) ⟨pk, rf⟩ m r (ofF cv c2.1) (ofF cv c2.2) p1.2
         (Bullet.prove cv (hash val v0 o) pp.bullet 2 [r, r] (adjustWitness pp.bullet.rangeLen L R m m) (coinsOf cv c3) p.2).map fun q => (p.1, q.1, q.2)).map
        fun q => (⟨rf, p1.1, q.1, q.2.1⟩, q.2.2)) =
      simAt2 cv pp val v0 D ⟨pk, ct⟩ L R tr rf := by
  have s1 := dl_stage cv hS.enc hS.pos val v0 N hS.all (fun o p1 => ∑ c2 : ZMod cv.order × ZMod cv.order, ∑ c3 : Shape cv.order (pp.bullet.rangeLen * 2),
    D o ((let p := PlaintextKnowledge.prove cv pp.enc (hash val v0 o) ⟨pk, rf⟩ m r (ofF cv c2.1) (ofF cv c2.2) p1.2
      (Bullet.prove cv (hash val v0 o) pp.bullet 2 [r, r] (adjustWitness pp.bullet.rangeLen L R m m) (coinsOf cv c3) p.2).map
        fun q => (p.1, q.1, q.2)).map fun q => (⟨rf, p1.1, q.1, q.2.1⟩, q.2.2))) x sk hst.1 hst.2 tr (by omega) [] (by simp)
  rw [show (Fintype.card V : ℝ) ^ 5 = Fintype.card V ^ 4 * Fintype.card V by ring, mul_assoc]
  refine (congrArg (fun t => (Fintype.card V : ℝ) ^ 4 * t) s1).trans ?_
  unfold simAt2
  rw [mul_sum]
  refine sum_congr rfl fun e _ => ?_
  rw [mul_sum]
  refine sum_congr rfl fun z _ => ?_
  simp only [List.nil_append, ← hx]
  set pf := simDl x (val e) (ofF cv z) with hpf
  have l1 := len_dl cv hS.enc x tr pf
  generalize dlPoint cv x tr pf = p at l1 ⊢
  have h := end_eq_sim cv pp val v0 hS pk m r L R p (by omega) [(p, e)] (by simp) (fun o q => D o (q.map fun q => (⟨rf, pf, q.1, q.2.1⟩, q.2.2))) h0 hR hm
  rw [← hrf] at h
  exact h

/-- **C134, type 2.** The proof made with the secret key can be simulated without the key and without the plaintext. -/
theorem gadget_type2_simulated [Nonempty V] (cv : Curve G) [Fintype (ZMod cv.order)] (pp : PP G) (val : V → ℤ) (v0 : V) {W k N : ℕ} (hS : Setting cv pp val Q W k N)
    (D : (Q → V) → Option (Proof2 G × Bytes) → ℝ) (env : DecEnv G) (sched : List (Nat × Bool)) (sk : ℤ) (hsk : ¬ (cv.order : ℤ) ∣ sk) (ct : CT G) (m : ℕ) (L R : ℤ)
    (tr : Bytes) (ht : tr.length + 15 * W ≤ N) (hct : Twisted.Holds cv pp.enc sk ct m) (hready : Ready cv env pp.enc.h sched m) (hmn : m < 2 ^ env.msgLen) (h0 : 0 ≤ L)
    (hR : R ≤ 2 ^ pp.bullet.rangeLen) (hm : L ≤ m ∧ (m : ℤ) < R) :
    avg2 cv pp val v0 D env sched ⟨Twisted.keyGen pp.enc sk, ct⟩ L R sk tr = simAvg2 cv pp val v0 D ⟨Twisted.keyGen pp.enc sk, ct⟩ L R tr := by
  have hdec : Twisted.dec cv env sched sk ct = some (m : ℤ) := search_finds cv env pp.enc.h sched m hready hmn _ hct
  have hc : (Fintype.card V : ℝ) ^ 5 ≠ 0 := pow_ne_zero _ (Nat.cast_ne_zero.2 Fintype.card_ne_zero)
  have hk : Twisted.keyGen pp.enc sk = sk • pp.enc.g := rfl
  rw [hk]
  unfold simAvg2 avg2
  simp only [prove2_eq cv _ pp env sched (sk • pp.enc.g) ct L R sk _ _ _ _ _ tr m hct hdec (by omega) hR]
  rw [← sum_rerandomised cv pp.enc hS.gen sk m hsk ct hct (fun rf => simAt2 cv pp val v0 D ⟨sk • pp.enc.g, ct⟩ L R tr rf),
    sum_congr rfl fun c0 _ => (at2_eq_sim cv pp val v0 hS D (sk • pp.enc.g) sk ct _ m (ofF cv c0) L R tr ht rfl h0 hR hm _ rfl
      ⟨rfl, refresh_statement cv pp.enc sk m (ofF cv c0) hsk ct hct⟩).symm, ← mul_sum, mul_div_mul_left _ _ hc, sum_comm]

/-! ### The hypotheses can be met -/

/-- 8-bit ranges, the challenges 3 and 5, a transcript of seven bytes. -/
theorem exSetting : ∃ Q : Finset Bytes, Setting Dlog.exCurve ⟨ADCP.exPP.enc, ADCP.exPP.bullet⟩ (fun b : Bool => if b then 3 else 5) Q 2 4 37 := by
  obtain ⟨Q, h⟩ := ADCP.exSetting
  exact ⟨Q, h.base_g, h.base_h, h.pow, h.small, h.lenG, h.lenH, h.gen, h.ne, h.enc, h.pos, h.chal, fun b hb => h.all b (by unfold hashedLen; omega)⟩

/-- 42 lies in `[10, 100)`. -/
example : ∃ Q : Finset Bytes, ∀ [Fintype (ZMod Dlog.exCurve.order)] (D : (Q → Bool) → Option (Proof1 (ZMod 8209) × Bytes) → ℝ),
    avg1 Dlog.exCurve ⟨ADCP.exPP.enc, ADCP.exPP.bullet⟩ (fun b : Bool => if b then 3 else 5) true D ⟨55, Twisted.enc ADCP.exPP.enc 55 42 6⟩ 10 100 6 42 [1, 2, 3, 4, 5, 6, 7] =
      simAvg1 Dlog.exCurve ⟨ADCP.exPP.enc, ADCP.exPP.bullet⟩ (fun b : Bool => if b then 3 else 5) true D ⟨55, Twisted.enc ADCP.exPP.enc 55 42 6⟩ 10 100 [1, 2, 3, 4, 5, 6, 7] := by
  obtain ⟨Q, hS⟩ := exSetting
  exact ⟨Q, fun D => gadget_type1_simulated Dlog.exCurve _ _ true hS D 55 42 6 10 100 _ (by decide) (by decide) (by decide) (by decide)⟩

/-- The same with the secret key 11. -/
example : ∃ Q : Finset Bytes, ∀ [Fintype (ZMod Dlog.exCurve.order)] (D : (Q → Bool) → Option (Proof2 (ZMod 8209) × Bytes) → ℝ),
    avg2 Dlog.exCurve ⟨ADCP.exPP.enc, ADCP.exPP.bullet⟩ (fun b : Bool => if b then 3 else 5) true D exEnv exSched
        ⟨Twisted.keyGen ADCP.exPP.enc 11, Twisted.enc ADCP.exPP.enc (Twisted.keyGen ADCP.exPP.enc 11) 42 6⟩ 10 100 11 [1, 2, 3, 4, 5, 6, 7] =
      simAvg2 Dlog.exCurve ⟨ADCP.exPP.enc, ADCP.exPP.bullet⟩ (fun b : Bool => if b then 3 else 5) true D
        ⟨Twisted.keyGen ADCP.exPP.enc 11, Twisted.enc ADCP.exPP.enc (Twisted.keyGen ADCP.exPP.enc 11) 42 6⟩ 10 100 [1, 2, 3, 4, 5, 6, 7] := by
  obtain ⟨Q, hS⟩ := exSetting
  exact ⟨Q, fun D => gadget_type2_simulated Dlog.exCurve _ _ true hS D exEnv exSched 11 (by decide) _ 42 10 100 _ (by decide)
    (Twisted.twisted_enc_holds Dlog.exCurve ADCP.exPP.enc 11 42 6 (by decide)) (exReady 42) (by decide) (by decide) (by decide) (by decide)⟩

end Kunlun.Gadget
