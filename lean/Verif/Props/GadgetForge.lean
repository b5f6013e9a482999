import Verif.Props.NizkForge
import Verif.Props.AdcpPolicy
/-!
C136: who can make range proofs that gadget/range_proof.hpp accepts. Random-oracle model as in C127; the prover chooses everything itself: the transcript before the proof, key,
ciphertext, bounds, and even the scalar that the verifier should draw.
-/

namespace Kunlun.Gadget

open Fork

variable {G : Type} [AddCommGroup G] [DecidableEq G] {Q : Finset Bytes} {S : Finset ℤ}

/-- What the prover ends with: transcript, statement, bounds, the scalar of the verifier, proof. -/
structure Claim (G Proof : Type) where
  tr : Bytes
  x : Instance G
  L : ℤ
  R : ℤ
  s : ℤ
  pf : Proof

/-- `Verify` (type 1) ends and answers true. -/
def Ok1 (cv : Curve G) (H : Bytes → ℤ) (pp : PP G) (c : Claim G (Proof1 G)) : Prop := ∃ t, verify1 cv H pp c.x c.L c.R c.s c.tr c.pf = some (true, t)

/-- `Verify` (type 2) ends and answers true. -/
def Ok2 (cv : Curve G) (H : Bytes → ℤ) (pp : PP G) (c : Claim G (Proof2 G)) : Prop := ∃ t, verify2 cv H pp c.x c.L c.R c.s c.tr c.pf = some (true, t)

/-- The string hashed in the knowledge proof of type 1. -/
def point1 (cv : Curve G) (c : Claim G (Proof1 G)) : Bytes := PlaintextKnowledge.point cv (c.tr, ⟨c.x.pk, c.x.ct⟩, c.pf.ptke)

/-- The string hashed in the refreshing proof of type 2. -/
def point2 (cv : Curve G) (pp : PP G) (c : Claim G (Proof2 G)) : Bytes := DLOGEquality.point cv (c.tr, refreshInstance pp c.x c.pf.refresh, c.pf.dlogeq)

/-- The string hashed in the knowledge proof of type 2. -/
def point2k (cv : Curve G) (pp : PP G) (c : Claim G (Proof2 G)) : Bytes := PlaintextKnowledge.point cv (point2 cv pp c, ⟨c.x.pk, c.pf.refresh⟩, c.pf.ptke)

theorem ok1_parts (cv : Curve G) (H : Bytes → ℤ) (pp : PP G) (c : Claim G (Proof1 G)) (h : Ok1 cv H pp c) :
    (PlaintextKnowledge.verify cv pp.enc H ⟨c.x.pk, c.x.ct⟩ c.tr c.pf.ptke).1 = true := by
  obtain ⟨t, h⟩ := h
  simp only [verify1, Option.bind_eq_bind, Option.bind_eq_some_iff, Option.pure_def, Option.some.injEq, Prod.mk.injEq, Bool.and_eq_true] at h
  obtain ⟨v, -, ⟨h, -⟩, -⟩ := h
  exact h

theorem verify_transcript (cv : Curve G) (H : Bytes → ℤ) (x : DLOGEquality.Instance G) (tr : Bytes) (pf : DLOGEquality.Proof G) :
    (DLOGEquality.verify cv H x tr pf).2 = DLOGEquality.point cv (tr, x, pf) := by
  simp [DLOGEquality.verify, DLOGEquality.point, DLOGEquality.initTranscript]

theorem ok2_parts (cv : Curve G) (H : Bytes → ℤ) (pp : PP G) (c : Claim G (Proof2 G)) (h : Ok2 cv H pp c) :
    (DLOGEquality.verify cv H (refreshInstance pp c.x c.pf.refresh) c.tr c.pf.dlogeq).1 = true ∧
      (PlaintextKnowledge.verify cv pp.enc H ⟨c.x.pk, c.pf.refresh⟩ (point2 cv pp c) c.pf.ptke).1 = true := by
  obtain ⟨t, h⟩ := h
  simp only [verify2, Option.bind_eq_bind, Option.bind_eq_some_iff, Option.pure_def, Option.some.injEq, Prod.mk.injEq, Bool.and_eq_true] at h
  obtain ⟨v, -, ⟨⟨h1, h2⟩, -⟩, -⟩ := h
  rw [verify_transcript] at h2
  exact ⟨h1, h2⟩

theorem kn_extract (cv : Curve G) {W : Nat} (hE : cv.Encodes W) (pp : Twisted.PP G) (H H' : Bytes → ℤ) (r r' : Bytes × PlaintextKnowledge.Instance G × PlaintextKnowledge.Proof G)
    (hp : PlaintextKnowledge.point cv r = PlaintextKnowledge.point cv r') (k1 : (PlaintextKnowledge.verify cv pp H r.2.1 r.1 r.2.2).1 = true)
    (k2 : (PlaintextKnowledge.verify cv pp H' r'.2.1 r'.1 r'.2.2).1 = true)
    (hne : ¬ (cv.order : ℤ) ∣ H (PlaintextKnowledge.point cv r) - H' (PlaintextKnowledge.point cv r)) :
    r.2.1.ct = Twisted.enc pp r.2.1.pk (extract cv r.2.2.z2 r'.2.2.z2 (H (PlaintextKnowledge.point cv r)) (H' (PlaintextKnowledge.point cv r)))
      (extract cv r.2.2.z1 r'.2.2.z1 (H (PlaintextKnowledge.point cv r)) (H' (PlaintextKnowledge.point cv r))) := by
  obtain ⟨tr, ⟨pk, X, Y⟩, ⟨A, B, z1, z2⟩⟩ := r
  obtain ⟨tr', ⟨pk', X', Y'⟩, ⟨A', B', z1', z2'⟩⟩ := r'
  have hp' := hp
  simp only [PlaintextKnowledge.point, List.append_assoc] at hp'
  obtain ⟨rfl, p1⟩ := append_points hp' (by simp [hE.len])
  obtain ⟨rfl, p2⟩ := hE.append p1
  obtain ⟨rfl, p3⟩ := hE.append p2
  obtain ⟨rfl, p4⟩ := hE.append p3
  obtain ⟨rfl, p5⟩ := hE.append p4
  obtain rfl := hE.inj p5
  exact PlaintextKnowledge.plaintextKnowledge_special_sound cv pp H H' ⟨pk, X, Y⟩ tr tr A B z1 z2 z1' z2' k1 k2 hne

theorem dl_extract (cv : Curve G) {W : Nat} (hE : cv.Encodes W) (H H' : Bytes → ℤ) (r r' : Bytes × DLOGEquality.Instance G × DLOGEquality.Proof G)
    (hp : DLOGEquality.point cv r = DLOGEquality.point cv r') (k1 : (DLOGEquality.verify cv H r.2.1 r.1 r.2.2).1 = true)
    (k2 : (DLOGEquality.verify cv H' r'.2.1 r'.1 r'.2.2).1 = true) (hne : ¬ (cv.order : ℤ) ∣ H (DLOGEquality.point cv r) - H' (DLOGEquality.point cv r)) :
    let w := extract cv r.2.2.z r'.2.2.z (H (DLOGEquality.point cv r)) (H' (DLOGEquality.point cv r))
    r.2.1.h1 = w • r.2.1.g1 ∧ r.2.1.h2 = w • r.2.1.g2 := by
  obtain ⟨tr, ⟨g1, h1, g2, h2⟩, ⟨A1, A2, z⟩⟩ := r
  obtain ⟨tr', ⟨g1', h1', g2', h2'⟩, ⟨A1', A2', z'⟩⟩ := r'
  have hp' := hp
  simp only [DLOGEquality.point, List.append_assoc] at hp'
  obtain ⟨rfl, p1⟩ := append_points hp' (by simp [hE.len])
  obtain ⟨rfl, p2⟩ := hE.append p1
  obtain ⟨rfl, p3⟩ := hE.append p2
  obtain ⟨rfl, p4⟩ := hE.append p3
  obtain ⟨rfl, p5⟩ := hE.append p4
  obtain ⟨rfl, p6⟩ := hE.append p5
  obtain rfl := hE.inj p6
  exact DLOGEquality.dlogEquality_special_sound cv H H' ⟨g1, h1, g2, h2⟩ tr tr A1 A2 z z' k1 k2 hne

open Classical in
/-- **C136, type 1.** Whoever makes accepted proofs knows plaintext and randomness of the ciphertext. -/
theorem gadget_type1_knows (cv : Curve G) {W : Nat} (hE : cv.Encodes W) (pp : PP G) (hS : ∀ x ∈ S, ∀ y ∈ S, (cv.order : ℤ) ∣ x - y → x = y) (v0 : S)
    {Ω : Type} [Fintype Ω] [Nonempty Ω] (P : Ω → Adv Q S (Claim G (Proof1 G))) (a : Nat) (hP : ∀ ω, (P ω).Within a) :
    let ε := accepted v0 (point1 cv) (fun H c => decide (Ok1 cv H pp c)) P
    ε * (ε / (a + 1 : ℕ) - 1 / Fintype.card S) ≤ knows v0 (point1 cv) (fun c c' e e' =>
      decide (c.x.ct = Twisted.enc pp.enc c.x.pk (extract cv c.pf.ptke.z2 c'.pf.ptke.z2 e e') (extract cv c.pf.ptke.z1 c'.pf.ptke.z1 e e'))) P := by
  refine extracts _ hS v0 _ _ _ ?_ P a hP
  intro H H' c c' hp h1 h2 hne
  rw [decide_eq_true_eq] at h1 h2 ⊢
  exact kn_extract cv hE pp.enc H H' (c.tr, ⟨c.x.pk, c.x.ct⟩, c.pf.ptke) (c'.tr, ⟨c'.x.pk, c'.x.ct⟩, c'.pf.ptke) hp (ok1_parts cv H pp c h1) (ok1_parts cv H' pp c' h2) hne

open Classical in
/-- **C136, type 2.** Whoever makes accepted proofs knows the secret key: the exponent computed from two runs is the logarithm of the public key. -/
theorem gadget_type2_knows_key (cv : Curve G) {W : Nat} (hE : cv.Encodes W) (pp : PP G) (hS : ∀ x ∈ S, ∀ y ∈ S, (cv.order : ℤ) ∣ x - y → x = y) (v0 : S)
    {Ω : Type} [Fintype Ω] [Nonempty Ω] (P : Ω → Adv Q S (Claim G (Proof2 G))) (a : Nat) (hP : ∀ ω, (P ω).Within a) :
    let ε := accepted v0 (point2 cv pp) (fun H c => decide (Ok2 cv H pp c)) P
    ε * (ε / (a + 1 : ℕ) - 1 / Fintype.card S) ≤
      knows v0 (point2 cv pp) (fun c c' e e' => decide (c.x.pk = extract cv c.pf.dlogeq.z c'.pf.dlogeq.z e e' • pp.enc.g)) P := by
  refine extracts _ hS v0 _ _ _ ?_ P a hP
  intro H H' c c' hp h1 h2 hne
  rw [decide_eq_true_eq] at h1 h2 ⊢
  exact (dl_extract cv hE H H' (c.tr, refreshInstance pp c.x c.pf.refresh, c.pf.dlogeq) (c'.tr, refreshInstance pp c'.x c'.pf.refresh, c'.pf.dlogeq) hp
    (ok2_parts cv H pp c h1).1 (ok2_parts cv H' pp c' h2).1 hne).1

open Classical in
/-- **C136, type 2.** Whoever makes accepted proofs knows plaintext and randomness of the refreshed ciphertext. -/
theorem gadget_type2_knows_plaintext (cv : Curve G) {W : Nat} (hE : cv.Encodes W) (pp : PP G) (hS : ∀ x ∈ S, ∀ y ∈ S, (cv.order : ℤ) ∣ x - y → x = y) (v0 : S)
    {Ω : Type} [Fintype Ω] [Nonempty Ω] (P : Ω → Adv Q S (Claim G (Proof2 G))) (a : Nat) (hP : ∀ ω, (P ω).Within a) :
    let ε := accepted v0 (point2k cv pp) (fun H c => decide (Ok2 cv H pp c)) P
    ε * (ε / (a + 1 : ℕ) - 1 / Fintype.card S) ≤ knows v0 (point2k cv pp) (fun c c' e e' =>
      decide (c.pf.refresh = Twisted.enc pp.enc c.x.pk (extract cv c.pf.ptke.z2 c'.pf.ptke.z2 e e') (extract cv c.pf.ptke.z1 c'.pf.ptke.z1 e e'))) P := by
  refine extracts _ hS v0 _ _ _ ?_ P a hP
  intro H H' c c' hp h1 h2 hne
  rw [decide_eq_true_eq] at h1 h2 ⊢
  exact kn_extract cv hE pp.enc H H' (point2 cv pp c, ⟨c.x.pk, c.pf.refresh⟩, c.pf.ptke) (point2 cv pp c', ⟨c'.x.pk, c'.pf.refresh⟩, c'.pf.ptke) hp
    (ok2_parts cv H pp c h1).2 (ok2_parts cv H' pp c' h2).2 hne

open Classical in
/-- **C136, type 2.** The refreshed ciphertext, about which the range proof speaks, has the plaintext of the one in the statement, except with probability `(a + 1) / |S|`. -/
theorem gadget_type2_same_plaintext (cv : Curve G) {W : Nat} (hE : cv.Encodes W) (pp : PP G) (hS : ∀ x ∈ S, ∀ y ∈ S, (cv.order : ℤ) ∣ x - y → x = y) (v0 : S)
    {Ω : Type} [Fintype Ω] [Nonempty Ω] (P : Ω → Adv Q S (Claim G (Proof2 G))) (a : Nat) (hP : ∀ ω, (P ω).Within a) :
    accepted v0 (point2 cv pp) (fun H c => decide (Ok2 cv H pp c ∧ c.x.pk ≠ 0 ∧
        ¬ ∃ sk : ℤ, c.x.pk = sk • pp.enc.g ∧ ∀ m : ℤ, Twisted.Holds cv pp.enc sk c.pf.refresh m ↔ Twisted.Holds cv pp.enc sk c.x.ct m)) P ≤ (a + 1 : ℕ) / Fintype.card S := by
  refine Fork.sound cv.order hS v0 _ _ ?_ P a hP
  intro H H' c c' hp h1 h2
  rw [decide_eq_true_eq] at h1 h2
  by_contra hne
  obtain ⟨s1, s2⟩ := dl_extract cv hE H H' (c.tr, refreshInstance pp c.x c.pf.refresh, c.pf.dlogeq) (c'.tr, refreshInstance pp c'.x c'.pf.refresh, c'.pf.dlogeq) hp
    (ok2_parts cv H pp c h1.1).1 (ok2_parts cv H' pp c' h2.1).1 hne
  generalize extract cv _ _ _ _ = w at s1 s2
  simp only [refreshInstance] at s1 s2
  have hw := ADCP.key_exponent cv _ _ w h1.2.1 s1
  have hd := same_plaintext cv w hw c.x.ct c.pf.refresh s2
  refine h1.2.2 ⟨w, s1, fun m => ?_⟩
  unfold Twisted.Holds
  rw [hd]

/-! ### Accepted proofs exist -/

/-- The run of Props/Gadget.lean (2 lies in `[1, 3)`) ends with a claim that is accepted. -/
example : ∃ c : Claim (ZMod 7) (Proof1 (ZMod 7)), Ok1 toyCurve Bullet.exHash exPP c ∧ c.x.ct = Twisted.enc exPP.enc 3 2 6 := by
  have h : ((prove1 toyCurve Bullet.exHash exPP ⟨3, Twisted.enc exPP.enc 3 2 6⟩ 1 3 6 2 1 4 ⟨3, [1, 2, 3, 4], [5, 6, 0, 1], 2, 4, 5⟩ []).bind
    fun p => (verify1 toyCurve Bullet.exHash exPP ⟨3, Twisted.enc exPP.enc 3 2 6⟩ 1 3 2 [] p.1).map Prod.fst) = some true := by decide +kernel
  obtain ⟨p, -, h⟩ := Option.bind_eq_some_iff.1 h
  obtain ⟨⟨v, t⟩, h, rfl⟩ := Option.map_eq_some_iff.1 h
  exact ⟨⟨[], _, 1, 3, 2, p.1⟩, ⟨t, h⟩, rfl⟩

/-- The same ciphertext for the key 3, refreshed with randomness 5. -/
example : ∃ c : Claim (ZMod 7) (Proof2 (ZMod 7)), Ok2 toyCurve Bullet.exHash exPP c ∧ c.x.pk ≠ 0 ∧ c.x.ct = Twisted.enc exPP.enc 3 2 6 ∧
    c.pf.refresh = Twisted.enc exPP.enc 3 2 5 := by
  have h : (let x : Instance (ZMod 7) := ⟨3, Twisted.enc exPP.enc 3 2 6⟩
    let rf := Twisted.enc exPP.enc 3 2 5
    let p1 := DLOGEquality.prove toyCurve Bullet.exHash (refreshInstance exPP x rf) 3 4 []
    let p2 := PlaintextKnowledge.prove toyCurve exPP.enc Bullet.exHash ⟨3, rf⟩ 2 5 1 4 p1.2
    (Bullet.prove toyCurve Bullet.exHash exPP.bullet 2 [5, 5] (adjustWitness exPP.bullet.rangeLen 1 3 2 2) ⟨3, [1, 2, 3, 4], [5, 6, 0, 1], 2, 4, 5⟩ p2.2).bind fun p =>
      (verify2 toyCurve Bullet.exHash exPP x 1 3 2 [] ⟨rf, p1.1, p2.1, p.1⟩).map Prod.fst) = some true := by decide +kernel
  obtain ⟨p, -, h⟩ := Option.bind_eq_some_iff.1 h
  obtain ⟨⟨v, t⟩, h, rfl⟩ := Option.map_eq_some_iff.1 h
  exact ⟨⟨[], _, 1, 3, 2, _⟩, ⟨t, h⟩, (by decide : (3 : ZMod 7) ≠ 0), rfl, rfl⟩

end Kunlun.Gadget
