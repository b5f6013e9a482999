import Verif.Props.SchnorrForge
/-!
C128: whoever makes proofs that the verifiers of `zkp/nizk/` accept knows a witness. Random-oracle model as in C127; the prover is any program that asks for
hash values and ends with a transcript, a statement and a proof of its choice.
-/

namespace Kunlun.Fork

open Oracle
open Schnorr (hash ind ind_nonneg put_update)

variable {Q : Finset Bytes} {S : Finset ℤ} {R : Type}

/-- The program that asks for the value of its last string before it ends (proof device). -/
def close (point : R → Bytes) : Adv Q S R → Adv Q S R
  | .done r => if h : point r ∈ Q then .ask ⟨_, h⟩ fun _ => .done r else .done r
  | .ask x k => .ask x fun v => close point (k v)

theorem close_run (point : R → Bytes) (P : Adv Q S R) (o : Q → S) : (close point P).run o = P.run o := by
  induction P with
  | done r => rw [close]; split <;> rfl
  | ask x k ih => exact ih (o x)

theorem close_within (point : R → Bytes) (P : Adv Q S R) (n : Nat) (h : P.Within n) : (close point P).Within (n + 1) := by
  induction P generalizing n with
  | done r => rw [close]; split <;> [exact fun _ => trivial; trivial]
  | ask x k ih =>
    cases n with
    | zero => exact h.elim
    | succ n => exact fun v => ih v n (h v)

theorem close_asked (point : R → Bytes) (P : Adv Q S R) (o : Q → S) (h : point (P.run o) ∈ Q) : (⟨_, h⟩ : Q) ∈ (close point P).queries o := by
  induction P with
  | done r =>
    have h' : point r ∈ Q := h
    rw [close, dif_pos h']
    simp [Adv.queries, Adv.run]
  | ask x k ih => exact List.mem_cons_of_mem _ (ih (o x) h)

/-- How often the result is accepted, over all random choices `ω` of the program and hash functions; `point` is the string of its proof. -/
noncomputable def acceptedOn (v0 : S) (point : (Bytes → ℤ) → R → Bytes) {Ω : Type} [Fintype Ω] (acc : Ω → (Bytes → ℤ) → R → Bool) (P : Ω → Adv Q S R) : ℝ :=
  avg fun ω => avg fun o : Q → S => ind (decide (point (hash v0 o) ((P ω).run o) ∈ Q) && acc ω (hash v0 o) ((P ω).run o))

/-- How often a witness is found by running the program, changing the value at the string of its proof to `c`, and running it again; `wit` says whether what is computed from
both results and both challenges is a witness for the first result's statement. -/
noncomputable def knowsOn (v0 : S) (point : (Bytes → ℤ) → R → Bytes) {Ω : Type} [Fintype Ω] (wit : Ω → R → R → ℤ → ℤ → Bool) (P : Ω → Adv Q S R) : ℝ :=
  avg fun ω => avg fun o : Q → S => avg fun c : S =>
    ind (wit ω ((P ω).run o) ((P ω).run (put o (point (hash v0 o) ((P ω).run o)) c)) (hash v0 o (point (hash v0 o) ((P ω).run o))) c)

/-- `acceptedOn` for strings that the result alone determines. -/
noncomputable def accepted (v0 : S) (point : R → Bytes) (acc : (Bytes → ℤ) → R → Bool) {Ω : Type} [Fintype Ω] (P : Ω → Adv Q S R) : ℝ :=
  avg fun ω => avg fun o : Q → S => ind (decide (point ((P ω).run o) ∈ Q) && acc (hash v0 o) ((P ω).run o))

/-- `knowsOn` for strings that the result alone determines. -/
noncomputable def knows (v0 : S) (point : R → Bytes) (wit : R → R → ℤ → ℤ → Bool) {Ω : Type} [Fintype Ω] (P : Ω → Adv Q S R) : ℝ :=
  avg fun ω => avg fun o : Q → S => avg fun c : S =>
    ind (wit ((P ω).run o) ((P ω).run (put o (point ((P ω).run o)) c)) (hash v0 o (point ((P ω).run o))) c)

/-- If two accepted results with one string and different challenges give a witness, the program knows one. `P'` is the program that also asks for the string. -/
theorem extractsOn (q : ℤ) (hS : ∀ x ∈ S, ∀ y ∈ S, q ∣ x - y → x = y) (v0 : S) (point : (Bytes → ℤ) → R → Bytes) {Ω : Type} [Fintype Ω] [Nonempty Ω]
    (acc : Ω → (Bytes → ℤ) → R → Bool) (wit : Ω → R → R → ℤ → ℤ → Bool)
    (sound : ∀ ω H H' r r', point H r = point H' r' → acc ω H r = true → acc ω H' r' = true → ¬ q ∣ H (point H r) - H' (point H r) →
      wit ω r r' (H (point H r)) (H' (point H r)) = true)
    (P P' : Ω → Adv Q S R) (b : Nat) (hb : 0 < b) (hP : ∀ ω, (P' ω).Within b)
    (hq : ∀ ω o (h : point (hash v0 o) ((P ω).run o) ∈ Q), (⟨_, h⟩ : Q) ∈ (P' ω).queries o) :
    acceptedOn v0 point acc P * (acceptedOn v0 point acc P / b - 1 / Fintype.card S) ≤ knowsOn v0 point wit P := by
  haveI : Nonempty S := ⟨v0⟩
  let F : Ω → (Q → S) → Option Q := fun ω o =>
    if h : point (hash v0 o) ((P ω).run o) ∈ Q ∧ acc ω (hash v0 o) ((P ω).run o) = true then some ⟨_, h.1⟩ else none
  have hF : ∀ ω o x, F ω o = some x → x.1 = point (hash v0 o) ((P ω).run o) ∧ acc ω (hash v0 o) ((P ω).run o) = true := by
    intro ω o x h
    simp only [F] at h
    split at h
    · next h1 => rw [Option.some.injEq] at h; exact ⟨by rw [← h], h1.2⟩
    · cases h
  let B : Ω → ℝ := fun ω => avg fun o => if (F ω o).isSome then (1 : ℝ) else 0
  have hB : acceptedOn v0 point acc P = avg B := by
    refine congrArg avg (funext fun ω => congrArg avg (funext fun o => ?_))
    have e : (decide (point (hash v0 o) ((P ω).run o) ∈ Q) && acc ω (hash v0 o) ((P ω).run o)) = (F ω o).isSome := by
      simp only [F]
      by_cases h : point (hash v0 o) ((P ω).run o) ∈ Q ∧ acc ω (hash v0 o) ((P ω).run o) = true
      · rw [dif_pos h]; simp [h.1, h.2]
      · rw [dif_neg h]
        simp only [Option.isSome_none, Bool.and_eq_false_iff, decide_eq_false_iff_not, Bool.not_eq_true] at h ⊢
        by_cases h1 : point (hash v0 o) ((P ω).run o) ∈ Q
        · right
          simpa using fun h2 => h ⟨h1, h2⟩
        · exact .inl h1
    rw [e]
    rfl
  have one : ∀ ω, B ω ^ 2 / b - B ω / Fintype.card S ≤ avg fun o : Q → S => avg fun c : S =>
      ind (wit ω ((P ω).run o) ((P ω).run (put o (point (hash v0 o) ((P ω).run o)) c)) (hash v0 o (point (hash v0 o) ((P ω).run o))) c) := by
    intro ω
    refine (forking (P' ω) b hb (hP ω) (F ω) fun o x h => ?_).trans
      (isAvg_avg.mono _ _ fun o => isAvg_avg.mono _ _ fun c => ?_)
    · obtain ⟨h1, -⟩ := hF ω o x h
      have hm : point (hash v0 o) ((P ω).run o) ∈ Q := h1 ▸ x.2
      have : x = ⟨_, hm⟩ := Subtype.ext h1
      rw [this]
      exact hq ω o hm
    · unfold twice
      split
      · next h =>
        obtain ⟨x, h1, h2, hne⟩ := h
        obtain ⟨p1, a1⟩ := hF ω o x h1
        obtain ⟨p2, a2⟩ := hF ω _ x h2
        have hput : put o (point (hash v0 o) ((P ω).run o)) c = Function.update o x c := by rw [← p1, put_update]
        have c1 : hash v0 o (point (hash v0 o) ((P ω).run o)) = (o x : ℤ) := by rw [← p1]; simp [Schnorr.hash, ext, x.2]
        have c2 : hash v0 (Function.update o x c) (point (hash v0 o) ((P ω).run o)) = (c : ℤ) := by rw [← p1]; simp [Schnorr.hash, ext, x.2]
        have := sound ω (hash v0 o) (hash v0 (Function.update o x c)) _ _ (p1.symm.trans p2) a1 a2
          (by rw [c1, c2]; exact fun hd => hne (Subtype.ext (hS _ (o x).2 _ c.2 hd).symm))
        rw [c2] at this
        rw [hput, this]
        simp [ind]
      · exact ind_nonneg _
  have h3 := isAvg_avg.mono _ _ one
  have hA : IsAvg (avg (α := Ω)) := isAvg_avg
  have e : (fun ω => B ω ^ 2 / (b : ℝ) - B ω / Fintype.card S) =
      fun ω => ((b : ℝ)⁻¹ * B ω ^ 2) + (-(Fintype.card S : ℝ)⁻¹) * B ω := by funext i; ring
  rw [e, hA.add, hA.smul, hA.smul] at h3
  have h4 := mul_le_mul_of_nonneg_left (hA.sq_le B) (show (0 : ℝ) ≤ (b : ℝ)⁻¹ by positivity)
  rw [hB]
  refine le_trans ?_ h3
  have e2 : avg B * (avg B / (b : ℝ) - 1 / Fintype.card S) = (b : ℝ)⁻¹ * avg B ^ 2 + -(Fintype.card S : ℝ)⁻¹ * avg B := by ring
  rw [e2]
  linarith

/-- If two accepted results with one string and different challenges give a witness, the program knows one. -/
theorem extracts (q : ℤ) (hS : ∀ x ∈ S, ∀ y ∈ S, q ∣ x - y → x = y) (v0 : S) (point : R → Bytes) (acc : (Bytes → ℤ) → R → Bool) (wit : R → R → ℤ → ℤ → Bool)
    (sound : ∀ H H' r r', point r = point r' → acc H r = true → acc H' r' = true → ¬ q ∣ H (point r) - H' (point r) → wit r r' (H (point r)) (H' (point r)) = true)
    {Ω : Type} [Fintype Ω] [Nonempty Ω] (P : Ω → Adv Q S R) (a : Nat) (hP : ∀ ω, (P ω).Within a) :
    accepted v0 point acc P * (accepted v0 point acc P / (a + 1 : ℕ) - 1 / Fintype.card S) ≤ knows v0 point wit P :=
  extractsOn q hS v0 (fun _ => point) (fun _ => acc) (fun _ => wit) (fun _ => sound) P (fun ω => close point (P ω)) (a + 1) (by omega)
    (fun ω => close_within point _ a (hP ω)) (fun ω o h => close_asked point (P ω) o h)

theorem acceptedOn_nonneg (v0 : S) (point : (Bytes → ℤ) → R → Bytes) {Ω : Type} [Fintype Ω] (acc : Ω → (Bytes → ℤ) → R → Bool) (P : Ω → Adv Q S R) :
    0 ≤ acceptedOn v0 point acc P := by
  unfold acceptedOn avg
  exact div_nonneg (Finset.sum_nonneg fun _ _ => div_nonneg (Finset.sum_nonneg fun _ _ => ind_nonneg _) (Nat.cast_nonneg _)) (Nat.cast_nonneg _)

/-- If no string has two accepted results with different challenges, at most `b` of the challenges help. -/
theorem soundOn (q : ℤ) (hS : ∀ x ∈ S, ∀ y ∈ S, q ∣ x - y → x = y) (v0 : S) (point : (Bytes → ℤ) → R → Bytes) {Ω : Type} [Fintype Ω] [Nonempty Ω]
    (acc : Ω → (Bytes → ℤ) → R → Bool)
    (one : ∀ ω H H' r r', point H r = point H' r' → acc ω H r = true → acc ω H' r' = true → q ∣ H (point H r) - H' (point H r))
    (P P' : Ω → Adv Q S R) (b : Nat) (hb : 0 < b) (hP : ∀ ω, (P' ω).Within b)
    (hq : ∀ ω o (h : point (hash v0 o) ((P ω).run o) ∈ Q), (⟨_, h⟩ : Q) ∈ (P' ω).queries o) :
    acceptedOn v0 point acc P ≤ b / Fintype.card S := by
  have h := extractsOn q hS v0 point acc (fun _ _ _ _ _ => false) (fun ω H H' r r' h1 h2 h3 h4 => absurd (one ω H H' r r' h1 h2 h3) h4) P P' b hb hP hq
  have hz : knowsOn v0 point (fun _ _ _ _ _ => false) P = 0 := by unfold knowsOn avg ind; simp
  rw [hz] at h
  have h0 := acceptedOn_nonneg v0 point acc P
  haveI : Nonempty S := ⟨v0⟩
  have hN : (0 : ℝ) < Fintype.card S := by exact_mod_cast Fintype.card_pos
  have ha : (0 : ℝ) < b := by exact_mod_cast hb
  generalize acceptedOn v0 point acc P = ε at *
  by_contra hc
  push Not at hc
  rw [div_lt_iff₀ hN] at hc
  have : 0 < ε / b - 1 / Fintype.card S := by
    rw [sub_pos, div_lt_div_iff₀ hN ha, one_mul]
    exact hc
  have h1 : 0 < ε := by
    rcases h0.lt_or_eq with h1 | h1
    · exact h1
    · rw [← h1, zero_mul] at hc; linarith
  have := mul_pos h1 this
  linarith

/-- If no string has two accepted results with different challenges, at most `a + 1` of the challenges help. -/
theorem sound (q : ℤ) (hS : ∀ x ∈ S, ∀ y ∈ S, q ∣ x - y → x = y) (v0 : S) (point : R → Bytes) (acc : (Bytes → ℤ) → R → Bool)
    (one : ∀ H H' r r', point r = point r' → acc H r = true → acc H' r' = true → q ∣ H (point r) - H' (point r))
    {Ω : Type} [Fintype Ω] [Nonempty Ω] (P : Ω → Adv Q S R) (a : Nat) (hP : ∀ ω, (P ω).Within a) :
    accepted v0 point acc P ≤ (a + 1 : ℕ) / Fintype.card S :=
  soundOn q hS v0 (fun _ => point) (fun _ => acc) (fun _ => one) P (fun ω => close point (P ω)) (a + 1) (by omega)
    (fun ω => close_within point _ a (hP ω)) (fun ω o h => close_asked point (P ω) o h)

end Kunlun.Fork

namespace Kunlun

open Fork

variable {G : Type} [AddCommGroup G] [DecidableEq G] {Q : Finset Bytes} {S : Finset ℤ}

theorem append_points {s t a b : Bytes} (h : s ++ a = t ++ b) (hl : a.length = b.length) : s = t ∧ a = b :=
  List.append_inj' h hl

namespace DLOGKnowledge

/-- The string hashed for a proof. -/
def point (cv : Curve G) (r : Bytes × Instance G × Proof G) : Bytes := r.1 ++ (cv.toBytes r.2.1.g ++ cv.toBytes r.2.1.h) ++ cv.toBytes r.2.2.A

/-- **C128** Discrete logarithms. -/
theorem dlogKnowledge_extracts (cv : Curve G) {W : Nat} (hE : cv.Encodes W) (hS : ∀ x ∈ S, ∀ y ∈ S, (cv.order : ℤ) ∣ x - y → x = y) (v0 : S)
    {Ω : Type} [Fintype Ω] [Nonempty Ω] (P : Ω → Adv Q S (Bytes × Instance G × Proof G)) (a : Nat) (hP : ∀ ω, (P ω).Within a) :
    let ε := accepted v0 (point cv) (fun H r => (verify cv H r.2.1 r.1 r.2.2).1) P
    ε * (ε / (a + 1 : ℕ) - 1 / Fintype.card S) ≤ knows v0 (point cv) (fun r r' e e' => decide (r.2.1.h = extract cv r.2.2.z r'.2.2.z e e' • r.2.1.g)) P := by
  refine extracts _ hS v0 _ _ _ ?_ P a hP
  rintro H H' ⟨tr, ⟨g, h⟩, ⟨A, z⟩⟩ ⟨tr', ⟨g', h'⟩, ⟨A', z'⟩⟩ hp h1 h2 hne
  simp only [point] at hp
  obtain ⟨p1, e1⟩ := append_points hp (by simp [hE.len])
  obtain ⟨rfl, p2⟩ := append_points p1 (by simp [hE.len])
  obtain ⟨rfl, p3⟩ := hE.append p2
  obtain rfl := hE.inj p3
  obtain rfl := hE.inj e1
  simp only [decide_eq_true_eq]
  exact dlogKnowledge_special_sound cv H H' ⟨g, h⟩ tr tr A z z' h1 h2 hne

end DLOGKnowledge

namespace DLOGEquality

/-- The string hashed for a proof. -/
def point (cv : Curve G) (r : Bytes × Instance G × Proof G) : Bytes :=
  r.1 ++ (cv.toBytes r.2.1.g1 ++ cv.toBytes r.2.1.g2 ++ cv.toBytes r.2.1.h1 ++ cv.toBytes r.2.1.h2) ++ (cv.toBytes r.2.2.A1 ++ cv.toBytes r.2.2.A2)

/-- **C128** Equal discrete logarithms. -/
theorem dlogEquality_extracts (cv : Curve G) {W : Nat} (hE : cv.Encodes W) (hS : ∀ x ∈ S, ∀ y ∈ S, (cv.order : ℤ) ∣ x - y → x = y) (v0 : S)
    {Ω : Type} [Fintype Ω] [Nonempty Ω] (P : Ω → Adv Q S (Bytes × Instance G × Proof G)) (a : Nat) (hP : ∀ ω, (P ω).Within a) :
    let ε := accepted v0 (point cv) (fun H r => (verify cv H r.2.1 r.1 r.2.2).1) P
    ε * (ε / (a + 1 : ℕ) - 1 / Fintype.card S) ≤ knows v0 (point cv) (fun r r' e e' =>
      decide (r.2.1.h1 = extract cv r.2.2.z r'.2.2.z e e' • r.2.1.g1 ∧ r.2.1.h2 = extract cv r.2.2.z r'.2.2.z e e' • r.2.1.g2)) P := by
  refine extracts _ hS v0 _ _ _ ?_ P a hP
  rintro H H' ⟨tr, ⟨g1, h1, g2, h2⟩, ⟨A1, A2, z⟩⟩ ⟨tr', ⟨g1', h1', g2', h2'⟩, ⟨A1', A2', z'⟩⟩ hp k1 k2 hne
  simp only [point, List.append_assoc] at hp
  obtain ⟨rfl, p1⟩ := append_points hp (by simp [hE.len])
  obtain ⟨rfl, p2⟩ := hE.append p1
  obtain ⟨rfl, p3⟩ := hE.append p2
  obtain ⟨rfl, p4⟩ := hE.append p3
  obtain ⟨rfl, p5⟩ := hE.append p4
  obtain ⟨rfl, p6⟩ := hE.append p5
  obtain rfl := hE.inj p6
  simp only [decide_eq_true_eq]
  exact dlogEquality_special_sound cv H H' ⟨g1, h1, g2, h2⟩ tr tr A1 A2 z z' k1 k2 hne

open Classical in
/-- **C128** A false statement is proved with probability at most `(a + 1) / |S|`. -/
theorem dlogEquality_sound (cv : Curve G) {W : Nat} (hE : cv.Encodes W) (hS : ∀ x ∈ S, ∀ y ∈ S, (cv.order : ℤ) ∣ x - y → x = y) (v0 : S)
    {Ω : Type} [Fintype Ω] [Nonempty Ω] (P : Ω → Adv Q S (Bytes × Instance G × Proof G)) (a : Nat) (hP : ∀ ω, (P ω).Within a) :
    accepted v0 (point cv) (fun H r => (verify cv H r.2.1 r.1 r.2.2).1 && decide (¬ ∃ w : ℤ, r.2.1.h1 = w • r.2.1.g1 ∧ r.2.1.h2 = w • r.2.1.g2)) P ≤
      (a + 1 : ℕ) / Fintype.card S := by
  refine Fork.sound cv.order hS v0 _ _ ?_ P a hP
  rintro H H' ⟨tr, ⟨g1, h1, g2, h2⟩, ⟨A1, A2, z⟩⟩ ⟨tr', ⟨g1', h1', g2', h2'⟩, ⟨A1', A2', z'⟩⟩ hp k1 k2
  rw [Bool.and_eq_true, decide_eq_true_eq] at k1 k2
  simp only [point, List.append_assoc] at hp
  obtain ⟨rfl, p1⟩ := append_points hp (by simp [hE.len])
  obtain ⟨rfl, p2⟩ := hE.append p1
  obtain ⟨rfl, p3⟩ := hE.append p2
  obtain ⟨rfl, p4⟩ := hE.append p3
  obtain ⟨rfl, p5⟩ := hE.append p4
  obtain ⟨rfl, p6⟩ := hE.append p5
  obtain rfl := hE.inj p6
  by_contra hne
  exact k1.2 ⟨_, dlogEquality_special_sound cv H H' ⟨g1, h1, g2, h2⟩ tr tr A1 A2 z z' k1.1 k2.1 hne⟩

end DLOGEquality

namespace PlaintextKnowledge

/-- The string hashed for a proof. -/
def point (cv : Curve G) (r : Bytes × Instance G × Proof G) : Bytes :=
  r.1 ++ (cv.toBytes r.2.1.pk ++ cv.toBytes r.2.1.ct.X ++ cv.toBytes r.2.1.ct.Y) ++ (cv.toBytes r.2.2.A ++ cv.toBytes r.2.2.B)

/-- **C128** Plaintext and randomness of a twisted ElGamal ciphertext. -/
theorem plaintextKnowledge_extracts (cv : Curve G) {W : Nat} (hE : cv.Encodes W) (pp : Twisted.PP G) (hS : ∀ x ∈ S, ∀ y ∈ S, (cv.order : ℤ) ∣ x - y → x = y) (v0 : S)
    {Ω : Type} [Fintype Ω] [Nonempty Ω] (P : Ω → Adv Q S (Bytes × Instance G × Proof G)) (a : Nat) (hP : ∀ ω, (P ω).Within a) :
    let ε := accepted v0 (point cv) (fun H r => (verify cv pp H r.2.1 r.1 r.2.2).1) P
    ε * (ε / (a + 1 : ℕ) - 1 / Fintype.card S) ≤ knows v0 (point cv) (fun r r' e e' =>
      decide (r.2.1.ct = Twisted.enc pp r.2.1.pk (extract cv r.2.2.z2 r'.2.2.z2 e e') (extract cv r.2.2.z1 r'.2.2.z1 e e'))) P := by
  refine extracts _ hS v0 _ _ _ ?_ P a hP
  rintro H H' ⟨tr, ⟨pk, X, Y⟩, ⟨A, B, z1, z2⟩⟩ ⟨tr', ⟨pk', X', Y'⟩, ⟨A', B', z1', z2'⟩⟩ hp k1 k2 hne
  simp only [point, List.append_assoc] at hp
  obtain ⟨rfl, p1⟩ := append_points hp (by simp [hE.len])
  obtain ⟨rfl, p2⟩ := hE.append p1
  obtain ⟨rfl, p3⟩ := hE.append p2
  obtain ⟨rfl, p4⟩ := hE.append p3
  obtain ⟨rfl, p5⟩ := hE.append p4
  obtain rfl := hE.inj p5
  simp only [decide_eq_true_eq]
  exact plaintextKnowledge_special_sound cv pp H H' ⟨pk, X, Y⟩ tr tr A B z1 z2 z1' z2' k1 k2 hne

end PlaintextKnowledge

namespace PlaintextEquality

/-- The string hashed for a proof. -/
def point (cv : Curve G) (r : Bytes × Instance G × Proof G) : Bytes :=
  r.1 ++ (r.2.1.vecPk.map cv.toBytes).flatten ++ (r.2.1.ct.vecX.map cv.toBytes).flatten ++ cv.toBytes r.2.1.ct.Y ++ (r.2.2.vecA.map cv.toBytes).flatten ++ cv.toBytes r.2.2.B

/-- Accepted, with as many keys, points and first messages as recipients. -/
def accepts (cv : Curve G) (pp : Twisted.PP G) (n : Nat) (H : Bytes → ℤ) (r : Bytes × Instance G × Proof G) : Bool :=
  decide (r.2.1.vecPk.length = n) && decide (r.2.1.ct.vecX.length = n) && decide (r.2.2.vecA.length = n) &&
    (verify cv pp H r.2.1 r.1 r.2.2).any fun v => v.1

/-- **C128** One plaintext, with one randomness, for several recipients. -/
theorem plaintextEquality_extracts (cv : Curve G) {W : Nat} (hE : cv.Encodes W) (pp : Twisted.PP G) (n : Nat) (hS : ∀ x ∈ S, ∀ y ∈ S, (cv.order : ℤ) ∣ x - y → x = y)
    (v0 : S) {Ω : Type} [Fintype Ω] [Nonempty Ω] (P : Ω → Adv Q S (Bytes × Instance G × Proof G)) (a : Nat) (hP : ∀ ω, (P ω).Within a) :
    let ε := accepted v0 (point cv) (accepts cv pp n) P
    ε * (ε / (a + 1 : ℕ) - 1 / Fintype.card S) ≤ knows v0 (point cv) (fun r r' e e' =>
      decide (r.2.1.ct = Twisted.encMulti pp r.2.1.vecPk (extract cv r.2.2.t r'.2.2.t e e') (extract cv r.2.2.z r'.2.2.z e e'))) P := by
  refine extracts _ hS v0 _ _ _ ?_ P a hP
  rintro H H' ⟨tr, ⟨pks, Xs, Y⟩, ⟨As, B, z, t⟩⟩ ⟨tr', ⟨pks', Xs', Y'⟩, ⟨As', B', z', t'⟩⟩ hp k1 k2 hne
  simp only [accepts, Bool.and_eq_true, decide_eq_true_eq, Option.any_eq_true] at k1 k2
  obtain ⟨⟨⟨l1, l2⟩, l3⟩, ⟨b1, o1⟩, v1, rfl⟩ := k1
  obtain ⟨⟨⟨m1, m2⟩, m3⟩, ⟨b2, o2⟩, v2, hb⟩ := k2
  dsimp only at hb
  subst hb
  simp only [point, List.append_assoc] at hp
  obtain ⟨rfl, p1⟩ := append_points hp (by simp only [List.length_append, hE.len, hE.flatten_length, l1, l2, l3, m1, m2, m3])
  obtain ⟨rfl, p2⟩ := hE.flatten _ _ _ _ (by omega) p1
  obtain ⟨rfl, p3⟩ := hE.flatten _ _ _ _ (by omega) p2
  obtain ⟨rfl, p4⟩ := hE.append p3
  obtain ⟨rfl, p5⟩ := hE.flatten _ _ _ _ (by omega) p4
  obtain rfl := hE.inj p5
  simp only [decide_eq_true_eq]
  exact plaintextEquality_special_sound cv pp H H' ⟨pks, Xs, Y⟩ tr tr As B z t z' t' o1 o2 (by dsimp only at *; omega) (by dsimp only at *; omega) v1 v2 hne

open Classical in
/-- **C128** A ciphertext that does not contain one plaintext for all recipients is proved with probability at most `(a + 1) / |S|`. -/
theorem plaintextEquality_sound (cv : Curve G) {W : Nat} (hE : cv.Encodes W) (pp : Twisted.PP G) (n : Nat) (hS : ∀ x ∈ S, ∀ y ∈ S, (cv.order : ℤ) ∣ x - y → x = y)
    (v0 : S) {Ω : Type} [Fintype Ω] [Nonempty Ω] (P : Ω → Adv Q S (Bytes × Instance G × Proof G)) (a : Nat) (hP : ∀ ω, (P ω).Within a) :
    accepted v0 (point cv) (fun H r => accepts cv pp n H r && decide (¬ ∃ m r' : ℤ, r.2.1.ct = Twisted.encMulti pp r.2.1.vecPk m r')) P ≤
      (a + 1 : ℕ) / Fintype.card S := by
  refine Fork.sound cv.order hS v0 _ _ ?_ P a hP
  rintro H H' ⟨tr, ⟨pks, Xs, Y⟩, ⟨As, B, z, t⟩⟩ ⟨tr', ⟨pks', Xs', Y'⟩, ⟨As', B', z', t'⟩⟩ hp k1 k2
  rw [Bool.and_eq_true, decide_eq_true_eq] at k1 k2
  obtain ⟨k1, hf⟩ := k1
  obtain ⟨k2, -⟩ := k2
  simp only [accepts, Bool.and_eq_true, decide_eq_true_eq, Option.any_eq_true] at k1 k2
  obtain ⟨⟨⟨l1, l2⟩, l3⟩, ⟨b1, o1⟩, v1, rfl⟩ := k1
  obtain ⟨⟨⟨m1, m2⟩, m3⟩, ⟨b2, o2⟩, v2, hb⟩ := k2
  dsimp only at hb
  subst hb
  simp only [point, List.append_assoc] at hp
  obtain ⟨rfl, p1⟩ := append_points hp (by simp only [List.length_append, hE.len, hE.flatten_length, l1, l2, l3, m1, m2, m3])
  obtain ⟨rfl, p2⟩ := hE.flatten _ _ _ _ (by omega) p1
  obtain ⟨rfl, p3⟩ := hE.flatten _ _ _ _ (by omega) p2
  obtain ⟨rfl, p4⟩ := hE.append p3
  obtain ⟨rfl, p5⟩ := hE.flatten _ _ _ _ (by omega) p4
  obtain rfl := hE.inj p5
  by_contra hne
  exact hf ⟨_, _, plaintextEquality_special_sound cv pp H H' ⟨pks, Xs, Y⟩ tr tr As B z t z' t' o1 o2 (by dsimp only at *; omega)
    (by dsimp only at *; omega) v1 v2 hne⟩

end PlaintextEquality

/-- A prover that knows the discrete logarithm 3 asks for one hash value and is always accepted. -/
def exProver : Adv Schnorr.exQ Schnorr.exS (Bytes × DLOGKnowledge.Instance (ZMod 7) × DLOGKnowledge.Proof (ZMod 7)) :=
  .ask ⟨[5, 2], by decide⟩ fun v => .done ([], ⟨1, 3⟩, ⟨5, 5 + v.1 * 3⟩)

example : exProver.Within 1 ∧ ∀ H : Bytes → ℤ, (DLOGKnowledge.verify toyCurve H ⟨1, 3⟩ [] ⟨5, 5 + H [1, 3, 5] * 3⟩).1 = true := by
  refine ⟨fun _ => trivial, fun H => ?_⟩
  have hb : ([] ++ (toyCurve.toBytes 1 ++ toyCurve.toBytes 3)) ++ toyCurve.toBytes 5 = [1, 3, 5] := by decide
  simp only [DLOGKnowledge.verify, hb, decide_eq_true_eq]
  generalize H [1, 3, 5] = e
  simp

end Kunlun
