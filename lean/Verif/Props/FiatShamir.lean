import Verif.Props.Sigma
import Verif.Model.EncRelation
/-!
C82: the challenges of the Σ-protocol proofs bind the statement and the first message. C83: the proofs and Schnorr signatures can be simulated
perfectly.

C82 is stated without the transcript: for two different pairs of statement and first message any two challenges can occur together, so what
is hashed must differ. If the code left a part of the statement or of the first message out of the transcript, two such pairs would always
have the same challenge.
-/

namespace Kunlun

variable {G : Type} [AddCommGroup G] [DecidableEq G]

/-- A point encoding that determines the point and has one length (for ec_point.hpp:223-230 33 bytes, padded for infinity). -/
structure Curve.Encodes (cv : Curve G) (L : Nat) : Prop where
  len : ∀ P, (cv.toBytes P).length = L
  inj : Function.Injective cv.toBytes

/-- A hash function with two wanted values. -/
def hash2 (s : Bytes) (e e' : ℤ) : Bytes → ℤ := fun t => if t = s then e else e'

theorem hash2_self (s : Bytes) (e e' : ℤ) : hash2 s e e' s = e := if_pos rfl

theorem hash2_other (s t : Bytes) (e e' : ℤ) (h : t ≠ s) : hash2 s e e' t = e' := if_neg h

omit [DecidableEq G] in
theorem Curve.Encodes.append {cv : Curve G} {L : Nat} (hE : cv.Encodes L) {P Q : G} {s t : Bytes} (h : cv.toBytes P ++ s = cv.toBytes Q ++ t) :
    P = Q ∧ s = t := by
  obtain ⟨e1, e2⟩ := List.append_inj h (by rw [hE.len, hE.len])
  exact ⟨hE.inj e1, e2⟩

omit [DecidableEq G] in
theorem Curve.Encodes.flatten_length {cv : Curve G} {L : Nat} (hE : cv.Encodes L) (l : List G) : ((l.map cv.toBytes).flatten).length = L * l.length := by
  induction l with
  | nil => simp
  | cons P l ih => simp [ih, hE.len, Nat.mul_add, Nat.add_comm]

omit [DecidableEq G] in
theorem Curve.Encodes.flatten {cv : Curve G} {L : Nat} (hE : cv.Encodes L) : ∀ (l l' : List G) (s t : Bytes), l.length = l'.length →
    (l.map cv.toBytes).flatten ++ s = (l'.map cv.toBytes).flatten ++ t → l = l' ∧ s = t
  | [], [], _, _, _, h => ⟨rfl, h⟩
  | P :: l, Q :: l', s, t, hl, h => by
    simp only [List.map_cons, List.flatten_cons, List.append_assoc] at h
    obtain ⟨rfl, h2⟩ := hE.append h
    obtain ⟨rfl, h3⟩ := hE.flatten l l' s t (by simpa using hl) h2
    exact ⟨rfl, h3⟩

/-! ### Schnorr -/

namespace Schnorr

/-- **C82** Schnorr: different first messages or different messages have independent challenges. -/
theorem schnorr_challenges_independent (cv : Curve G) {L : Nat} (hE : cv.Encodes L) (pk : G) (A A' : G) (msg msg' : Bytes)
    (hne : (A, msg) ≠ (A', msg')) (e e' : ℤ) :
    ∃ H : Bytes → ℤ, (∀ z, verify cv H pk msg ⟨A, z⟩ = true ↔ z • cv.gen = e • pk + A) ∧
      (∀ z, verify cv H pk msg' ⟨A', z⟩ = true ↔ z • cv.gen = e' • pk + A') := by
  have h : cv.toBytes A' ++ msg' ≠ cv.toBytes A ++ msg := by
    intro h
    obtain ⟨e1, e2⟩ := hE.append h
    exact hne (by rw [e1, e2])
  refine ⟨hash2 (cv.toBytes A ++ msg) e e', fun z => ?_, fun z => ?_⟩
  · simp only [verify, decide_eq_true_eq, hash2_self]
  · simp only [verify, decide_eq_true_eq, hash2_other _ _ _ _ h]

/-- **C82**, for Schnorr the public key is not hashed: a signature for one key is turned into one for a shifted key, with the same first message
and without any secret. -/
theorem schnorr_related_key (cv : Curve G) (H : Bytes → ℤ) (pk : G) (msg : Bytes) (s : SIG G) (d : ℤ) (h : verify cv H pk msg s = true) :
    verify cv H (pk + d • cv.gen) msg ⟨s.A, s.z + H (cv.toBytes s.A ++ msg) * d⟩ = true := by
  simp only [verify, decide_eq_true_eq] at h ⊢
  rw [add_smul, h, smul_add, mul_smul]
  abel

/-- **C83** Schnorr: for every challenge and every response in range there is exactly one nonce below the order with which `Sign` gives the
signature that is computed from the public key alone. -/
theorem schnorr_simulated (cv : Curve G) (sk : ℤ) (msg : Bytes) (e z : ℤ) (hz : 0 ≤ z ∧ z < cv.order) :
    ∃ r : ℤ, (0 ≤ r ∧ r < cv.order ∧ ∀ H : Bytes → ℤ, H (cv.toBytes (r • cv.gen) ++ msg) = e →
        sign cv H sk msg r = ⟨z • cv.gen - e • keyGen cv sk, z⟩) ∧
      ∀ r' : ℤ, 0 ≤ r' → r' < cv.order → BigInt.mod (r' + sk * e) cv.order = z → r' = r := by
  have hq := cv.order_pos
  refine ⟨(z - sk * e) % cv.order, ⟨Int.emod_nonneg _ cv.order_ne, Int.emod_lt_of_pos _ (by exact_mod_cast hq), fun H hH => ?_⟩, ?_⟩
  · simp only [sign, hH, keyGen, SIG.mk.injEq]
    constructor
    · rw [cv.emod_smul, sub_smul, mul_comm, mul_smul]
    · rw [cv.mod_eq, Int.emod_add_emod, sub_add_cancel, Int.emod_eq_of_lt hz.1 hz.2]
  · intro r' h0 h1 h2
    rw [cv.mod_eq] at h2
    rw [← h2, Int.emod_sub_emod, add_sub_cancel_right, Int.emod_eq_of_lt h0 h1]

end Schnorr

/-! ### The response of a linear protocol -/

/-- The nonce with which the response to `e` for witness `w` is `z`. -/
def nonce (q : ℕ) (e w z : ℤ) : ℤ := (z - e * w) % q

omit [AddCommGroup G] [DecidableEq G] in
theorem nonce_unique (q : ℕ) (e w z a : ℤ) (h0 : 0 ≤ a) (h1 : a < q) (h : BigInt.mod (a + e * w) q = z) (hq : (q : ℤ) ≠ 0) : a = nonce q e w z := by
  have : BigInt.mod (a + e * w) q = (a + e * w) % q := by
    unfold BigInt.mod BigInt.bnNNMod BigInt.checked
    rw [if_neg hq]; rfl
  rw [this] at h
  unfold nonce
  rw [← h, Int.emod_sub_emod, add_sub_cancel_right, Int.emod_eq_of_lt h0 h1]

omit [DecidableEq G] in
theorem nonce_range (cv : Curve G) (e w z : ℤ) : 0 ≤ nonce cv.order e w z ∧ nonce cv.order e w z < cv.order :=
  ⟨Int.emod_nonneg _ cv.order_ne, Int.emod_lt_of_pos _ (by exact_mod_cast cv.order_pos)⟩

omit [DecidableEq G] in
theorem nonce_mod (cv : Curve G) (e w z : ℤ) (hz : 0 ≤ z ∧ z < cv.order) : BigInt.mod (nonce cv.order e w z + e * w) cv.order = z := by
  unfold nonce
  rw [cv.mod_eq, Int.emod_add_emod, sub_add_cancel, Int.emod_eq_of_lt hz.1 hz.2]

omit [DecidableEq G] in
theorem nonce_smul (cv : Curve G) (e w z : ℤ) (g : G) : nonce cv.order e w z • g = z • g - e • w • g := by
  unfold nonce
  rw [cv.emod_smul, sub_smul, mul_smul]

/-! ### Discrete-log equality -/

namespace DLOGEquality

/-- **C82** discrete-log equality. -/
theorem dlogEquality_challenges_independent (cv : Curve G) {L : Nat} (hE : cv.Encodes L) (x x' : Instance G) (tr : Bytes) (A1 A2 A1' A2' : G)
    (hne : (x.g1, x.h1, x.g2, x.h2, A1, A2) ≠ (x'.g1, x'.h1, x'.g2, x'.h2, A1', A2')) (e e' : ℤ) :
    ∃ H : Bytes → ℤ,
      (∀ z, (verify cv H x tr ⟨A1, A2, z⟩).1 = true ↔ z • x.g1 = A1 + e • x.h1 ∧ z • x.g2 = A2 + e • x.h2) ∧
      (∀ z, (verify cv H x' tr ⟨A1', A2', z⟩).1 = true ↔ z • x'.g1 = A1' + e' • x'.h1 ∧ z • x'.g2 = A2' + e' • x'.h2) := by
  have h : initTranscript cv x' tr ++ (cv.toBytes A1' ++ cv.toBytes A2') ≠ initTranscript cv x tr ++ (cv.toBytes A1 ++ cv.toBytes A2) := by
    intro h
    simp only [initTranscript, List.append_assoc, List.append_cancel_left_eq] at h
    obtain ⟨e1, h⟩ := hE.append h
    obtain ⟨e2, h⟩ := hE.append h
    obtain ⟨e3, h⟩ := hE.append h
    obtain ⟨e4, h⟩ := hE.append h
    obtain ⟨e5, h⟩ := hE.append h
    exact hne (by rw [e1, e2, e3, e4, e5, hE.inj h])
  refine ⟨hash2 (initTranscript cv x tr ++ (cv.toBytes A1 ++ cv.toBytes A2)) e e', fun z => ?_, fun z => ?_⟩
  · simp only [verify, Bool.and_eq_true, decide_eq_true_eq, hash2_self]
  · simp only [verify, Bool.and_eq_true, decide_eq_true_eq, hash2_other _ _ _ _ h]

/-- **C83** discrete-log equality. -/
theorem dlogEquality_simulated (cv : Curve G) (x : Instance G) (w : ℤ) (h1 : x.h1 = w • x.g1) (h2 : x.h2 = w • x.g2) (tr : Bytes) (e z : ℤ)
    (hz : 0 ≤ z ∧ z < cv.order) :
    ∃ a : ℤ, (0 ≤ a ∧ a < cv.order ∧ ∀ H : Bytes → ℤ, H (prove cv H x w a tr).2 = e →
        (prove cv H x w a tr).1 = ⟨z • x.g1 - e • x.h1, z • x.g2 - e • x.h2, z⟩) ∧
      ∀ (a' : ℤ) (H : Bytes → ℤ), 0 ≤ a' → a' < cv.order → H (prove cv H x w a' tr).2 = e → (prove cv H x w a' tr).1.z = z → a' = a := by
  refine ⟨nonce cv.order e w z, ⟨(nonce_range cv e w z).1, (nonce_range cv e w z).2, fun H hH => ?_⟩, fun a' H h0 hlt hH h3 => ?_⟩
  · simp only [prove] at hH ⊢
    rw [hH, nonce_mod cv e w z hz, nonce_smul, nonce_smul, h1, h2]
  · simp only [prove] at hH h3
    rw [hH] at h3
    exact nonce_unique cv.order e w z a' h0 hlt h3 cv.order_ne

end DLOGEquality

/-! ### Discrete-log knowledge -/

namespace DLOGKnowledge

/-- **C82** discrete-log knowledge. -/
theorem dlogKnowledge_challenges_independent (cv : Curve G) {L : Nat} (hE : cv.Encodes L) (x x' : Instance G) (tr : Bytes) (A A' : G)
    (hne : (x.g, x.h, A) ≠ (x'.g, x'.h, A')) (e e' : ℤ) :
    ∃ H : Bytes → ℤ, (∀ z, (verify cv H x tr ⟨A, z⟩).1 = true ↔ z • x.g = A + e • x.h) ∧
      (∀ z, (verify cv H x' tr ⟨A', z⟩).1 = true ↔ z • x'.g = A' + e' • x'.h) := by
  have h : tr ++ (cv.toBytes x'.g ++ cv.toBytes x'.h) ++ cv.toBytes A' ≠ tr ++ (cv.toBytes x.g ++ cv.toBytes x.h) ++ cv.toBytes A := by
    intro h
    simp only [List.append_assoc, List.append_cancel_left_eq] at h
    obtain ⟨e1, h⟩ := hE.append h
    obtain ⟨e2, h⟩ := hE.append h
    exact hne (by rw [e1, e2, hE.inj h])
  refine ⟨hash2 (tr ++ (cv.toBytes x.g ++ cv.toBytes x.h) ++ cv.toBytes A) e e', fun z => ?_, fun z => ?_⟩
  · simp only [verify, decide_eq_true_eq, hash2_self]
  · simp only [verify, decide_eq_true_eq, hash2_other _ _ _ _ h]

/-- **C83** discrete-log knowledge. -/
theorem dlogKnowledge_simulated (cv : Curve G) (x : Instance G) (w : ℤ) (h1 : x.h = w • x.g) (tr : Bytes) (e z : ℤ)
    (hz : 0 ≤ z ∧ z < cv.order) :
    ∃ a : ℤ, (0 ≤ a ∧ a < cv.order ∧ ∀ H : Bytes → ℤ, H (prove cv H x w a tr).2 = e → (prove cv H x w a tr).1 = ⟨z • x.g - e • x.h, z⟩) ∧
      ∀ (a' : ℤ) (H : Bytes → ℤ), 0 ≤ a' → a' < cv.order → H (prove cv H x w a' tr).2 = e → (prove cv H x w a' tr).1.z = z → a' = a := by
  refine ⟨nonce cv.order e w z, ⟨(nonce_range cv e w z).1, (nonce_range cv e w z).2, fun H hH => ?_⟩, fun a' H h0 hlt hH h3 => ?_⟩
  · simp only [prove] at hH ⊢
    rw [hH, nonce_mod cv e w z hz, nonce_smul, h1]
  · simp only [prove] at hH h3
    rw [hH] at h3
    exact nonce_unique cv.order e w z a' h0 hlt h3 cv.order_ne

end DLOGKnowledge

/-! ### Plaintext knowledge -/

namespace PlaintextKnowledge

/-- **C82** plaintext knowledge. -/
theorem plaintextKnowledge_challenges_independent (cv : Curve G) {L : Nat} (hE : cv.Encodes L) (pp : Twisted.PP G) (x x' : Instance G) (tr : Bytes)
    (A B A' B' : G) (hne : (x.pk, x.ct.X, x.ct.Y, A, B) ≠ (x'.pk, x'.ct.X, x'.ct.Y, A', B')) (e e' : ℤ) :
    ∃ H : Bytes → ℤ,
      (∀ z1 z2, (verify cv pp H x tr ⟨A, B, z1, z2⟩).1 = true ↔ z1 • x.pk = A + e • x.ct.X ∧ z1 • pp.g + z2 • pp.h = B + e • x.ct.Y) ∧
      (∀ z1 z2, (verify cv pp H x' tr ⟨A', B', z1, z2⟩).1 = true ↔
        z1 • x'.pk = A' + e' • x'.ct.X ∧ z1 • pp.g + z2 • pp.h = B' + e' • x'.ct.Y) := by
  have h : tr ++ (cv.toBytes x'.pk ++ cv.toBytes x'.ct.X ++ cv.toBytes x'.ct.Y) ++ (cv.toBytes A' ++ cv.toBytes B')
      ≠ tr ++ (cv.toBytes x.pk ++ cv.toBytes x.ct.X ++ cv.toBytes x.ct.Y) ++ (cv.toBytes A ++ cv.toBytes B) := by
    intro h
    simp only [List.append_assoc, List.append_cancel_left_eq] at h
    obtain ⟨e1, h⟩ := hE.append h
    obtain ⟨e2, h⟩ := hE.append h
    obtain ⟨e3, h⟩ := hE.append h
    obtain ⟨e4, h⟩ := hE.append h
    exact hne (by rw [e1, e2, e3, e4, hE.inj h])
  refine ⟨hash2 (tr ++ (cv.toBytes x.pk ++ cv.toBytes x.ct.X ++ cv.toBytes x.ct.Y) ++ (cv.toBytes A ++ cv.toBytes B)) e e',
    fun z1 z2 => ?_, fun z1 z2 => ?_⟩
  · simp only [verify, Bool.and_eq_true, decide_eq_true_eq, hash2_self, msm_two]
  · simp only [verify, Bool.and_eq_true, decide_eq_true_eq, hash2_other _ _ _ _ h, msm_two]

/-- **C83** plaintext knowledge. -/
theorem plaintextKnowledge_simulated (cv : Curve G) (pp : Twisted.PP G) (pk : G) (v r : ℤ) (tr : Bytes) (e z1 z2 : ℤ)
    (hz1 : 0 ≤ z1 ∧ z1 < cv.order) (hz2 : 0 ≤ z2 ∧ z2 < cv.order) :
    let x : Instance G := ⟨pk, Twisted.enc pp pk v r⟩
    ∃ a b : ℤ, (0 ≤ a ∧ a < cv.order ∧ 0 ≤ b ∧ b < cv.order ∧ ∀ H : Bytes → ℤ, H (prove cv pp H x v r a b tr).2 = e →
        (prove cv pp H x v r a b tr).1 = ⟨z1 • x.pk - e • x.ct.X, z1 • pp.g + z2 • pp.h - e • x.ct.Y, z1, z2⟩) ∧
      ∀ (a' b' : ℤ) (H : Bytes → ℤ), 0 ≤ a' → a' < cv.order → 0 ≤ b' → b' < cv.order → H (prove cv pp H x v r a' b' tr).2 = e →
        (prove cv pp H x v r a' b' tr).1.z1 = z1 → (prove cv pp H x v r a' b' tr).1.z2 = z2 → a' = a ∧ b' = b := by
  intro x
  refine ⟨nonce cv.order e r z1, nonce cv.order e v z2, ⟨(nonce_range cv e r z1).1, (nonce_range cv e r z1).2, (nonce_range cv e v z2).1,
    (nonce_range cv e v z2).2, fun H hH => ?_⟩, fun a' b' H h0 hlt h0' hlt' hH h3 h4 => ?_⟩
  · simp only [prove] at hH ⊢
    rw [hH, nonce_mod cv e r z1 hz1, nonce_mod cv e v z2 hz2]
    simp only [msm_two, nonce_smul, x, Twisted.enc, Proof.mk.injEq, and_true, smul_add]
    exact ⟨trivial, by abel⟩
  · simp only [prove] at hH h3 h4
    rw [hH] at h3 h4
    exact ⟨nonce_unique cv.order e r z1 a' h0 hlt h3 cv.order_ne, nonce_unique cv.order e v z2 b' h0' hlt' h4 cv.order_ne⟩

end PlaintextKnowledge

/-! ### Plaintext equality -/

namespace PlaintextEquality

omit [DecidableEq G] in
theorem transcript_inj (cv : Curve G) {L : Nat} (hE : cv.Encodes L) (x x' : Instance G) (tr : Bytes) (vecA vecA' : List G) (B B' : G)
    (hX : x.ct.vecX.length = x.vecPk.length) (hA : vecA.length = x.vecPk.length) (hX' : x'.ct.vecX.length = x'.vecPk.length)
    (hA' : vecA'.length = x'.vecPk.length)
    (h : tr ++ (x'.vecPk.map cv.toBytes).flatten ++ (x'.ct.vecX.map cv.toBytes).flatten ++ cv.toBytes x'.ct.Y ++
        (vecA'.map cv.toBytes).flatten ++ cv.toBytes B'
      = tr ++ (x.vecPk.map cv.toBytes).flatten ++ (x.ct.vecX.map cv.toBytes).flatten ++ cv.toBytes x.ct.Y ++
        (vecA.map cv.toBytes).flatten ++ cv.toBytes B) :
    (x'.vecPk, x'.ct.vecX, x'.ct.Y, vecA', B') = (x.vecPk, x.ct.vecX, x.ct.Y, vecA, B) := by
  have hL : 0 < L := by
    rcases Nat.eq_zero_or_pos L with h0 | h0
    · exfalso
      apply cv.gen_ne
      apply hE.inj
      rw [List.eq_nil_of_length_eq_zero ((hE.len cv.gen).trans h0), List.eq_nil_of_length_eq_zero ((hE.len 0).trans h0)]
    · exact h0
  have hn : x'.vecPk.length = x.vecPk.length := by
    have := congrArg List.length h
    simp only [List.length_append, hE.flatten_length, hE.len, hX, hX', hA, hA'] at this
    have h3 : L * (3 * x'.vecPk.length) = L * (3 * x.vecPk.length) := by
      rw [Nat.mul_left_comm, Nat.mul_left_comm L]
      omega
    have := Nat.eq_of_mul_eq_mul_left hL h3
    omega
  simp only [List.append_assoc, List.append_cancel_left_eq] at h
  obtain ⟨e1, h⟩ := hE.flatten _ _ _ _ hn h
  obtain ⟨e2, h⟩ := hE.flatten _ _ _ _ (by omega) h
  obtain ⟨e3, h⟩ := hE.append h
  obtain ⟨e4, h⟩ := hE.flatten _ _ _ _ (by omega) h
  rw [e1, e2, e3, e4, hE.inj h]

/-- **C82** plaintext equality, for any numbers of recipients. -/
theorem plaintextEquality_challenges_independent (cv : Curve G) {L : Nat} (hE : cv.Encodes L) (pp : Twisted.PP G) (x x' : Instance G) (tr : Bytes)
    (vecA vecA' : List G) (B B' : G) (hX : x.ct.vecX.length = x.vecPk.length) (hA : vecA.length = x.vecPk.length)
    (hX' : x'.ct.vecX.length = x'.vecPk.length) (hA' : vecA'.length = x'.vecPk.length)
    (hne : (x'.vecPk, x'.ct.vecX, x'.ct.Y, vecA', B') ≠ (x.vecPk, x.ct.vecX, x.ct.Y, vecA, B)) (e e' : ℤ) :
    ∃ H : Bytes → ℤ,
      (∀ z t, (verify cv pp H x tr ⟨vecA, B, z, t⟩).map Prod.fst = some true ↔
        (∀ (i : Nat) (pk A X : G), x.vecPk[i]? = some pk → vecA[i]? = some A → x.ct.vecX[i]? = some X → z • pk = A + e • X) ∧
        z • pp.g + t • pp.h = B + e • x.ct.Y) ∧
      (∀ z t, (verify cv pp H x' tr ⟨vecA', B', z, t⟩).map Prod.fst = some true ↔
        (∀ (i : Nat) (pk A X : G), x'.vecPk[i]? = some pk → vecA'[i]? = some A → x'.ct.vecX[i]? = some X → z • pk = A + e' • X) ∧
        z • pp.g + t • pp.h = B' + e' • x'.ct.Y) := by
  refine ⟨hash2 (tr ++ (x.vecPk.map cv.toBytes).flatten ++ (x.ct.vecX.map cv.toBytes).flatten ++
      cv.toBytes x.ct.Y ++ (vecA.map cv.toBytes).flatten ++ cv.toBytes B) e e', fun z t => ?_, fun z t => ?_⟩
  · obtain ⟨b, tr', h1, h2, -⟩ := verify_spec cv pp (hash2 (tr ++ (x.vecPk.map cv.toBytes).flatten ++ (x.ct.vecX.map cv.toBytes).flatten ++
      cv.toBytes x.ct.Y ++ (vecA.map cv.toBytes).flatten ++ cv.toBytes B) e e') x tr ⟨vecA, B, z, t⟩ hX hA
    rw [h1, Option.map_some, Option.some.injEq, h2]
    unfold challenge
    simp only [hash2_self]
  · obtain ⟨b, tr', h1, h2, -⟩ := verify_spec cv pp (hash2 (tr ++ (x.vecPk.map cv.toBytes).flatten ++ (x.ct.vecX.map cv.toBytes).flatten ++
      cv.toBytes x.ct.Y ++ (vecA.map cv.toBytes).flatten ++ cv.toBytes B) e e') x' tr ⟨vecA', B', z, t⟩ hX' hA'
    rw [h1, Option.map_some, Option.some.injEq, h2]
    unfold challenge
    simp only
    rw [hash2_other]
    exact fun h => hne (transcript_inj cv hE x x' tr vecA vecA' B B' hX hA hX' hA' h)

/-- **C83** plaintext equality. -/
theorem plaintextEquality_simulated (cv : Curve G) (pp : Twisted.PP G) (pks : List G) (v r : ℤ) (tr : Bytes) (e z t : ℤ)
    (hz : 0 ≤ z ∧ z < cv.order) (ht : 0 ≤ t ∧ t < cv.order) :
    let x : Instance G := ⟨pks, Twisted.encMulti pp pks v r⟩
    ∃ a b : ℤ, (0 ≤ a ∧ a < cv.order ∧ 0 ≤ b ∧ b < cv.order ∧ ∀ (H : Bytes → ℤ) pf tr', prove cv pp H x v r a b tr = some (pf, tr') → H tr' = e →
        pf = ⟨List.zipWith (fun pk X => z • pk - e • X) x.vecPk x.ct.vecX, z • pp.g + t • pp.h - e • x.ct.Y, z, t⟩) ∧
      ∀ (a' b' : ℤ) (H : Bytes → ℤ) pf tr', 0 ≤ a' → a' < cv.order → 0 ≤ b' → b' < cv.order →
        prove cv pp H x v r a' b' tr = some (pf, tr') → H tr' = e → pf.z = z → pf.t = t → a' = a ∧ b' = b := by
  intro x
  have hX : x.ct.vecX.length = pks.length := by simp [x, Twisted.encMulti]
  have hp : ∀ (a b : ℤ) (H : Bytes → ℤ) pf tr', prove cv pp H x v r a b tr = some (pf, tr') →
      pf = ⟨pks.map fun pk => a • pk, a • pp.g + b • pp.h, BigInt.mod (a + H tr' * r) cv.order, BigInt.mod (b + H tr' * v) cv.order⟩ := by
    intro a b H pf tr' h
    have hA : (pks.map fun pk => a • pk).length = pks.length := by simp
    simp only [prove, initTranscript, x, addPoints_full cv pks _ _ rfl, addPoints_full cv _ _ _ hX, addPoints_full cv _ _ _ hA,
      Option.bind_eq_bind, Option.bind_some, Option.pure_def, Option.some.injEq, Prod.mk.injEq] at h
    obtain ⟨h1, h2⟩ := h
    rw [← h1, ← h2, msm_two]
  refine ⟨nonce cv.order e r z, nonce cv.order e v t, ⟨(nonce_range cv e r z).1, (nonce_range cv e r z).2, (nonce_range cv e v t).1,
    (nonce_range cv e v t).2, fun H pf tr' h hH => ?_⟩, fun a' b' H pf tr' h0 hlt h0' hlt' h hH h3 h4 => ?_⟩
  · rw [hp _ _ H pf tr' h, hH, nonce_mod cv e r z hz, nonce_mod cv e v t ht, nonce_smul, nonce_smul, Proof.mk.injEq]
    refine ⟨?_, ?_, rfl, rfl⟩
    · simp only [x, Twisted.encMulti, List.zipWith_map_right]
      rw [List.zipWith_self]
      exact List.map_congr_left fun pk _ => nonce_smul cv e r z pk
    · simp only [x, Twisted.encMulti, smul_add]
      abel
  · rw [hp _ _ H pf tr' h, hH] at h3 h4
    exact ⟨nonce_unique cv.order e r z a' h0 hlt h3 cv.order_ne, nonce_unique cv.order e v t b' h0' hlt' h4 cv.order_ne⟩

end PlaintextEquality

/-! ### One-out-of-many proof -/

namespace EncRelation

/-- **C82** the one-out-of-many proof: different commitments `(B, A, C, D)` have independent challenges. (Neither `vec_G` nor the statement are
hashed: C33.) -/
theorem encRelation_challenges_independent (cv : Curve G) {L : Nat} (hE : cv.Encodes L) (tr : Bytes) (B A C D B' A' C' D' : G)
    (hne : (B, A, C, D) ≠ (B', A', C', D')) (e e' : ℤ) :
    ∃ H : Bytes → ℤ, ∀ (flog : Nat → Nat → Nat) (pp : PP G) (x : Instance G) (vecG : List (CT G)) (f : List ℤ) (z zA zC : ℤ) (tr' : Bytes),
      (verify cv flog pp H x tr ⟨B, z, vecG, A, C, D, f, zA, zC⟩ = some (true, tr') →
        Pedersen.commit pp.com f zA = some (e • B + A) ∧
        Pedersen.commit pp.com ((f.take (flog x.cts.length pp.n * pp.n)).map fun a => a * (e - a)) zC = some (e • C + D)) ∧
      (verify cv flog pp H x tr ⟨B', z, vecG, A', C', D', f, zA, zC⟩ = some (true, tr') →
        Pedersen.commit pp.com f zA = some (e' • B' + A') ∧
        Pedersen.commit pp.com ((f.take (flog x.cts.length pp.n * pp.n)).map fun a => a * (e' - a)) zC = some (e' • C' + D')) := by
  have h : addFirst cv tr B' A' C' D' ≠ addFirst cv tr B A C D := by
    intro h
    simp only [addFirst, List.append_assoc, List.append_cancel_left_eq] at h
    obtain ⟨e1, h⟩ := hE.append h
    obtain ⟨e2, h⟩ := hE.append h
    obtain ⟨e3, h⟩ := hE.append h
    exact hne (by rw [e1, e2, e3, hE.inj h])
  have key : ∀ (H : Bytes → ℤ) (flog : Nat → Nat → Nat) (pp : PP G) (x : Instance G) (vecG : List (CT G)) (f : List ℤ) (z zA zC : ℤ)
      (tr' : Bytes) (B A C D : G), verify cv flog pp H x tr ⟨B, z, vecG, A, C, D, f, zA, zC⟩ = some (true, tr') →
        Pedersen.commit pp.com f zA = some (H (addFirst cv tr B A C D) • B + A) ∧
        Pedersen.commit pp.com ((f.take (flog x.cts.length pp.n * pp.n)).map fun a => a * (H (addFirst cv tr B A C D) - a)) zC =
          some (H (addFirst cv tr B A C D) • C + D) := by
    intro H flog pp x vecG f z zA zC tr' B A C D hv
    unfold verify at hv
    simp only [Option.bind_eq_bind, Option.pure_def] at hv
    split at hv
    · cases hv
    · simp only [Option.bind_eq_some_iff, Option.some.injEq, Prod.mk.injEq, Bool.and_eq_true, decide_eq_true_eq] at hv
      obtain ⟨R1, h1, R2, h2, ⟨⟨⟨-, h3⟩, h4⟩, -⟩, -⟩ := hv
      exact ⟨h3 ▸ h1, h4 ▸ h2⟩
  refine ⟨hash2 (addFirst cv tr B A C D) e e', fun flog pp x vecG f z zA zC tr' => ⟨fun hv => ?_, fun hv => ?_⟩⟩
  · have := key _ flog pp x vecG f z zA zC tr' _ _ _ _ hv
    rwa [hash2_self] at this
  · have := key _ flog pp x vecG f z zA zC tr' _ _ _ _ hv
    rwa [hash2_other _ _ _ _ h] at this

end EncRelation

/-- The encoding of the small group meets the hypothesis, two different first messages exist, and a signature is simulated. -/
example : toyCurve.Encodes 1 ∧ ((5 : ZMod 7), ([1] : Bytes)) ≠ (5, [2]) ∧
    Schnorr.sign toyCurve (fun _ => 4) 3 [1, 2] 6 = ⟨4 • toyCurve.gen - 4 • Schnorr.keyGen toyCurve 3, 4⟩ :=
  ⟨⟨by decide, by decide⟩, by decide, by decide⟩

end Kunlun
