import Mathlib.Data.Nat.Prime.Int
import Verif.Model.Sigma
import Verif.Props.BigInt
/-!
C24, C25 (Schnorr), C26 (Pedersen), C27–C30 (Σ-protocol NIZKs), C31 (proof byte strings).

Special soundness is stated with two hash functions `H`, `H'` (a rewound prover with a reprogrammed random oracle): both accept a
proof with the same first message, and the two challenges differ modulo the group order.
-/

namespace Kunlun

variable {G : Type} [AddCommGroup G] [DecidableEq G]

/-- The extractor: `(z - z') / (e - e')` modulo the order. -/
def extract (cv : Curve G) (z z' e e' : ℤ) : ℤ := (z - z') * BigInt.modInverse (e - e') cv.order

omit [DecidableEq G] in
theorem inv_smul (cv : Curve G) (e : ℤ) (he : ¬ (cv.order : ℤ) ∣ e) (P : G) :
    BigInt.modInverse e cv.order • e • P = P := by
  letI := cv.toModule
  haveI := cv.fact
  simp only [cv.cast_smul, cv.cast_modInverse]
  rw [← mul_smul, inv_mul_cancel₀ (cv.cast_ne_zero he), one_smul]

omit [DecidableEq G] in
theorem extract_spec (cv : Curve G) (z z' e e' : ℤ) (g A h : G) (h1 : z • g = A + e • h) (h2 : z' • g = A + e' • h)
    (hne : ¬ (cv.order : ℤ) ∣ e - e') : h = extract cv z z' e e' • g := by
  have : (z - z') • g = (e - e') • h := by rw [sub_smul, h1, h2, sub_smul]; abel
  unfold extract
  rw [mul_comm, mul_smul, this, inv_smul cv _ hne]

omit [DecidableEq G] in
theorem extract_spec2 (cv : Curve G) (z z' t t' e e' : ℤ) (g k A h : G) (h1 : z • g + t • k = A + e • h)
    (h2 : z' • g + t' • k = A + e' • h) (hne : ¬ (cv.order : ℤ) ∣ e - e') :
    h = extract cv z z' e e' • g + extract cv t t' e e' • k := by
  have : (z - z') • g + (t - t') • k = (e - e') • h := by
    have : (z - z') • g + (t - t') • k = (z • g + t • k) - (z' • g + t' • k) := by module
    rw [this, h1, h2, sub_smul]; abel
  unfold extract
  rw [mul_comm, mul_smul, mul_comm (t - t'), mul_smul, ← smul_add, this, inv_smul cv _ hne]

/-! ### C24, C25 -/

namespace Schnorr

/-- C24: every honestly produced signature verifies. -/
theorem schnorr_complete (cv : Curve G) (H : Bytes → ℤ) (sk r : ℤ) (msg : Bytes) :
    verify cv H (keyGen cv sk) msg (sign cv H sk msg r) = true := by
  simp only [verify, sign, keyGen, decide_eq_true_eq, cv.mod_smul]
  module

/-- C24: two accepted answers to different challenges for one commitment reveal the secret key. -/
theorem schnorr_extract (cv : Curve G) (H H' : Bytes → ℤ) (sk : ℤ) (msg msg' : Bytes) (s s' : SIG G)
    (h1 : verify cv H (keyGen cv sk) msg s = true) (h2 : verify cv H' (keyGen cv sk) msg' s' = true) (hA : s.A = s'.A)
    (hne : ¬ (cv.order : ℤ) ∣ H (cv.toBytes s.A ++ msg) - H' (cv.toBytes s'.A ++ msg')) :
    extract cv s.z s'.z (H (cv.toBytes s.A ++ msg)) (H' (cv.toBytes s'.A ++ msg')) % cv.order = sk % cv.order := by
  simp only [verify, decide_eq_true_eq] at h1 h2
  rw [add_comm] at h1 h2
  rw [← hA] at h2 hne ⊢
  have := extract_spec cv s.z s'.z _ _ cv.gen s.A (keyGen cv sk) h1 h2 hne
  unfold keyGen at this
  rw [cv.smul_eq_iff _ _ _ cv.gen_ne] at this
  exact (Int.emod_eq_emod_iff_emod_sub_eq_zero.2 (Int.emod_eq_zero_of_dvd this)).symm

/-- C24: an accepted signature fixes the residue of the response: `z` is accepted exactly when it is congruent to
`r + sk·e` for the nonce `r` behind the commitment. -/
theorem schnorr_accepts_iff (cv : Curve G) (H : Bytes → ℤ) (sk r z : ℤ) (msg : Bytes) :
    verify cv H (keyGen cv sk) msg ⟨r • cv.gen, z⟩ = true ↔ z % cv.order = (sign cv H sk msg r).z := by
  simp only [verify, decide_eq_true_eq]
  simp only [sign, keyGen, cv.mod_eq]
  rw [Int.emod_eq_emod_iff_emod_sub_eq_zero, ← Int.dvd_iff_emod_eq_zero, ← cv.smul_eq_iff _ _ _ cv.gen_ne]
  constructor
  · intro h; rw [h]; module
  · intro h; rw [h]; module

/-- C24: a signature is accepted for a second message only if the challenges collide. -/
theorem schnorr_binds_message (cv : Curve G) (H : Bytes → ℤ) (pk : G) (hpk : pk ≠ 0) (msg msg' : Bytes) (s : SIG G)
    (h1 : verify cv H pk msg s = true) (h2 : verify cv H pk msg' s = true) :
    H (cv.toBytes s.A ++ msg) % cv.order = H (cv.toBytes s.A ++ msg') % cv.order := by
  simp only [verify, decide_eq_true_eq] at h1 h2
  have : H (cv.toBytes s.A ++ msg) • pk = H (cv.toBytes s.A ++ msg') • pk := by
    rw [h1] at h2
    exact add_right_cancel h2
  rw [cv.smul_eq_iff _ _ _ hpk] at this
  exact Int.emod_eq_emod_iff_emod_sub_eq_zero.2 (Int.emod_eq_zero_of_dvd this)

/-- C25, restricted to responses in the range `Sign` produces: at most one is accepted. Missing: `Verify` does not check the range,
and outside of it the claim is false (next theorem). -/
theorem schnorr_response_unique_partial (cv : Curve G) (H : Bytes → ℤ) (pk A : G) (msg : Bytes) (z z' : ℤ)
    (hz : 0 ≤ z ∧ z < cv.order) (hz' : 0 ≤ z' ∧ z' < cv.order) (h1 : verify cv H pk msg ⟨A, z⟩ = true)
    (h2 : verify cv H pk msg ⟨A, z'⟩ = true) : z = z' := by
  simp only [verify, decide_eq_true_eq] at h1 h2
  rw [← h2, cv.smul_eq_iff _ _ _ cv.gen_ne] at h1
  have := Int.emod_eq_emod_iff_emod_sub_eq_zero.2 (Int.emod_eq_zero_of_dvd h1)
  rwa [Int.emod_eq_of_lt hz.1 hz.2, Int.emod_eq_of_lt hz'.1 hz'.2] at this

/-- C25 is violated: from every accepted signature anybody makes another accepted one by adding the order to the response. -/
theorem schnorr_malleable (cv : Curve G) (H : Bytes → ℤ) (pk : G) (msg : Bytes) (s : SIG G)
    (h : verify cv H pk msg s = true) :
    verify cv H pk msg ⟨s.A, s.z + cv.order⟩ = true ∧ (⟨s.A, s.z + cv.order⟩ : SIG G) ≠ s := by
  constructor
  · simp only [verify, decide_eq_true_eq] at h ⊢
    rw [← h, cv.smul_eq_iff _ _ _ cv.gen_ne]
    simp
  · intro hh
    have : s.z + cv.order = s.z := congrArg SIG.z hh
    have := cv.order_ne
    omega

/-- Two accepting transcripts with different challenges exist. -/
example : verify toyCurve (fun _ => 2) (keyGen toyCurve 3) [1] (sign toyCurve (fun _ => 2) 3 [1] 5) = true ∧
    verify toyCurve (fun _ => 4) (keyGen toyCurve 3) [1] (sign toyCurve (fun _ => 4) 3 [1] 5) = true ∧
    ¬ ((toyCurve.order : ℤ) ∣ 2 - 4) ∧ keyGen toyCurve 3 ≠ 0 := by decide

end Schnorr

/-! ### C26 -/

namespace Pedersen

omit [DecidableEq G] in
theorem msm_zipWith_add (h : List G) (m m' : List ℤ) (hl : m.length = m'.length) :
    msm h (List.zipWith (· + ·) m m') = msm h m + msm h m' := by
  induction h generalizing m m' with
  | nil => simp [msm]
  | cons P h ih =>
    cases m with
    | nil => cases m' <;> simp_all [msm]
    | cons x m =>
      cases m' with
      | nil => simp at hl
      | cons y m' =>
        simp only [List.zipWith_cons_cons, msm_cons, ih m m' (by simpa using hl)]
        module

omit [DecidableEq G] in
theorem commit_eq (pp : PP G) (m : List ℤ) (r : ℤ) (h : m.length ≤ pp.vecH.length) :
    commit pp m r = some (r • pp.g + msm pp.vecH m) := by
  unfold commit vecMul
  rw [if_neg (by omega), if_neg (by simp; omega)]
  have : msm (pp.vecH.take m.length) m = msm pp.vecH m := by
    unfold msm
    congr 1
    rw [List.zipWith_eq_zipWith_take_min (l₁ := pp.vecH) (l₂ := m), Nat.min_eq_right h, List.take_length]
  rw [this]; rfl

omit [DecidableEq G] in
/-- C26: commitments add up; with vectors of equal length that the parameters support, `Commit` is defined. -/
theorem pedersen_homomorphic (pp : PP G) (m m' : List ℤ) (r r' : ℤ) (hl : m.length = m'.length)
    (h : m.length ≤ pp.vecH.length) :
    ∃ C C', commit pp m r = some C ∧ commit pp m' r' = some C' ∧
      commit pp (List.zipWith (· + ·) m m') (r + r') = some (C + C') := by
  refine ⟨_, _, commit_eq pp m r h, commit_eq pp m' r' (by omega), ?_⟩
  rw [commit_eq pp _ _ (by simp; omega), msm_zipWith_add _ _ _ hl]
  congr 1
  module

omit [DecidableEq G] in
/-- C26: parameters from `Setup` commit to every vector of at most `N_max` numbers: the commitment is `r` times the generator and each number
times the drawn point of its position. -/
theorem pedersen_setup (cv : Curve G) (points : List G) (nMax : Nat) (hp : points.length = nMax) (m : List ℤ) (r : ℤ) (h : m.length ≤ nMax) :
    commit (setup cv points nMax) m r = some (r • cv.gen + (List.zipWith (fun (a : ℤ) P => a • P) m points).sum) := by
  have hl : (setup cv points nMax).vecH.length = nMax := by simp [setup, hp]
  rw [commit_eq _ _ _ (by omega)]
  have e : (setup cv points nMax).vecH = points := by rw [setup, List.take_of_length_le (by omega)]
  have g : (setup cv points nMax).g = cv.gen := rfl
  rw [e, g]
  congr 2
  clear hl e g h hp
  induction points generalizing m with
  | nil => simp [msm]
  | cons P l ih =>
    cases m with
    | nil => simp [msm]
    | cons a m => simpa [msm] using ih m

omit [DecidableEq G] in
theorem msm_sub (h : List G) (m m' : List ℤ) (hl : m.length = m'.length) :
    msm h (List.zipWith (· - ·) m m') = msm h m - msm h m' := by
  induction h generalizing m m' with
  | nil => simp [msm]
  | cons P h ih =>
    cases m with
    | nil => cases m' <;> simp_all [msm]
    | cons x m =>
      cases m' with
      | nil => simp at hl
      | cons y m' =>
        simp only [List.zipWith_cons_cons, msm_cons, ih m m' (by simpa using hl)]
        module

omit [DecidableEq G] in
/-- C26: two openings of one commitment that differ modulo the order give, by subtraction, a non-trivial linear relation between
the generators `g, h_1, …`: finding two openings is as hard as finding such a relation. -/
theorem pedersen_binding (cv : Curve G) (pp : PP G) (m m' : List ℤ) (r r' : ℤ) (hl : m.length = m'.length) (C : G)
    (h1 : commit pp m r = some C) (h2 : commit pp m' r' = some C)
    (hne : r % cv.order ≠ r' % cv.order ∨ m.map (· % (cv.order : ℤ)) ≠ m'.map (· % (cv.order : ℤ))) :
    msm (pp.g :: pp.vecH) ((r - r') :: List.zipWith (· - ·) m m') = 0 ∧
      ∃ x ∈ (r - r') :: List.zipWith (· - ·) m m', ¬ (cv.order : ℤ) ∣ x := by
  have hlen : m.length ≤ pp.vecH.length := by
    by_contra hh
    simp [commit, show pp.vecH.length < m.length by omega] at h1
  rw [commit_eq pp m r hlen, Option.some.injEq] at h1
  rw [commit_eq pp m' r' (by omega), Option.some.injEq] at h2
  refine ⟨?_, ?_⟩
  · rw [msm_cons, msm_sub _ _ _ hl]
    have : (r - r') • pp.g + (msm pp.vecH m - msm pp.vecH m') = (r • pp.g + msm pp.vecH m) - (r' • pp.g + msm pp.vecH m') := by
      module
    rw [this, h1, h2, sub_self]
  · by_contra hall
    have hall' : ∀ x ∈ (r - r') :: List.zipWith (· - ·) m m', (cv.order : ℤ) ∣ x := by
      intro x hx
      by_contra hd
      exact hall ⟨x, hx, hd⟩
    rcases hne with hne | hne
    · apply hne
      exact Int.emod_eq_emod_iff_emod_sub_eq_zero.2 (Int.emod_eq_zero_of_dvd (hall' _ List.mem_cons_self))
    · apply hne
      have hm : ∀ x ∈ List.zipWith (· - ·) m m', (cv.order : ℤ) ∣ x := fun x hx => hall' x (List.mem_cons_of_mem _ hx)
      clear hall hall' h1 h2 hlen hne
      induction m generalizing m' with
      | nil => cases m' <;> simp_all
      | cons x m ih =>
        cases m' with
        | nil => simp at hl
        | cons y m' =>
          simp only [List.map_cons, List.cons.injEq]
          refine ⟨Int.emod_eq_emod_iff_emod_sub_eq_zero.2 (Int.emod_eq_zero_of_dvd (hm _ (by simp))), ?_⟩
          exact ih m' (by simpa using hl) (fun z hz => hm z (by simp [hz]))

omit [DecidableEq G] in
/-- C26, hiding in the information-theoretic sense: for a non-zero `g` generating the group, every commitment can be opened to
every message. -/
theorem pedersen_hiding (pp : PP G) (hgen : ∀ P : G, ∃ x : ℤ, P = x • pp.g) (m m' : List ℤ)
    (r : ℤ) (hm : m.length ≤ pp.vecH.length) (hm' : m'.length ≤ pp.vecH.length) :
    ∃ r', commit pp m' r' = commit pp m r := by
  obtain ⟨x, hx⟩ := hgen (msm pp.vecH m - msm pp.vecH m')
  refine ⟨r + x, ?_⟩
  rw [commit_eq pp m r hm, commit_eq pp m' _ hm', add_smul, ← hx]
  congr 1
  abel

omit [DecidableEq G] in
/-- Boundary of C26: the length of the message is not bound, trailing zeros are invisible. -/
theorem pedersen_length_not_bound (pp : PP G) (m : List ℤ) (k : Nat) (r : ℤ) (h : m.length + k ≤ pp.vecH.length) :
    commit pp (m ++ List.replicate k 0) r = commit pp m r := by
  rw [commit_eq pp _ r (by simpa using h), commit_eq pp m r (by omega)]
  have : ∀ (hs : List G) (m : List ℤ), msm hs (m ++ List.replicate k 0) = msm hs m := by
    intro hs
    induction hs with
    | nil => intro m; simp [msm]
    | cons P hs ih =>
      intro m
      cases m with
      | nil =>
        have z : ∀ (hs : List G) (k : Nat), msm hs (List.replicate k 0) = 0 := by
          intro hs
          induction hs with
          | nil => simp [msm]
          | cons Q hs ih2 =>
            intro k
            cases k with
            | zero => simp [msm]
            | succ k => rw [List.replicate_succ, msm_cons, ih2]; simp
        rw [List.nil_append, z, msm_nil']
      | cons x m => rw [List.cons_append, msm_cons, msm_cons, ih]
  rw [this]

omit [DecidableEq G] in
/-- Boundary of C26: more messages than generators is undefined behaviour (the check only prints). -/
theorem pedersen_too_long_undefined (pp : PP G) (m : List ℤ) (r : ℤ) (h : pp.vecH.length < m.length) : commit pp m r = none := by
  simp [commit, h]

/-- Two different openings of one commitment exist in the toy group. -/
example : commit (⟨1, [2, 3], 2⟩ : PP (ZMod 7)) [1, 0] 1 = commit (⟨1, [2, 3], 2⟩ : PP (ZMod 7)) [0, 1] 0 ∧
    (commit (⟨1, [2, 3], 2⟩ : PP (ZMod 7)) [1, 0] 1).isSome := by decide

end Pedersen

/-! ### C27 -/

namespace DLOGEquality

/-- C27: honest proofs verify, after any transcript prefix, and both sides end with the same transcript. -/
theorem dlogEquality_complete (cv : Curve G) (H : Bytes → ℤ) (x : Instance G) (w a : ℤ) (tr : Bytes)
    (h1 : x.h1 = w • x.g1) (h2 : x.h2 = w • x.g2) :
    verify cv H x tr (prove cv H x w a tr).1 = (true, (prove cv H x w a tr).2) := by
  simp only [verify, Prod.mk.injEq, Bool.and_eq_true, decide_eq_true_eq]
  simp only [prove, and_true, cv.mod_smul, h1, h2]
  constructor <;> module

/-- The challenge used by `Verify`: the hash of the prefix, the instance and the first message. -/
def challenge (cv : Curve G) (H : Bytes → ℤ) (x : Instance G) (tr : Bytes) (A1 A2 : G) : ℤ :=
  H (tr ++ (cv.toBytes x.g1 ++ cv.toBytes x.g2 ++ cv.toBytes x.h1 ++ cv.toBytes x.h2) ++ (cv.toBytes A1 ++ cv.toBytes A2))

/-- C27: special soundness: the extracted exponent solves both equations. -/
theorem dlogEquality_special_sound (cv : Curve G) (H H' : Bytes → ℤ) (x : Instance G) (tr tr' : Bytes) (A1 A2 : G) (z z' : ℤ)
    (h1 : (verify cv H x tr ⟨A1, A2, z⟩).1 = true) (h2 : (verify cv H' x tr' ⟨A1, A2, z'⟩).1 = true)
    (hne : ¬ (cv.order : ℤ) ∣ challenge cv H x tr A1 A2 - challenge cv H' x tr' A1 A2) :
    x.h1 = extract cv z z' (challenge cv H x tr A1 A2) (challenge cv H' x tr' A1 A2) • x.g1 ∧
      x.h2 = extract cv z z' (challenge cv H x tr A1 A2) (challenge cv H' x tr' A1 A2) • x.g2 := by
  simp only [verify, Bool.and_eq_true, decide_eq_true_eq] at h1 h2
  simp only [initTranscript] at h1 h2
  exact ⟨extract_spec cv z z' _ _ _ _ _ h1.1 h2.1 hne, extract_spec cv z z' _ _ _ _ _ h1.2 h2.2 hne⟩

/-- C27: for a false statement with non-zero bases every first message is answerable for at most one challenge modulo the order. -/
theorem dlogEquality_false_statement (cv : Curve G) (H H' : Bytes → ℤ) (x : Instance G) (tr tr' : Bytes) (A1 A2 : G) (z z' : ℤ)
    (hx : ¬ ∃ w : ℤ, x.h1 = w • x.g1 ∧ x.h2 = w • x.g2)
    (h1 : (verify cv H x tr ⟨A1, A2, z⟩).1 = true) (h2 : (verify cv H' x tr' ⟨A1, A2, z'⟩).1 = true) :
    challenge cv H x tr A1 A2 % cv.order = challenge cv H' x tr' A1 A2 % cv.order := by
  by_contra hc
  apply hx
  refine ⟨_, dlogEquality_special_sound cv H H' x tr tr' A1 A2 z z' h1 h2 ?_⟩
  intro hd
  exact hc (Int.emod_eq_emod_iff_emod_sub_eq_zero.2 (Int.emod_eq_zero_of_dvd hd))

/-- C27: simulation: for every instance (true or not), challenge `e` and response `z` there is a first message such that every
hash function answering with `e` makes `Verify` accept. -/
theorem dlogEquality_simulator (cv : Curve G) (x : Instance G) (e z : ℤ) (tr : Bytes) :
    ∃ A1 A2, ∀ H : Bytes → ℤ, challenge cv H x tr A1 A2 = e → (verify cv H x tr ⟨A1, A2, z⟩).1 = true := by
  refine ⟨z • x.g1 - e • x.h1, z • x.g2 - e • x.h2, ?_⟩
  intro H he
  unfold challenge at he
  simp only [verify, Bool.and_eq_true, decide_eq_true_eq]
  simp only [initTranscript, he]
  constructor <;> abel

/-- C27: simulated and honest transcripts coincide: the simulator's first message for the honest response is the honest one. -/
theorem dlogEquality_simulator_exact (cv : Curve G) (H : Bytes → ℤ) (x : Instance G) (w a : ℤ) (tr : Bytes)
    (h1 : x.h1 = w • x.g1) (h2 : x.h2 = w • x.g2) (pf : Proof G) (hpf : pf = (prove cv H x w a tr).1) :
    pf.A1 = pf.z • x.g1 - challenge cv H x tr pf.A1 pf.A2 • x.h1 ∧
    pf.A2 = pf.z • x.g2 - challenge cv H x tr pf.A1 pf.A2 • x.h2 := by
  have := dlogEquality_complete cv H x w a tr h1 h2
  rw [← hpf] at this
  have := congrArg Prod.fst this
  simp only [verify, Bool.and_eq_true, decide_eq_true_eq] at this
  simp only [initTranscript] at this
  unfold challenge
  rw [this.1, this.2]
  constructor <;> abel

/-- Instances of the hypotheses: an accepted pair with different challenges. -/
example : (verify toyCurve (fun _ => 2) ⟨1, 3, 2, 6⟩ [] ⟨5, 3, 4⟩).1 = true ∧
    (verify toyCurve (fun _ => 3) ⟨1, 3, 2, 6⟩ [] ⟨5, 3, 0⟩).1 = true := by decide

end DLOGEquality

/-! ### C28 -/

namespace DLOGKnowledge

/-- C28: completeness. -/
theorem dlogKnowledge_complete (cv : Curve G) (H : Bytes → ℤ) (x : Instance G) (w a : ℤ) (tr : Bytes) (h : x.h = w • x.g) :
    verify cv H x tr (prove cv H x w a tr).1 = (true, (prove cv H x w a tr).2) := by
  simp only [verify, Prod.mk.injEq, decide_eq_true_eq]
  simp only [prove, and_true, cv.mod_smul, h]
  module

/-- The challenge used by `Verify`. -/
def challenge (cv : Curve G) (H : Bytes → ℤ) (x : Instance G) (tr : Bytes) (A : G) : ℤ :=
  H (tr ++ (cv.toBytes x.g ++ cv.toBytes x.h) ++ cv.toBytes A)

/-- C28: special soundness with the explicit witness. -/
theorem dlogKnowledge_special_sound (cv : Curve G) (H H' : Bytes → ℤ) (x : Instance G) (tr tr' : Bytes) (A : G) (z z' : ℤ)
    (h1 : (verify cv H x tr ⟨A, z⟩).1 = true) (h2 : (verify cv H' x tr' ⟨A, z'⟩).1 = true)
    (hne : ¬ (cv.order : ℤ) ∣ challenge cv H x tr A - challenge cv H' x tr' A) :
    x.h = extract cv z z' (challenge cv H x tr A) (challenge cv H' x tr' A) • x.g := by
  simp only [verify, decide_eq_true_eq] at h1 h2
  exact extract_spec cv z z' _ _ _ _ _ h1 h2 hne

/-- C28: simulation. -/
theorem dlogKnowledge_simulator (cv : Curve G) (x : Instance G) (e z : ℤ) (tr : Bytes) :
    ∃ A, ∀ H : Bytes → ℤ, challenge cv H x tr A = e → (verify cv H x tr ⟨A, z⟩).1 = true := by
  refine ⟨z • x.g - e • x.h, ?_⟩
  intro H he
  unfold challenge at he
  simp only [verify, decide_eq_true_eq]
  simp only [he]
  abel

example : (verify toyCurve (fun _ => 2) ⟨1, 3⟩ [] ⟨5, 4⟩).1 = true ∧
    (verify toyCurve (fun _ => 3) ⟨1, 3⟩ [] ⟨5, 0⟩).1 = true := by decide

end DLOGKnowledge

/-! ### C29 -/

namespace PlaintextEquality

theorem conditions_spec (e z : ℤ) (pks As Xs : List G) (cs : List Bool) (h : conditions e z pks As Xs = some cs) :
    cs.all id = true ↔ ∀ (i : Nat) (pk A X : G), pks[i]? = some pk → As[i]? = some A → Xs[i]? = some X → z • pk = A + e • X := by
  induction pks generalizing As Xs cs with
  | nil => simp [conditions] at h; subst h; simp
  | cons pk pks ih =>
    cases As with
    | nil => simp [conditions] at h
    | cons A As =>
      cases Xs with
      | nil => simp [conditions] at h
      | cons X Xs =>
        simp only [conditions, Option.map_eq_some_iff] at h
        obtain ⟨cs', h', rfl⟩ := h
        rw [List.all_cons, Bool.and_eq_true, ih As Xs cs' h']
        simp only [id, decide_eq_true_eq]
        constructor
        · rintro ⟨h0, hr⟩ i
          cases i with
          | zero => intro p a x; simp only [List.getElem?_cons_zero, Option.some.injEq]; rintro rfl rfl rfl; exact h0
          | succ i => intro p a x; simp only [List.getElem?_cons_succ]; exact hr i p a x
        · intro hr
          refine ⟨hr 0 pk A X rfl rfl rfl, ?_⟩
          intro i p a x hp ha hx
          exact hr (i + 1) p a x (by simpa using hp) (by simpa using ha) (by simpa using hx)

theorem conditions_some (e z : ℤ) (pks As Xs : List G) (hA : pks.length ≤ As.length) (hX : pks.length ≤ Xs.length) :
    ∃ cs, conditions e z pks As Xs = some cs := by
  induction pks generalizing As Xs with
  | nil => exact ⟨[], rfl⟩
  | cons pk pks ih =>
    cases As with
    | nil => simp at hA
    | cons A As =>
      cases Xs with
      | nil => simp at hX
      | cons X Xs =>
        obtain ⟨cs, h⟩ := ih As Xs (by simpa using hA) (by simpa using hX)
        exact ⟨decide (z • pk = A + e • X) :: cs, by simp only [conditions, h, Option.map_some]⟩

/-- The challenge used by `Verify` when all vectors have the length of the key vector. -/
def challenge (cv : Curve G) (H : Bytes → ℤ) (x : Instance G) (tr : Bytes) (vecA : List G) (B : G) : ℤ :=
  H (tr ++ (x.vecPk.map cv.toBytes).flatten ++ (x.ct.vecX.map cv.toBytes).flatten ++ cv.toBytes x.ct.Y ++
    (vecA.map cv.toBytes).flatten ++ cv.toBytes B)

omit [DecidableEq G] in
theorem addPoints_full (cv : Curve G) (v : List G) (n : Nat) (tr : Bytes) (h : v.length = n) :
    addPoints cv n v tr = some (tr ++ (v.map cv.toBytes).flatten) := by
  subst h
  simp [addPoints]

/-- With well-shaped input `Verify` is defined and computes the conjunction of the equations. -/
theorem verify_spec (cv : Curve G) (pp : Twisted.PP G) (H : Bytes → ℤ) (x : Instance G) (tr : Bytes) (pf : Proof G)
    (hX : x.ct.vecX.length = x.vecPk.length) (hA : pf.vecA.length = x.vecPk.length) :
    ∃ b tr', verify cv pp H x tr pf = some (b, tr') ∧ (b = true ↔
      (∀ (i : Nat) (pk A X : G), x.vecPk[i]? = some pk → pf.vecA[i]? = some A → x.ct.vecX[i]? = some X →
        pf.z • pk = A + challenge cv H x tr pf.vecA pf.B • X) ∧
      pf.z • pp.g + pf.t • pp.h = pf.B + challenge cv H x tr pf.vecA pf.B • x.ct.Y) ∧
      tr' = tr ++ (x.vecPk.map cv.toBytes).flatten ++ (x.ct.vecX.map cv.toBytes).flatten ++ cv.toBytes x.ct.Y ++
        (pf.vecA.map cv.toBytes).flatten ++ cv.toBytes pf.B := by
  obtain ⟨cs, hcs⟩ := conditions_some (challenge cv H x tr pf.vecA pf.B) pf.z x.vecPk pf.vecA x.ct.vecX (by omega) (by omega)
  refine ⟨(cs ++ [decide (msm [pp.g, pp.h] [pf.z, pf.t] = pf.B + challenge cv H x tr pf.vecA pf.B • x.ct.Y)]).all id, _, ?_, ?_, rfl⟩
  · unfold challenge at *
    simp only [verify, initTranscript, addPoints_full cv x.vecPk _ _ rfl, addPoints_full cv x.ct.vecX _ _ hX,
      addPoints_full cv pf.vecA _ _ hA, Option.bind_eq_bind, Option.bind_some, Option.pure_def, hcs]
  · rw [List.all_append, Bool.and_eq_true, conditions_spec _ _ _ _ _ _ hcs]
    simp [msm_two]

/-- C29: completeness for any number of recipients: honest proofs for `X_i = r·pk_i`, `Y = r·g + v·h` are produced and accepted. -/
theorem plaintextEquality_complete (cv : Curve G) (pp : Twisted.PP G) (H : Bytes → ℤ) (pks : List G) (v r a b : ℤ) (tr : Bytes) :
    ∃ pf tr', prove cv pp H ⟨pks, Twisted.encMulti pp pks v r⟩ v r a b tr = some (pf, tr') ∧
      verify cv pp H ⟨pks, Twisted.encMulti pp pks v r⟩ tr pf = some (true, tr') := by
  have hX : (Twisted.encMulti pp pks v r).vecX.length = pks.length := by simp [Twisted.encMulti]
  have hA : (pks.map fun pk => a • pk).length = pks.length := by simp
  simp only [prove, initTranscript, addPoints_full cv pks _ _ rfl, addPoints_full cv _ _ _ hX, addPoints_full cv _ _ _ hA,
    Option.bind_eq_bind, Option.bind_some, Option.pure_def]
  refine ⟨_, _, rfl, ?_⟩
  generalize hpf : (Proof.mk _ _ _ _ : Proof G) = pf
  have eA : pf.vecA = pks.map fun pk => a • pk := by rw [← hpf]
  have eB : pf.B = msm [pp.g, pp.h] [a, b] := by rw [← hpf]
  obtain ⟨bb, tr', hv, hb, ht⟩ := verify_spec cv pp H ⟨pks, Twisted.encMulti pp pks v r⟩ tr pf hX (by rw [eA]; exact hA)
  rw [hv, ht, eA, eB]
  have : bb = true := by
    rw [hb]
    have ez : pf.z = BigInt.mod (a + challenge cv H ⟨pks, Twisted.encMulti pp pks v r⟩ tr pf.vecA pf.B * r) cv.order := by
      rw [eA, eB, ← hpf]; rfl
    have et : pf.t = BigInt.mod (b + challenge cv H ⟨pks, Twisted.encMulti pp pks v r⟩ tr pf.vecA pf.B * v) cv.order := by
      rw [eA, eB, ← hpf]; rfl
    generalize challenge cv H ⟨pks, Twisted.encMulti pp pks v r⟩ tr pf.vecA pf.B = e at *
    rw [ez, et, eA, eB]
    simp only [cv.mod_smul, msm_two, Twisted.encMulti, List.getElem?_map]
    constructor
    · intro i pk A X h1 h2 h3
      rw [h1] at h2 h3
      simp only [Option.map_some, Option.some.injEq] at h2 h3
      rw [← h2, ← h3]
      module
    · module
  rw [this]

/-- C29: special soundness: the extracted `(r, v)` is the same for every recipient. -/
theorem plaintextEquality_special_sound (cv : Curve G) (pp : Twisted.PP G) (H H' : Bytes → ℤ) (x : Instance G) (tr tr' : Bytes)
    (vecA : List G) (B : G) (z t z' t' : ℤ) (o o' : Bytes)
    (hX : x.ct.vecX.length = x.vecPk.length) (hA : vecA.length = x.vecPk.length)
    (h1 : verify cv pp H x tr ⟨vecA, B, z, t⟩ = some (true, o)) (h2 : verify cv pp H' x tr' ⟨vecA, B, z', t'⟩ = some (true, o'))
    (hne : ¬ (cv.order : ℤ) ∣ challenge cv H x tr vecA B - challenge cv H' x tr' vecA B) :
    x.ct = Twisted.encMulti pp x.vecPk (extract cv t t' (challenge cv H x tr vecA B) (challenge cv H' x tr' vecA B))
      (extract cv z z' (challenge cv H x tr vecA B) (challenge cv H' x tr' vecA B)) := by
  obtain ⟨b1, _, e1, c1, _⟩ := verify_spec cv pp H x tr ⟨vecA, B, z, t⟩ hX hA
  obtain ⟨b2, _, e2, c2, _⟩ := verify_spec cv pp H' x tr' ⟨vecA, B, z', t'⟩ hX hA
  rw [h1] at e1; rw [h2] at e2
  simp only [Option.some.injEq, Prod.mk.injEq] at e1 e2
  rw [← e1.1] at c1; rw [← e2.1] at c2
  obtain ⟨p1, y1⟩ := c1.1 rfl
  obtain ⟨p2, y2⟩ := c2.1 rfl
  have hY := extract_spec2 cv z z' t t' _ _ _ _ _ _ y1 y2 hne
  obtain ⟨pks, vecX, Y⟩ := x
  unfold Twisted.encMulti
  simp only [Twisted.MRCT.mk.injEq] at hY ⊢
  refine ⟨?_, hY⟩
  apply List.ext_getElem (by simp [hX])
  intro i hi hi'
  rw [List.getElem_map]
  have hip : i < pks.length := by simpa using hi'
  exact extract_spec cv z z' _ _ _ _ _
    (p1 i _ _ _ (List.getElem?_eq_getElem hip) (List.getElem?_eq_getElem (hA ▸ hip)) (List.getElem?_eq_getElem hi))
    (p2 i _ _ _ (List.getElem?_eq_getElem hip) (List.getElem?_eq_getElem (hA ▸ hip)) (List.getElem?_eq_getElem hi)) hne

/-- Boundary of C29: a proof with too few first messages makes `Verify` read past the end. -/
theorem plaintextEquality_short_proof_undefined (cv : Curve G) (pp : Twisted.PP G) (H : Bytes → ℤ) (x : Instance G) (tr : Bytes)
    (pf : Proof G) (h : pf.vecA.length < x.vecPk.length) : verify cv pp H x tr pf = none := by
  unfold verify
  cases initTranscript cv x tr with
  | none => rfl
  | some tr => simp [addPoints, h]

/-- Two accepting transcripts with two recipients and different challenges. -/
example : (verify toyCurve ⟨1, 3⟩ (fun _ => 2) ⟨[2, 5], ⟨[4, 3], 3⟩⟩ [] ⟨[2, 5], 4, 5, 4⟩).map Prod.fst = some true ∧
    (verify toyCurve ⟨1, 3⟩ (fun _ => 3) ⟨[2, 5], ⟨[4, 3], 3⟩⟩ [] ⟨[2, 5], 4, 0, 2⟩).map Prod.fst = some true := by decide

end PlaintextEquality

/-! ### C30 -/

namespace PlaintextKnowledge

/-- C30: completeness. -/
theorem plaintextKnowledge_complete (cv : Curve G) (pp : Twisted.PP G) (H : Bytes → ℤ) (pk : G) (v r a b : ℤ) (tr : Bytes) :
    verify cv pp H ⟨pk, Twisted.enc pp pk v r⟩ tr (prove cv pp H ⟨pk, Twisted.enc pp pk v r⟩ v r a b tr).1 =
      (true, (prove cv pp H ⟨pk, Twisted.enc pp pk v r⟩ v r a b tr).2) := by
  simp only [verify, Prod.mk.injEq, Bool.and_eq_true, decide_eq_true_eq]
  simp only [prove, and_true, cv.mod_smul, msm_two, Twisted.enc]
  constructor <;> module

/-- The challenge used by `Verify`. -/
def challenge (cv : Curve G) (H : Bytes → ℤ) (x : Instance G) (tr : Bytes) (A B : G) : ℤ :=
  H (tr ++ (cv.toBytes x.pk ++ cv.toBytes x.ct.X ++ cv.toBytes x.ct.Y) ++ (cv.toBytes A ++ cv.toBytes B))

/-- C30: special soundness: the extracted randomness and plaintext open the ciphertext. -/
theorem plaintextKnowledge_special_sound (cv : Curve G) (pp : Twisted.PP G) (H H' : Bytes → ℤ) (x : Instance G) (tr tr' : Bytes)
    (A B : G) (z1 z2 z1' z2' : ℤ)
    (h1 : (verify cv pp H x tr ⟨A, B, z1, z2⟩).1 = true) (h2 : (verify cv pp H' x tr' ⟨A, B, z1', z2'⟩).1 = true)
    (hne : ¬ (cv.order : ℤ) ∣ challenge cv H x tr A B - challenge cv H' x tr' A B) :
    x.ct = Twisted.enc pp x.pk (extract cv z2 z2' (challenge cv H x tr A B) (challenge cv H' x tr' A B))
      (extract cv z1 z1' (challenge cv H x tr A B) (challenge cv H' x tr' A B)) := by
  simp only [verify, Bool.and_eq_true, decide_eq_true_eq] at h1 h2
  simp only [msm_two] at h1 h2
  have e1 := extract_spec cv z1 z1' (challenge cv H x tr A B) (challenge cv H' x tr' A B) _ _ _ h1.1 h2.1 hne
  have e2 := extract_spec2 cv z1 z1' z2 z2' (challenge cv H x tr A B) (challenge cv H' x tr' A B) _ _ _ _ h1.2 h2.2 hne
  unfold Twisted.enc
  rw [msm_two, ← e1, ← e2]

/-- C30: simulation. -/
theorem plaintextKnowledge_simulator (cv : Curve G) (pp : Twisted.PP G) (x : Instance G) (e z1 z2 : ℤ) (tr : Bytes) :
    ∃ A B, ∀ H : Bytes → ℤ, challenge cv H x tr A B = e → (verify cv pp H x tr ⟨A, B, z1, z2⟩).1 = true := by
  refine ⟨z1 • x.pk - e • x.ct.X, z1 • pp.g + z2 • pp.h - e • x.ct.Y, ?_⟩
  intro H he
  unfold challenge at he
  simp only [verify, Bool.and_eq_true, decide_eq_true_eq]
  simp only [he, msm_two]
  constructor <;> abel

example : (verify toyCurve ⟨1, 3⟩ (fun _ => 2) ⟨2, ⟨4, 3⟩⟩ [] ⟨2, 4, 5, 4⟩).1 = true ∧
    (verify toyCurve ⟨1, 3⟩ (fun _ => 3) ⟨2, ⟨4, 3⟩⟩ [] ⟨2, 4, 0, 2⟩).1 = true := by decide

end PlaintextKnowledge

/-! ### C31 -/

/-- C31 for the two discrete-log proofs: the byte string determines the proof (non-negative responses, injective fixed-length
point encoding). Missing: the two plaintext proofs, where it is false. -/
theorem proof_bytes_determine_proof_partial (cv : Curve G) (L : Nat) (hL : ∀ P, (cv.toBytes P).length = L)
    (hinj : Function.Injective cv.toBytes) :
    (∀ p p' : DLOGEquality.Proof G, 0 ≤ p.z → 0 ≤ p'.z →
      DLOGEquality.proofToByteString cv p = DLOGEquality.proofToByteString cv p' → p = p') ∧
    (∀ p p' : DLOGKnowledge.Proof G, 0 ≤ p.z → 0 ≤ p'.z →
      DLOGKnowledge.proofToByteString cv p = DLOGKnowledge.proofToByteString cv p' → p = p') := by
  have hz : ∀ z z' : ℤ, 0 ≤ z → 0 ≤ z' → BigInt.toByteString z = BigInt.toByteString z' → z = z' := by
    intro z z' h h' he
    obtain ⟨n, rfl⟩ := Int.eq_ofNat_of_zero_le h
    obtain ⟨n', rfl⟩ := Int.eq_ofNat_of_zero_le h'
    have := congrArg BigInt.fromByteVector he
    rwa [BigInt.bigint_byteString_round_trip, BigInt.bigint_byteString_round_trip] at this
  constructor
  · rintro ⟨A1, A2, z⟩ ⟨A1', A2', z'⟩ h0 h0' h
    simp only [DLOGEquality.proofToByteString, List.append_assoc] at h
    obtain ⟨e1, h⟩ := List.append_inj h (by rw [hL, hL])
    obtain ⟨e2, h⟩ := List.append_inj h (by rw [hL, hL])
    rw [hinj e1, hinj e2, hz z z' h0 h0' h]
  · rintro ⟨A, z⟩ ⟨A', z'⟩ h0 h0' h
    simp only [DLOGKnowledge.proofToByteString] at h
    obtain ⟨e1, h⟩ := List.append_inj h (by rw [hL, hL])
    rw [hinj e1, hz z z' h0 h0' h]

example : (∀ P, (toyCurve.toBytes P).length = 1) ∧ Function.Injective toyCurve.toBytes := by decide

/-- C31 is violated for plaintext equality: the responses and `B` do not appear at all, so any two proofs with the same `vec_A` have
the same string. -/
theorem plaintextEquality_bytes_drop_fields (cv : Curve G) (vecA : List G) (B B' : G) (z t z' t' : ℤ) :
    PlaintextEquality.proofToByteString cv ⟨vecA, B, z, t⟩ = PlaintextEquality.proofToByteString cv ⟨vecA, B', z', t'⟩ := rfl

/-- C31 is violated for plaintext knowledge: the two responses have variable length and no separator. -/
theorem plaintextKnowledge_bytes_ambiguous (cv : Curve G) (A B : G) :
    PlaintextKnowledge.proofToByteString cv ⟨A, B, 0x0102, 3⟩ = PlaintextKnowledge.proofToByteString cv ⟨A, B, 1, 0x0203⟩ ∧
    (⟨A, B, 0x0102, 3⟩ : PlaintextKnowledge.Proof G) ≠ ⟨A, B, 1, 0x0203⟩ := by
  constructor
  · simp only [PlaintextKnowledge.proofToByteString]
    rw [List.append_assoc, List.append_assoc _ (BigInt.toByteString 1), BigInt.bigint_byteString_concat_ambiguous]
  · intro h; simp at h

end Kunlun
