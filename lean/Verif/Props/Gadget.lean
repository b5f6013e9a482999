import Verif.Model.BulletInt
import Verif.Model.Gadget
import Verif.Props.Pke
import Verif.Props.Sigma
/-!
C40: the interval gadget.
-/

namespace Kunlun.Gadget

variable {G : Type} [AddCommGroup G] [DecidableEq G]

/-- C40: for bounds `0 ≤ LEFT ≤ RIGHT ≤ 2^n`, a value is in `[LEFT, RIGHT)` exactly when both values handed to the range proof are in
`[0, 2^n)`. -/
theorem gadget_interval_exact (n : Nat) (L R x : ℤ) (h0 : 0 ≤ L) (hR : R ≤ 2 ^ n) :
    (L ≤ x ∧ x < R) ↔ ∀ w ∈ adjustWitness n L R x x, 0 ≤ w ∧ w < 2 ^ n := by
  simp only [adjustWitness, List.mem_cons, List.not_mem_nil, or_false, forall_eq_or_imp, forall_eq]
  constructor
  · rintro ⟨h1, h2⟩
    refine ⟨⟨?_, ?_⟩, ?_, ?_⟩ <;> linarith
  · rintro ⟨⟨h1, -⟩, -, h4⟩
    constructor <;> linarith

/-- C40: what `CheckRange` accepts, together with `0 ≤ LEFT`, is what the exactness needs. -/
theorem gadget_checkRange (L R : ℤ) (n : Nat) : checkRange L R n = true ↔ L ≤ R ∧ R ≤ 2 ^ n := by
  simp [checkRange]

/-- C40: the adjusted commitments open to the adjusted values, with unchanged randomness. -/
theorem gadget_commitments_open (pp : PP G) (L R r m : ℤ) (hg : pp.bullet.g = pp.enc.g) (hh : pp.bullet.h = pp.enc.h) (pk : G) :
    adjustInstance pp.bullet L R (Twisted.enc pp.enc pk m r).Y (Twisted.enc pp.enc pk m r).Y =
      List.zipWith (fun (a b : ℤ) => a • pp.bullet.g + b • pp.bullet.h) [r, r] (adjustWitness pp.bullet.rangeLen L R m m) := by
  simp only [adjustInstance, adjustWitness, Twisted.enc, msm_two, List.zipWith_cons_cons, List.zipWith_nil_right, hg, hh]
  congr 1
  · module
  · congr 1
    module

/-- The transcript with which the range proof of a type-1 proof starts. -/
def bulletTranscript1 (cv : Curve G) (H : Bytes → ℤ) (pp : PP G) (x : Instance G) (tr : Bytes) (pf : Proof1 G) : Bytes :=
  (PlaintextKnowledge.verify cv pp.enc H ⟨x.pk, x.ct⟩ tr pf.ptke).2

/-- The transcript with which the range proof of a type-2 proof starts. -/
def bulletTranscript2 (cv : Curve G) (H : Bytes → ℤ) (pp : PP G) (x : Instance G) (tr : Bytes) (pf : Proof2 G) : Bytes :=
  (PlaintextKnowledge.verify cv pp.enc H ⟨x.pk, pf.refresh⟩ (DLOGEquality.verify cv H (refreshInstance pp x pf.refresh) tr pf.dlogeq).2
    pf.ptke).2

/-- The parameters fit a two-commitment range proof: enough generators, both bases agree with the encryption. -/
structure Sized (pp : PP G) (c : Bullet.Coins) (k : Nat) : Prop where
  base_g : pp.bullet.g = pp.enc.g
  base_h : pp.bullet.h = pp.enc.h
  pow : pp.bullet.rangeLen * 2 = 2 ^ k
  small : k < 64
  lenG : pp.bullet.rangeLen * 2 ≤ pp.bullet.vecG.length
  lenH : pp.bullet.rangeLen * 2 ≤ pp.bullet.vecH.length
  lenL : c.sL.length = pp.bullet.rangeLen * 2
  lenR : c.sR.length = pp.bullet.rangeLen * 2

/-- The two bit-decompositions, on any transcript: used for both proof types. -/
theorem bullet_part (cv : Curve G) (H : Bytes → ℤ) (pp : PP G) (c : Bullet.Coins) (k : Nat) (hs : Sized pp c k) (hh : pp.enc.h ≠ 0)
    (pk : G) (L R r m : ℤ) (tr : Bytes) :
    ∃ pf tr', Bullet.prove cv H pp.bullet 2 [r, r] (adjustWitness pp.bullet.rangeLen L R m m) c tr = some (pf, tr') ∧
      (Bullet.Good cv H pf tr → ∀ s,
        let z := H (tr ++ cv.toBytes pf.A ++ cv.toBytes pf.S)
        Bullet.fastVerify cv H pp.bullet (adjustInstance pp.bullet L R (Twisted.enc pp.enc pk m r).Y (Twisted.enc pp.enc pk m r).Y)
          s tr pf = some (decide ((cv.order : ℤ) ∣ s * z ^ 2 * (Bullet.excess pp.bullet.rangeLen (m - L) +
            z * Bullet.excess pp.bullet.rangeLen (m + (2 ^ pp.bullet.rangeLen - R)))), tr')) := by
  obtain ⟨pf, tr', hp, hf⟩ := Bullet.honest_int_iff cv H pp.bullet 2 k [r, r] (adjustWitness pp.bullet.rangeLen L R m m) c tr
    hs.pow hs.small hs.lenG hs.lenH rfl rfl hs.lenL hs.lenR
  refine ⟨pf, tr', hp, fun hgood s => ?_⟩
  intro z
  have h2 := (hf hgood).2 s
  rw [gadget_commitments_open pp L R r m hs.base_g hs.base_h pk, h2]
  congr 2
  rw [decide_eq_decide, smul_smul, cv.smul_eq_zero_iff _ _ (by rw [hs.base_h]; exact hh)]
  simp only [Finset.sum_range_succ, Finset.sum_range_zero, adjustWitness, List.getElem?_cons_zero, List.getElem?_cons_succ,
    Option.getD_some, zero_add, sub_zero]
  have : ∀ a b : ℤ, a = b → ((cv.order : ℤ) ∣ a ↔ (cv.order : ℤ) ∣ b) := by rintro a b rfl; rfl
  apply this
  simp only [z]
  ring

/-- C40, type 1, exact form: an honest prover encrypting `m` (in the interval or not) gives a proof which `Verify` accepts, for drawn
scalar `s`, exactly when `q ∣ s z² (e₀ + z e₁)` with `e₀, e₁` the excesses of the two shifted values over `[0, 2^n)`. -/
theorem gadget_type1_honest (cv : Curve G) (H : Bytes → ℤ) (pp : PP G) (c : Bullet.Coins) (k : Nat) (hs : Sized pp c k)
    (hh : pp.enc.h ≠ 0) (pk : G) (L R r m a b : ℤ) (tr : Bytes) (hc : checkRange L R pp.bullet.rangeLen = true) :
    ∃ pf tr', prove1 cv H pp ⟨pk, Twisted.enc pp.enc pk m r⟩ L R r m a b c tr = some (pf, tr') ∧
      (let tb := bulletTranscript1 cv H pp ⟨pk, Twisted.enc pp.enc pk m r⟩ tr pf
      Bullet.Good cv H pf.bullet tb → ∀ s,
        let z := H (tb ++ cv.toBytes pf.bullet.A ++ cv.toBytes pf.bullet.S)
        verify1 cv H pp ⟨pk, Twisted.enc pp.enc pk m r⟩ L R s tr pf =
          some (decide ((cv.order : ℤ) ∣ s * z ^ 2 * (Bullet.excess pp.bullet.rangeLen (m - L) +
            z * Bullet.excess pp.bullet.rangeLen (m + (2 ^ pp.bullet.rangeLen - R)))), tr')) := by
  have hpk := PlaintextKnowledge.plaintextKnowledge_complete cv pp.enc H pk m r a b tr
  generalize hP : PlaintextKnowledge.prove cv pp.enc H ⟨pk, Twisted.enc pp.enc pk m r⟩ m r a b tr = P at hpk
  obtain ⟨bpf, tr', hp, hf⟩ := bullet_part cv H pp c k hs hh pk L R r m P.2
  refine ⟨⟨P.1, bpf⟩, tr', ?_, ?_⟩
  · unfold prove1
    simp only [hc, hP]
    simp only [adjustInstance, List.length_cons, List.length_nil, Nat.zero_add, Nat.reduceAdd, hp]
    simp
  · dsimp only
    unfold bulletTranscript1
    simp only [hpk]
    intro hgood s
    unfold verify1
    simp only [hpk, hf hgood s]
    simp

/-- C40, type 1: a value in `[LEFT, RIGHT)` with `0 ≤ LEFT ≤ RIGHT ≤ 2^n`: the honest proof is accepted whatever scalar the verifier
draws. -/
theorem gadget_type1_complete (cv : Curve G) (H : Bytes → ℤ) (pp : PP G) (c : Bullet.Coins) (k : Nat) (hs : Sized pp c k)
    (hh : pp.enc.h ≠ 0) (pk : G) (L R r m a b : ℤ) (tr : Bytes) (h0 : 0 ≤ L) (hR : R ≤ 2 ^ pp.bullet.rangeLen) (hm : L ≤ m ∧ m < R) :
    ∃ pf tr', prove1 cv H pp ⟨pk, Twisted.enc pp.enc pk m r⟩ L R r m a b c tr = some (pf, tr') ∧
      (Bullet.Good cv H pf.bullet (bulletTranscript1 cv H pp ⟨pk, Twisted.enc pp.enc pk m r⟩ tr pf) → ∀ s,
        verify1 cv H pp ⟨pk, Twisted.enc pp.enc pk m r⟩ L R s tr pf = some (true, tr')) := by
  obtain ⟨pf, tr', hp, hf⟩ := gadget_type1_honest cv H pp c k hs hh pk L R r m a b tr
    ((gadget_checkRange L R _).2 ⟨by omega, hR⟩)
  refine ⟨pf, tr', hp, fun hgood s => ?_⟩
  rw [hf hgood s]
  have hex := (gadget_interval_exact pp.bullet.rangeLen L R m h0 hR).1 hm
  simp only [adjustWitness, List.mem_cons, List.not_mem_nil, or_false, forall_eq_or_imp, forall_eq, sub_zero] at hex
  rw [(Bullet.excess_eq_zero_iff _ _).2 hex.1, (Bullet.excess_eq_zero_iff _ _).2 hex.2]
  simp

/-- C40, type 1: a value outside the interval, in the honest prover's own run: both excesses are integers of which at least one is not
zero, so the proof is rejected unless `z` is the one exceptional challenge (or `s ≡ 0`). -/
theorem gadget_type1_rejects (cv : Curve G) (H : Bytes → ℤ) (pp : PP G) (c : Bullet.Coins) (k : Nat) (hs : Sized pp c k)
    (hh : pp.enc.h ≠ 0) (pk : G) (L R r m a b : ℤ) (tr : Bytes) (h0 : 0 ≤ L) (hLR : L ≤ R) (hR : R ≤ 2 ^ pp.bullet.rangeLen)
    (hm : ¬ (L ≤ m ∧ m < R)) :
    ∃ pf tr' e0 e1, (e0 ≠ 0 ∨ e1 ≠ 0) ∧ prove1 cv H pp ⟨pk, Twisted.enc pp.enc pk m r⟩ L R r m a b c tr = some (pf, tr') ∧
      (let tb := bulletTranscript1 cv H pp ⟨pk, Twisted.enc pp.enc pk m r⟩ tr pf
      let z := H (tb ++ cv.toBytes pf.bullet.A ++ cv.toBytes pf.bullet.S)
      Bullet.Good cv H pf.bullet tb → ∀ s, ¬ (cv.order : ℤ) ∣ s → ¬ (cv.order : ℤ) ∣ z → ¬ (cv.order : ℤ) ∣ e0 + z * e1 →
        verify1 cv H pp ⟨pk, Twisted.enc pp.enc pk m r⟩ L R s tr pf = some (false, tr')) ∧
      (e0 = Bullet.excess pp.bullet.rangeLen (m - L) ∧ e1 = Bullet.excess pp.bullet.rangeLen (m + (2 ^ pp.bullet.rangeLen - R))) := by
  obtain ⟨pf, tr', hp, hf⟩ := gadget_type1_honest cv H pp c k hs hh pk L R r m a b tr
    ((gadget_checkRange L R _).2 ⟨hLR, hR⟩)
  refine ⟨pf, tr', _, _, ?_, hp, ?_, rfl, rfl⟩
  · by_contra hc
    push Not at hc
    apply hm
    rw [gadget_interval_exact pp.bullet.rangeLen L R m h0 hR]
    simp only [adjustWitness, List.mem_cons, List.not_mem_nil, or_false, forall_eq_or_imp, forall_eq, sub_zero]
    exact ⟨(Bullet.excess_eq_zero_iff _ _).1 hc.1, (Bullet.excess_eq_zero_iff _ _).1 hc.2⟩
  · intro tb z hgood s hs' hz he
    rw [hf hgood s]
    have hprime : Prime (cv.order : ℤ) := Nat.prime_iff_prime_int.1 cv.prime
    have : ¬ (cv.order : ℤ) ∣ s * z ^ 2 * (Bullet.excess pp.bullet.rangeLen (m - L) +
            z * Bullet.excess pp.bullet.rangeLen (m + (2 ^ pp.bullet.rangeLen - R))) := by
      intro hd
      rcases hprime.dvd_or_dvd hd with hd | hd
      · rcases hprime.dvd_or_dvd hd with hd | hd
        · exact hs' hd
        · exact hz (hprime.dvd_of_dvd_pow hd)
      · exact he hd
    simp only [decide_eq_false this, tb, z] at this ⊢

/-- Re-encryption gives a fresh encryption of the plaintext, with known randomness. -/
theorem reEnc_eq_enc (cv : Curve G) (pp : Twisted.PP G) (pk : G) (sk m r : ℤ) (ct : CT G) (h : Twisted.Holds cv pp sk ct m) :
    Twisted.reEnc cv pp pk sk ct r = Twisted.enc pp pk m r := by
  unfold Twisted.Holds Twisted.decPoint at h
  simp only [Twisted.reEnc, Twisted.enc, msm_two, h]

/-- The secret key is the common exponent of the refreshing statement. -/
theorem refresh_statement (cv : Curve G) (pp : Twisted.PP G) (sk m r : ℤ) (hsk : ¬ (cv.order : ℤ) ∣ sk) (ct : CT G)
    (h : Twisted.Holds cv pp sk ct m) :
    (Twisted.enc pp (Twisted.keyGen pp sk) m r).X - ct.X = sk • ((Twisted.enc pp (Twisted.keyGen pp sk) m r).Y - ct.Y) := by
  unfold Twisted.Holds Twisted.decPoint at h
  have h1 : sk • BigInt.modInverse sk cv.order • ct.X = ct.X := by
    rw [smul_comm]; exact Twisted.inv_smul_smul cv sk hsk ct.X
  have h2 : ct.Y = m • pp.h + BigInt.modInverse sk cv.order • ct.X := by rw [← h]; abel
  simp only [Twisted.enc, Twisted.keyGen, msm_two]
  conv_rhs => rw [h2]
  rw [smul_sub, smul_add, smul_add, h1]
  module

/-- C40, type 2: the holder of the secret key proves that the ciphertext's value lies in the interval, not knowing its randomness. -/
theorem gadget_type2_complete (cv : Curve G) (H : Bytes → ℤ) (pp : PP G) (env : DecEnv G) (sched : List (Nat × Bool)) (m : Nat)
    (hready : Ready cv env pp.enc.h sched m) (hmn : m < 2 ^ env.msgLen) (c : Bullet.Coins) (k : Nat) (hs : Sized pp c k)
    (sk : ℤ) (hsk : ¬ (cv.order : ℤ) ∣ sk) (ct : CT G) (L R rStar w a b : ℤ) (tr : Bytes)
    (hct : Twisted.Holds cv pp.enc sk ct m) (h0 : 0 ≤ L) (hR : R ≤ 2 ^ pp.bullet.rangeLen) (hm : L ≤ m ∧ (m : ℤ) < R) :
    ∃ pf tr', prove2 cv H pp env sched ⟨Twisted.keyGen pp.enc sk, ct⟩ L R sk rStar w a b c tr = some (pf, tr') ∧
      (Bullet.Good cv H pf.bullet (bulletTranscript2 cv H pp ⟨Twisted.keyGen pp.enc sk, ct⟩ tr pf) → ∀ s,
        verify2 cv H pp ⟨Twisted.keyGen pp.enc sk, ct⟩ L R s tr pf = some (true, tr')) := by
  generalize hpk : Twisted.keyGen pp.enc sk = pk
  have hdec : Twisted.dec cv env sched sk ct = some (m : ℤ) := search_finds cv env pp.enc.h sched m hready hmn _ hct
  have hre := reEnc_eq_enc cv pp.enc pk sk m rStar ct hct
  have hst := refresh_statement cv pp.enc sk m rStar hsk ct hct
  rw [hpk] at hst
  generalize hrf : Twisted.enc pp.enc pk m rStar = rf at hst hre
  have hd := DLOGEquality.dlogEquality_complete cv H (refreshInstance pp ⟨pk, ct⟩ rf) sk w tr
    (by simp only [refreshInstance]; rw [← hpk]; rfl) (by simp only [refreshInstance]; exact hst)
  generalize hD : DLOGEquality.prove cv H (refreshInstance pp ⟨pk, ct⟩ rf) sk w tr = D at hd
  have hp := PlaintextKnowledge.plaintextKnowledge_complete cv pp.enc H pk m rStar a b D.2
  rw [hrf] at hp
  generalize hP : PlaintextKnowledge.prove cv pp.enc H ⟨pk, rf⟩ m rStar a b D.2 = P at hp
  obtain ⟨bpf, tr', hb, hf⟩ := bullet_part cv H pp c k hs hready.ne pk L R rStar m P.2
  rw [hrf] at hf
  refine ⟨⟨rf, D.1, P.1, bpf⟩, tr', ?_, ?_⟩
  · unfold prove2
    simp only [(gadget_checkRange L R pp.bullet.rangeLen).2 ⟨by omega, hR⟩, hdec, hre, hD, hP]
    simp only [Option.bind_eq_bind, Option.bind_some, hD, hP]
    simp only [adjustInstance, List.length_cons, List.length_nil, Nat.zero_add, Nat.reduceAdd, hb]
    simp
  · unfold bulletTranscript2
    simp only [hd, hp]
    intro hgood s
    unfold verify2
    simp only [hd, hp, hf hgood s]
    have hex := (gadget_interval_exact pp.bullet.rangeLen L R m h0 hR).1 hm
    simp only [adjustWitness, List.mem_cons, List.not_mem_nil, or_false, forall_eq_or_imp, forall_eq, sub_zero] at hex
    rw [(Bullet.excess_eq_zero_iff _ _).2 hex.1, (Bullet.excess_eq_zero_iff _ _).2 hex.2]
    simp

/-- C40, soundness of the reduction in the group: the ciphertext opens to `(r, m)`, the two adjusted commitments to `(r₀, a)`, `(r₁, b)` with
`a, b ∈ [0, 2^n)`. Then `m mod q` lies in the interval, unless two of the openings give a discrete-logarithm relation between `g` and
`h`, which is written out. -/
theorem gadget_interval_sound (cv : Curve G) (pp : PP G) (L R r m r0 a r1 b : ℤ) (Y : G)
    (hq : 2 ^ (pp.bullet.rangeLen + 1) ≤ cv.order) (h0 : 0 ≤ L) (hLR : L ≤ R) (hR : R ≤ 2 ^ pp.bullet.rangeLen)
    (hY : Y = r • pp.bullet.g + m • pp.bullet.h)
    (hC : adjustInstance pp.bullet L R Y Y = [r0 • pp.bullet.g + a • pp.bullet.h, r1 • pp.bullet.g + b • pp.bullet.h])
    (ha : 0 ≤ a ∧ a < 2 ^ pp.bullet.rangeLen) (hb : 0 ≤ b ∧ b < 2 ^ pp.bullet.rangeLen) :
    (L ≤ m % cv.order ∧ m % cv.order < R) ∨
    ((r - r0) • pp.bullet.g = (a - (m - L)) • pp.bullet.h ∧ ¬ (cv.order : ℤ) ∣ a - (m - L)) ∨
    ((r - r1) • pp.bullet.g = (b - (m + 2 ^ pp.bullet.rangeLen - R)) • pp.bullet.h ∧
      ¬ (cv.order : ℤ) ∣ b - (m + 2 ^ pp.bullet.rangeLen - R)) := by
  simp only [adjustInstance, List.cons.injEq, and_true] at hC
  obtain ⟨hC0, hC1⟩ := hC
  have e0 : (r - r0) • pp.bullet.g = (a - (m - L)) • pp.bullet.h := by
    rw [hY] at hC0
    have : (r - r0) • pp.bullet.g - (a - (m - L)) • pp.bullet.h =
        (r • pp.bullet.g + m • pp.bullet.h - (L - 0) • pp.bullet.h) - (r0 • pp.bullet.g + a • pp.bullet.h) := by module
    rw [hC0, sub_self] at this
    exact sub_eq_zero.1 this
  have e1 : (r - r1) • pp.bullet.g = (b - (m + 2 ^ pp.bullet.rangeLen - R)) • pp.bullet.h := by
    rw [hY] at hC1
    have : (r - r1) • pp.bullet.g - (b - (m + 2 ^ pp.bullet.rangeLen - R)) • pp.bullet.h =
        (r • pp.bullet.g + m • pp.bullet.h + (2 ^ pp.bullet.rangeLen - R) • pp.bullet.h) - (r1 • pp.bullet.g + b • pp.bullet.h) := by
      module
    rw [hC1, sub_self] at this
    exact sub_eq_zero.1 this
  by_cases d0 : (cv.order : ℤ) ∣ a - (m - L)
  · by_cases d1 : (cv.order : ℤ) ∣ b - (m + 2 ^ pp.bullet.rangeLen - R)
    · left
      have hq' : (2 : ℤ) ^ (pp.bullet.rangeLen + 1) ≤ cv.order := by exact_mod_cast hq
      rw [pow_succ] at hq'
      generalize (2 : ℤ) ^ pp.bullet.rangeLen = N at *
      have hd : (cv.order : ℤ) ∣ (b - a) - (N - R + L) := by
        have := dvd_sub d1 d0
        have e : b - (m + N - R) - (a - (m - L)) = (b - a) - (N - R + L) := by ring
        rwa [e] at this
      have hz : (b - a) - (N - R + L) = 0 := by
        apply Int.eq_zero_of_abs_lt_dvd hd
        rw [abs_lt]
        constructor <;> linarith
      have hm : m % cv.order = a + L := by
        have hd' : (cv.order : ℤ) ∣ m - (a + L) := by
          have := (dvd_neg (α := ℤ)).2 d0
          have e : -(a - (m - L)) = m - (a + L) := by ring
          rwa [e] at this
        rw [Int.emod_eq_emod_iff_emod_sub_eq_zero.2 (Int.emod_eq_zero_of_dvd hd')]
        apply Int.emod_eq_of_lt <;> linarith
      rw [hm]
      constructor <;> linarith
    · exact Or.inr (Or.inr ⟨e1, d1⟩)
  · exact Or.inr (Or.inl ⟨e0, d0⟩)

/-- Equal exponent on the differences of two ciphertexts: they have the same plaintext point. -/
theorem same_plaintext (cv : Curve G) (w : ℤ) (hw : ¬ (cv.order : ℤ) ∣ w) (c c' : CT G) (h : c'.X - c.X = w • (c'.Y - c.Y)) :
    Twisted.decPoint cv w c' = Twisted.decPoint cv w c := by
  unfold Twisted.decPoint
  have h1 := Twisted.inv_smul_smul cv w hw (c'.Y - c.Y)
  rw [← h, smul_sub] at h1
  rw [sub_eq_sub_iff_add_eq_add]
  have : c'.Y + BigInt.modInverse w cv.order • c.X - (c.Y + BigInt.modInverse w cv.order • c'.X) =
      (c'.Y - c.Y) - (BigInt.modInverse w cv.order • c'.X - BigInt.modInverse w cv.order • c.X) := by abel
  rw [h1, sub_self] at this
  exact sub_eq_zero.1 this

/-- C40, type 2, soundness of the refreshing step: two accepting refreshing proofs with different challenges yield the secret key of `pk`,
and under it the refreshed ciphertext has the plaintext of the original one. -/
theorem gadget_type2_refresh_sound (cv : Curve G) (H H' : Bytes → ℤ) (pp : PP G) (x : Instance G) (refresh : CT G) (tr tr' : Bytes)
    (A1 A2 : G) (z z' : ℤ) (h1 : (DLOGEquality.verify cv H (refreshInstance pp x refresh) tr ⟨A1, A2, z⟩).1 = true)
    (h2 : (DLOGEquality.verify cv H' (refreshInstance pp x refresh) tr' ⟨A1, A2, z'⟩).1 = true) (hpk : x.pk ≠ 0) :
    let e := DLOGEquality.challenge cv H (refreshInstance pp x refresh) tr A1 A2
    let e' := DLOGEquality.challenge cv H' (refreshInstance pp x refresh) tr' A1 A2
    let w := extract cv z z' e e'
    ¬ (cv.order : ℤ) ∣ e - e' → x.pk = w • pp.enc.g ∧ Twisted.decPoint cv w refresh = Twisted.decPoint cv w x.ct := by
  intro e e' w hne
  obtain ⟨a1, a2⟩ := DLOGEquality.dlogEquality_special_sound cv H H' (refreshInstance pp x refresh) tr tr' A1 A2 z z' h1 h2 hne
  refine ⟨a1, same_plaintext cv w ?_ x.ct refresh a2⟩
  intro hd
  apply hpk
  obtain ⟨d, hd'⟩ := hd
  have : x.pk = w • pp.enc.g := a1
  rw [this, hd', mul_comm, mul_smul]
  have := cv.smul_order pp.enc.g
  rw [Nat.cast_smul_eq_nsmul, this, smul_zero]

/-- What an accepted type 1 proof contains. -/
theorem verify1_parts (cv : Curve G) (H : Bytes → ℤ) (pp : PP G) (x : Instance G) (L R s : ℤ) (tr tr' : Bytes) (pf : Proof1 G)
    (h : verify1 cv H pp x L R s tr pf = some (true, tr')) :
    (PlaintextKnowledge.verify cv pp.enc H ⟨x.pk, x.ct⟩ tr pf.ptke).1 = true ∧
    ∃ tr1, Bullet.fastVerify cv H pp.bullet (adjustInstance pp.bullet L R x.ct.Y x.ct.Y) s
      (PlaintextKnowledge.verify cv pp.enc H ⟨x.pk, x.ct⟩ tr pf.ptke).2 pf.bullet = some (true, tr1) := by
  unfold verify1 at h
  simp only [Option.bind_eq_bind] at h
  cases e : Bullet.fastVerify cv H pp.bullet (adjustInstance pp.bullet L R x.ct.Y x.ct.Y) s
      (PlaintextKnowledge.verify cv pp.enc H ⟨x.pk, x.ct⟩ tr pf.ptke).2 pf.bullet with
  | none => rw [e] at h; simp at h
  | some q =>
    rw [e] at h
    obtain ⟨v, t⟩ := q
    simp only [Option.bind_some, Option.pure_def, Option.some.injEq, Prod.mk.injEq, Bool.and_eq_true] at h
    exact ⟨h.1.1, t, by rw [h.1.2]⟩

/-- C40, type 1, soundness of the knowledge part: two accepted gadget proofs with the same first message and different challenges yield the
plaintext and randomness of the ciphertext whose second component is the commitment handed (shifted) to the range proof. -/
theorem gadget_type1_extracts (cv : Curve G) (H H' : Bytes → ℤ) (pp : PP G) (x : Instance G) (L R s s' : ℤ) (tr tr' t t' : Bytes)
    (A B : G) (z1 z2 z1' z2' : ℤ) (bp bp' : Bullet.Proof G)
    (h1 : verify1 cv H pp x L R s tr ⟨⟨A, B, z1, z2⟩, bp⟩ = some (true, t))
    (h2 : verify1 cv H' pp x L R s' tr' ⟨⟨A, B, z1', z2'⟩, bp'⟩ = some (true, t')) :
    let e := PlaintextKnowledge.challenge cv H ⟨x.pk, x.ct⟩ tr A B
    let e' := PlaintextKnowledge.challenge cv H' ⟨x.pk, x.ct⟩ tr' A B
    let m := extract cv z2 z2' e e'
    let r := extract cv z1 z1' e e'
    ¬ (cv.order : ℤ) ∣ e - e' → x.ct.X = r • x.pk ∧ x.ct.Y = r • pp.enc.g + m • pp.enc.h := by
  intro e e' m r hne
  have := PlaintextKnowledge.plaintextKnowledge_special_sound cv pp.enc H H' ⟨x.pk, x.ct⟩ tr tr' A B z1 z2 z1' z2'
    (verify1_parts cv H pp x L R s tr t _ h1).1 (verify1_parts cv H' pp x L R s' tr' t' _ h2).1 hne
  have h3 : x.ct = Twisted.enc pp.enc x.pk m r := this
  rw [h3]
  simp only [Twisted.enc, msm_two, and_self]

/-- What an accepted type 2 proof contains. -/
theorem verify2_parts (cv : Curve G) (H : Bytes → ℤ) (pp : PP G) (x : Instance G) (L R s : ℤ) (tr tr' : Bytes) (pf : Proof2 G)
    (h : verify2 cv H pp x L R s tr pf = some (true, tr')) :
    (DLOGEquality.verify cv H (refreshInstance pp x pf.refresh) tr pf.dlogeq).1 = true ∧
    (∃ tr1, (PlaintextKnowledge.verify cv pp.enc H ⟨x.pk, pf.refresh⟩ tr1 pf.ptke).1 = true) ∧
    ∃ tr1 tr2, Bullet.fastVerify cv H pp.bullet (adjustInstance pp.bullet L R pf.refresh.Y pf.refresh.Y) s tr1 pf.bullet = some (true, tr2) := by
  unfold verify2 at h
  simp only [Option.bind_eq_bind] at h
  generalize e1 : DLOGEquality.verify cv H (refreshInstance pp x pf.refresh) tr pf.dlogeq = q1 at h ⊢
  generalize e2 : PlaintextKnowledge.verify cv pp.enc H ⟨x.pk, pf.refresh⟩ q1.2 pf.ptke = q2 at h
  cases e : Bullet.fastVerify cv H pp.bullet (adjustInstance pp.bullet L R pf.refresh.Y pf.refresh.Y) s q2.2 pf.bullet with
  | none => rw [e] at h; simp at h
  | some q =>
    rw [e] at h
    obtain ⟨v, t⟩ := q
    simp only [Option.bind_some, Option.pure_def, Option.some.injEq, Prod.mk.injEq, Bool.and_eq_true] at h
    exact ⟨h.1.1.1, ⟨q1.2, by rw [e2]; exact h.1.1.2⟩, q2.2, t, by rw [e, h.1.2]⟩

/-- C40, type 2, soundness through the whole verifier: two accepted proofs for the same refreshed ciphertext, with the same first message of
the refreshing proof and different challenges, yield the secret key, under which the ciphertext handed (shifted) to the range proof has the
plaintext of the original one. -/
theorem gadget_type2_extracts (cv : Curve G) (H H' : Bytes → ℤ) (pp : PP G) (x : Instance G) (L R s s' : ℤ) (tr tr' t t' : Bytes)
    (refresh : CT G) (A1 A2 : G) (z z' : ℤ) (pk1 pk2 : PlaintextKnowledge.Proof G) (bp bp' : Bullet.Proof G) (hpk : x.pk ≠ 0)
    (h1 : verify2 cv H pp x L R s tr ⟨refresh, ⟨A1, A2, z⟩, pk1, bp⟩ = some (true, t))
    (h2 : verify2 cv H' pp x L R s' tr' ⟨refresh, ⟨A1, A2, z'⟩, pk2, bp'⟩ = some (true, t')) :
    let e := DLOGEquality.challenge cv H (refreshInstance pp x refresh) tr A1 A2
    let e' := DLOGEquality.challenge cv H' (refreshInstance pp x refresh) tr' A1 A2
    let w := extract cv z z' e e'
    ¬ (cv.order : ℤ) ∣ e - e' → x.pk = w • pp.enc.g ∧ Twisted.decPoint cv w refresh = Twisted.decPoint cv w x.ct :=
  gadget_type2_refresh_sound cv H H' pp x refresh tr tr' A1 A2 z z' (verify2_parts cv H pp x L R s tr t _ h1).1
    (verify2_parts cv H' pp x L R s' tr' t' _ h2).1 hpk

/-- `CheckRange` does not exclude a negative lower bound; then the reduction can refuse values of the interval: 2 is in `[-3, 4)` and the
bounds are accepted for 2-bit ranges, but the first shifted value is 5. -/
theorem gadget_negative_left_incomplete :
    checkRange (-3) 4 2 = true ∧ ((-3 : ℤ) ≤ 2 ∧ (2 : ℤ) < 4) ∧ ¬ ∀ w ∈ adjustWitness 2 (-3) 4 2 2, 0 ≤ w ∧ w < (2 : ℤ) ^ 2 := by
  decide

/-- Bounds that `CheckRange` refuses make both provers `exit`. -/
theorem gadget_refuses (cv : Curve G) (H : Bytes → ℤ) (pp : PP G) (env : DecEnv G) (sched : List (Nat × Bool)) (x : Instance G)
    (L R r m sk rStar w a b : ℤ) (c : Bullet.Coins) (tr : Bytes) (h : R < L ∨ 2 ^ pp.bullet.rangeLen < R) :
    prove1 cv H pp x L R r m a b c tr = none ∧ prove2 cv H pp env sched x L R sk rStar w a b c tr = none := by
  have hc : checkRange L R pp.bullet.rangeLen = false := by
    simp only [checkRange, Bool.not_eq_false', Bool.or_eq_true, decide_eq_true_eq]
    exact h
  constructor
  · unfold prove1; simp [hc]
  · unfold prove2; simp [hc]

/-- Example parameters: two-bit ranges over a group of order 7. -/
def exPP : PP (ZMod 7) := ⟨⟨1, 5⟩, Bullet.exPP⟩

/-- The hypotheses of the theorems are met, and a concrete run is accepted: 2 in `[1, 3)`. -/
example : Sized exPP ⟨3, [1, 2, 3, 4], [5, 6, 0, 1], 2, 4, 5⟩ 2 :=
  ⟨rfl, rfl, rfl, by decide, by decide, by decide, rfl, rfl⟩

example : ((prove1 toyCurve Bullet.exHash exPP ⟨3, Twisted.enc exPP.enc 3 2 6⟩ 1 3 6 2 1 4 ⟨3, [1, 2, 3, 4], [5, 6, 0, 1], 2, 4, 5⟩ []).bind
    fun p => (verify1 toyCurve Bullet.exHash exPP ⟨3, Twisted.enc exPP.enc 3 2 6⟩ 1 3 2 [] p.1).map Prod.fst) = some true := by
  decide +kernel

/-- The same prover with 2 outside `[1, 2)` is rejected. -/
example : ((prove1 toyCurve Bullet.exHash exPP ⟨3, Twisted.enc exPP.enc 3 2 6⟩ 1 2 6 2 1 4 ⟨3, [1, 2, 3, 4], [5, 6, 0, 1], 2, 4, 5⟩ []).bind
    fun p => (verify1 toyCurve Bullet.exHash exPP ⟨3, Twisted.enc exPP.enc 3 2 6⟩ 1 2 2 [] p.1).map Prod.fst) = some false := by
  decide +kernel

end Kunlun.Gadget
