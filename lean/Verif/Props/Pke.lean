import Mathlib.Data.Nat.Prime.Int
import Verif.Model.Pke
import Verif.Props.Dlog
import Verif.Props.Prg
/-!
C20 (ElGamal), C21 (exponential ElGamal), C22 (twisted ElGamal), C72 (X25519 keys).
-/

namespace Kunlun

open Kunlun

variable {G : Type} [AddCommGroup G] [DecidableEq G]

/-! ### C20 -/

namespace ElGamal

/-- C20: decryption inverts encryption. -/
theorem elgamal_dec_enc (g m : G) (sk r : ℤ) : dec sk (enc g (keyGen g sk) m r) = m := by
  simp only [dec, enc, keyGen]
  module

/-- C20: a re-randomised ciphertext (of any origin) decrypts to the same message. -/
theorem elgamal_reRand (g : G) (sk r : ℤ) (ct : CT G) : dec sk (reRand g (keyGen g sk) ct r) = dec sk ct := by
  simp only [dec, reRand, keyGen]
  module

/-- C20: re-randomisation with scalar `r` of an encryption is a fresh encryption with shifted randomness. -/
theorem elgamal_reRand_enc (g pk m : G) (r r' : ℤ) : reRand g pk (enc g pk m r) r' = enc g pk m (r + r') := by
  simp only [enc, reRand, CT.mk.injEq]
  constructor <;> module

/-- C20: with a generator of prime order a wrong key decrypts to something else whenever the randomness is not zero. -/
theorem elgamal_wrong_key (cv : Curve G) (m : G) (sk sk' r : ℤ) (hr : ¬ (cv.order : ℤ) ∣ r)
    (hsk : ¬ (cv.order : ℤ) ∣ sk - sk') : dec sk' (enc cv.gen (keyGen cv.gen sk) m r) ≠ m := by
  intro h
  have : ((sk - sk') * r) • cv.gen = 0 := by
    have : ((sk - sk') * r) • cv.gen = dec sk' (enc cv.gen (keyGen cv.gen sk) m r) - m := by
      simp only [dec, enc, keyGen]; module
    rw [this, h, sub_self]
  rw [cv.smul_eq_zero_iff _ _ cv.gen_ne] at this
  rcases (Nat.prime_iff_prime_int.1 cv.prime).dvd_or_dvd this with h1 | h1
  · exact hsk h1
  · exact hr h1

example : (¬ ((toyCurve.order : ℤ) ∣ 3)) ∧ ¬ ((toyCurve.order : ℤ) ∣ 5 - 4) := by decide

/-- C72 for the curve variant, as far as it is a statement about outcomes: the public key determines the drawn secret modulo
the order, so fresh secrets give fresh keys. Missing: the X25519 variant, where it is false (see below), and any statement about
probabilities. -/
theorem elgamal_keys_fresh_partial (cv : Curve G) (sk sk' : ℤ) :
    keyGen cv.gen sk = keyGen cv.gen sk' ↔ sk % cv.order = sk' % cv.order := by
  simp only [keyGen]
  rw [cv.smul_eq_iff _ _ _ cv.gen_ne, Int.emod_eq_emod_iff_emod_sub_eq_zero, Int.dvd_iff_emod_eq_zero]

end ElGamal

namespace ElGamal25519

theorem xor32_cancel (a m : Bytes) (h : m.length ≤ a.length) : xor32 (xor32 a m) a = m := by
  unfold xor32
  induction a generalizing m with
  | nil => cases m <;> simp_all
  | cons x a ih =>
    cases m with
    | nil => simp
    | cons y m =>
      simp only [List.zipWith_cons_cons, List.cons.injEq]
      refine ⟨?_, ih m (by simpa using h)⟩
      rw [UInt8.xor_comm, ← UInt8.xor_assoc, UInt8.xor_self, UInt8.zero_xor]

/-- C20, default (X25519) variant: decryption inverts encryption, for any scalar multiplication that commutes (Diffie–Hellman)
and returns 32 bytes. -/
theorem elgamal25519_dec_enc (mul : Bytes → Bytes → Bytes) (hlen : ∀ s p, (mul s p).length = 32)
    (g sk r m : Bytes) (hcomm : mul r (mul sk g) = mul sk (mul r g)) (hm : m.length = 32) :
    dec mul sk (enc mul g (mul sk g) m r) = m := by
  simp only [dec, enc, hcomm]
  exact xor32_cancel _ _ (by rw [hlen, hm])

/-- The hypotheses hold for a commuting 32-byte action (here byte-wise xor). -/
example : ∃ mul : Bytes → Bytes → Bytes, (∀ s p, (mul s p).length = 32) ∧
    (∀ g sk r, sk.length = 32 → r.length = 32 → mul r (mul sk g) = mul sk (mul r g)) ∧
    mul (List.replicate 32 1) (List.replicate 32 2) ≠ mul (List.replicate 32 1) (List.replicate 32 3) := by
  refine ⟨fun s p => (List.range 32).map fun i => s[i]?.getD 0 ^^^ p[i]?.getD 0, ?_, ?_, by decide⟩
  · intro s p; simp
  · intro g sk r _ _
    apply List.map_congr_left
    intro i hi
    have hi : i < 32 := by simpa using hi
    simp only [List.getElem?_map, List.getElem?_range hi, Option.map_some, Option.getD_some]
    rw [← UInt8.xor_assoc, UInt8.xor_comm (r[i]?.getD 0), UInt8.xor_assoc]

/-- C72 is violated in the default configuration: `KeyGen` returns the same secret in every run, equal to the published
generator `pp.g`, and every message encrypted by `Enc` can be read without the secret key. -/
theorem elgamal25519_secret_is_public (mul : Bytes → Bytes → Bytes) (hlen : ∀ s p, (mul s p).length = 32)
    (fixedSeed : Block) (temp1 temp2 temp3 : List Block)
    (h1 : temp1.length = 8) (h2 : temp2.length = 8) (h3 : temp3.length = 8) :
    ∃ g pk sk, setup temp1 fixedSeed = some g ∧ keyGen mul temp2 fixedSeed g = some (pk, sk) ∧ sk = g ∧
      ∀ m, m.length = 32 → ∃ ct, encRnd mul temp3 fixedSeed g pk m = some ct ∧ xor32 ct.Y (mul g ct.X) = m := by
  obtain ⟨k1, e1⟩ : ∃ b, ∀ t : List Block, t.length = 8 → fixedBytes t fixedSeed = some b := by
    refine ⟨(PRG.bytesOf (PRG.stream (PRG.setSeed fixedSeed 0).key (PRG.setSeed fixedSeed 0).counter 2)).take 32, ?_⟩
    intro t ht
    unfold fixedBytes
    rw [PRG.genRandomBytes_spec t ht]
    rfl
  refine ⟨k1, mul k1 k1, k1, e1 _ h1, ?_, rfl, ?_⟩
  · simp only [keyGen, e1 _ h2, Option.map_some]
  · intro m hm
    refine ⟨enc mul k1 (mul k1 k1) m k1, ?_, ?_⟩
    · simp only [encRnd, e1 _ h3, Option.map_some]
    · exact elgamal25519_dec_enc mul hlen k1 k1 k1 m rfl hm

end ElGamal25519

/-! ### Decryption through the discrete-logarithm tables -/

/-- The tables were initialised for base `g` in a fresh process with an even message length not above the group order, the
64-bit keys do not collide for `n•g`, and the scheduler lets every search task finish. -/
structure Ready (cv : Curve G) (env : DecEnv G) (g : G) (sched : List (Nat × Bool)) (n : Nat) : Prop where
  ne : g ≠ 0
  even : env.msgLen % 2 = 0
  fits : 2 ^ env.msgLen ≤ cv.order
  init : ∃ ex, Dlog.initTable Dlog.Globals.init env.key g env.msgLen env.tradeoff ex = some env.gl
  keys : Dlog.NoCollision env.key g ((n : ℤ) • g) env.msgLen env.tradeoff
  fair : ∀ i < Dlog.searchTaskNum, Dlog.slicedGiant env.msgLen env.tradeoff + 4 ≤ (sched.map Prod.fst).count i

theorem search_finds (cv : Curve G) (env : DecEnv G) (g : G) (sched : List (Nat × Bool)) (n : Nat)
    (hr : Ready cv env g sched n) (hn : n < 2 ^ env.msgLen) (M : G) (hM : M = (n : ℤ) • g) :
    env.search sched M = some (n : ℤ) := by
  obtain ⟨ex, hi⟩ := hr.init
  subst hM
  obtain ⟨⟨f, x⟩, hs⟩ := Dlog.dlog_search_terminates env.gl env.key ((n : ℤ) • g) env.msgLen env.tradeoff 0 sched hr.fair
  obtain ⟨hf, hx⟩ := Dlog.dlog_search_finds_partial cv env.key g hr.ne env.msgLen env.tradeoff hr.even hr.fits ex env.gl hi n
    hn hr.keys 0 sched f x hs
  unfold DecEnv.search
  rw [hs, hf, hx]

/-- The assumptions are satisfiable: order 8209, 12-bit messages, sequential schedule. -/
theorem ready_example : ∃ env : DecEnv (ZMod 8209),
    Ready Dlog.exCurve env 1 ((List.range 64).flatMap fun i => List.replicate 5 (i, false)) 100 ∧ 100 < 2 ^ env.msgLen := by
  refine ⟨⟨Dlog.loadTable Dlog.Globals.init (Dlog.buildTable Dlog.exKey 1 12 0), Dlog.exKey, 12, 0⟩,
    ⟨by decide, by decide, by decide, ⟨true, rfl⟩, fun _ _ _ _ h => Dlog.exKey_inj h, by decide +kernel⟩, by decide⟩

/-! ### C21 -/

namespace ExpElGamal

/-- C21: decryption recovers every message of the configured range. -/
theorem exp_elgamal_dec_enc (cv : Curve G) (env : DecEnv G) (sched : List (Nat × Bool)) (g : G) (sk r : ℤ) (m : Nat)
    (hr : Ready cv env g sched m) (hm : m < 2 ^ env.msgLen) :
    dec env sched sk (enc g (keyGen g sk) m r) = some (m : ℤ) := by
  apply search_finds cv env g sched m hr hm
  simp only [decPoint, enc, keyGen, msm_two]
  module

/-- The plaintext point of a ciphertext: `a` is the plaintext exponent under `sk`. -/
def Holds (g : G) (sk : ℤ) (ct : CT G) (a : ℤ) : Prop := decPoint sk ct = a • g

theorem exp_elgamal_enc_holds (g : G) (sk m r : ℤ) : Holds g sk (enc g (keyGen g sk) m r) m := by
  simp only [Holds, decPoint, enc, keyGen, msm_two]
  module

/-- C21: the homomorphic operations act on plaintexts as addition, subtraction, scaling; re-randomisation and re-encryption
keep the plaintext — for ciphertexts of any origin. -/
theorem exp_elgamal_homomorphic (g : G) (sk a b k r : ℤ) (ca cb : CT G) (ha : Holds g sk ca a) (hb : Holds g sk cb b) :
    Holds g sk (ca.add cb) (a + b) ∧ Holds g sk (ca.sub cb) (a - b) ∧ Holds g sk (ca.scale k) (k * a) ∧
    Holds g sk (reRand g (keyGen g sk) ca r) a ∧ Holds g sk (reEnc g (keyGen g sk) sk ca r) a := by
  simp only [Holds, decPoint] at *
  refine ⟨?_, ?_, ?_, ?_, ?_⟩
  · rw [add_smul, ← ha, ← hb]; simp only [CT.add]; module
  · rw [sub_smul, ← ha, ← hb]; simp only [CT.sub]; module
  · rw [mul_smul, ← ha]; simp only [CT.scale]; module
  · rw [← ha]; simp only [reRand, keyGen]; module
  · rw [← ha]; simp only [reEnc, keyGen]; module

/-- C21: a ciphertext with plaintext exponent `a` decrypts to the representative of `a` modulo the order, if that lies in the
message range. With the previous theorem this gives decryption of sums, differences and multiples modulo the order. -/
theorem exp_elgamal_dec_holds (cv : Curve G) (env : DecEnv G) (sched : List (Nat × Bool)) (g : G) (sk a : ℤ) (ct : CT G)
    (n : Nat) (hr : Ready cv env g sched n) (hn : n < 2 ^ env.msgLen) (h : Holds g sk ct a) (hmod : a % cv.order = n) :
    dec env sched sk ct = some (n : ℤ) := by
  apply search_finds cv env g sched n hr hn
  rw [h, ← hmod, cv.emod_smul]

/-- C21: every recipient of a multi-recipient ciphertext recovers the message. -/
theorem exp_elgamal_multi (cv : Curve G) (env : DecEnv G) (sched : List (Nat × Bool)) (g : G) (sks : List ℤ) (r : ℤ) (m : Nat)
    (hr : Ready cv env g sched m) (hm : m < 2 ^ env.msgLen) (i : Nat) (sk : ℤ) (hi : sks[i]? = some sk) :
    ∃ Y, (encMulti g (sks.map (keyGen g)) m r).2[i]? = some Y ∧
      dec env sched sk ⟨(encMulti g (sks.map (keyGen g)) m r).1, Y⟩ = some (m : ℤ) := by
  refine ⟨r • keyGen g sk + (m : ℤ) • g, by simp [encMulti, hi], ?_⟩
  apply search_finds cv env g sched m hr hm
  simp only [decPoint, keyGen, encMulti]
  module

end ExpElGamal

/-! ### C22 -/

namespace Twisted

/-- `a` is the plaintext exponent of `ct` under `sk`. -/
def Holds (cv : Curve G) (pp : PP G) (sk : ℤ) (ct : CT G) (a : ℤ) : Prop := decPoint cv sk ct = a • pp.h

theorem inv_smul_smul (cv : Curve G) (sk : ℤ) (hsk : ¬ (cv.order : ℤ) ∣ sk) (P : G) :
    BigInt.modInverse sk cv.order • sk • P = P := by
  letI := cv.toModule
  haveI := cv.fact
  simp only [cv.cast_smul, cv.cast_modInverse]
  rw [← mul_smul, inv_mul_cancel₀ (cv.cast_ne_zero hsk), one_smul]

theorem inv_smul_rsmul (cv : Curve G) (sk r : ℤ) (hsk : ¬ (cv.order : ℤ) ∣ sk) (P : G) :
    BigInt.modInverse sk cv.order • r • sk • P = r • P := by
  rw [smul_comm r sk P, inv_smul_smul cv sk hsk]

theorem twisted_enc_holds (cv : Curve G) (pp : PP G) (sk m r : ℤ) (hsk : ¬ (cv.order : ℤ) ∣ sk) :
    Holds cv pp sk (enc pp (keyGen pp sk) m r) m := by
  simp only [Holds, decPoint, enc, keyGen, msm_two, inv_smul_rsmul cv sk r hsk]
  module

/-- C22: for a non-zero key, decryption recovers every message of the range. -/
theorem twisted_dec_enc (cv : Curve G) (env : DecEnv G) (sched : List (Nat × Bool)) (pp : PP G) (sk r : ℤ) (m : Nat)
    (hsk : ¬ (cv.order : ℤ) ∣ sk) (hr : Ready cv env pp.h sched m) (hm : m < 2 ^ env.msgLen) :
    dec cv env sched sk (enc pp (keyGen pp sk) m r) = some (m : ℤ) :=
  search_finds cv env pp.h sched m hr hm _ (twisted_enc_holds cv pp sk m r hsk)

/-- C22: encryption of a group element decrypts to it. -/
theorem twisted_decPoint_encPoint (cv : Curve G) (pp : PP G) (sk r : ℤ) (m : G) (hsk : ¬ (cv.order : ℤ) ∣ sk) :
    decPoint cv sk (encPoint pp (keyGen pp sk) m r) = m := by
  simp only [decPoint, encPoint, keyGen, inv_smul_rsmul cv sk r hsk]
  abel

/-- C22: homomorphic operations, re-randomisation and re-encryption act on plaintexts, for ciphertexts of any origin. -/
theorem twisted_homomorphic (cv : Curve G) (pp : PP G) (sk a b k r : ℤ) (hsk : ¬ (cv.order : ℤ) ∣ sk) (ca cb : CT G)
    (ha : Holds cv pp sk ca a) (hb : Holds cv pp sk cb b) :
    Holds cv pp sk (ca.add cb) (a + b) ∧ Holds cv pp sk (ca.sub cb) (a - b) ∧ Holds cv pp sk (ca.scale k) (k * a) ∧
    Holds cv pp sk (reRand pp (keyGen pp sk) ca r) a ∧ Holds cv pp sk (reEnc cv pp (keyGen pp sk) sk ca r) a := by
  simp only [Holds, decPoint] at *
  refine ⟨?_, ?_, ?_, ?_, ?_⟩
  · rw [add_smul, ← ha, ← hb]; simp only [CT.add]; module
  · rw [sub_smul, ← ha, ← hb]; simp only [CT.sub]; module
  · rw [mul_smul, ← ha]; simp only [CT.scale]; module
  · rw [← ha]; simp only [reRand, keyGen, smul_add, inv_smul_rsmul cv sk r hsk]; module
  · rw [← ha]; simp only [reEnc, keyGen, inv_smul_rsmul cv sk r hsk]; module

/-- C22: decryption returns the representative of the plaintext exponent modulo the order, if in range. -/
theorem twisted_dec_holds (cv : Curve G) (env : DecEnv G) (sched : List (Nat × Bool)) (pp : PP G) (sk a : ℤ) (ct : CT G)
    (n : Nat) (hr : Ready cv env pp.h sched n) (hn : n < 2 ^ env.msgLen) (h : Holds cv pp sk ct a)
    (hmod : a % cv.order = n) : dec cv env sched sk ct = some (n : ℤ) := by
  apply search_finds cv env pp.h sched n hr hn
  rw [h, ← hmod, cv.emod_smul]

/-- C22: every recipient of a multi-recipient ciphertext recovers the same message. -/
theorem twisted_multi (cv : Curve G) (env : DecEnv G) (sched : List (Nat × Bool)) (pp : PP G) (sks : List ℤ) (r : ℤ) (m : Nat)
    (hr : Ready cv env pp.h sched m) (hm : m < 2 ^ env.msgLen) (i : Nat) (sk : ℤ) (hi : sks[i]? = some sk)
    (hsk : ¬ (cv.order : ℤ) ∣ sk) :
    ∃ X, (encMulti pp (sks.map (keyGen pp)) m r).vecX[i]? = some X ∧
      dec cv env sched sk ⟨X, (encMulti pp (sks.map (keyGen pp)) m r).Y⟩ = some (m : ℤ) := by
  refine ⟨r • keyGen pp sk, by simp [encMulti, hi], ?_⟩
  apply search_finds cv env pp.h sched m hr hm
  simp only [decPoint, keyGen, encMulti, inv_smul_rsmul cv sk r hsk]
  module

/-- C22, the exceptional key: with `sk ≡ 0`, which `KeyGen` can produce, decryption looks for the logarithm of a masked
point and never of the message point (unless the randomness is zero too). -/
theorem twisted_zero_key_breaks (cv : Curve G) (pp : PP G) (sk m r : ℤ) (hg : pp.g ≠ 0) (hsk : (cv.order : ℤ) ∣ sk)
    (hr : ¬ (cv.order : ℤ) ∣ r) : ¬ Holds cv pp sk (enc pp (keyGen pp sk) m r) m := by
  intro h
  have hX : sk • pp.g = 0 := by rw [cv.smul_eq_zero_iff _ _ hg]; exact hsk
  simp only [Holds, decPoint, enc, keyGen, msm_two, hX, smul_zero, sub_zero] at h
  have : r • pp.g = 0 := by
    have h' : r • pp.g + m • pp.h - m • pp.h = m • pp.h - m • pp.h := by rw [h]
    simpa using h'
  rw [cv.smul_eq_zero_iff _ _ hg] at this
  exact hr this

example : (¬ ((toyCurve.order : ℤ) ∣ 3)) ∧ ((toyCurve.order : ℤ) ∣ 0) ∧ toyCurve.gen ≠ 0 := by decide

end Twisted

end Kunlun
