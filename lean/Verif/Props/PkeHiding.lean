import Verif.Props.Pke
import Mathlib.Algebra.BigOperators.Ring.Finset
import Mathlib.Algebra.BigOperators.Group.Finset.Sigma
import Mathlib.Data.Real.Basic
import Mathlib.Algebra.Order.AbsoluteValue.Basic
import Mathlib.Tactic.NormNum
import Mathlib.Tactic.Linarith
/-!
Property C111: what a ciphertext of the encryption schemes of `pke/` tells, and what a re-randomised ciphertext tells.

`GenRandomBigIntLessThan(order)` draws a number below the order, so a probability is an average over `Finset.range order`.  A test `T` is any
real-valued function of what it sees (its probability of answering yes), without bound on its running time; the statements turn a test that tells
two messages apart into a test that tells Diffie-Hellman values from random points, and compare the two advantages.
-/

namespace Kunlun.Hiding

open Kunlun Finset

variable {G : Type} [AddCommGroup G]

/-- Every point is a multiple of `g`. -/
def Generates (g : G) : Prop := ∀ P : G, ∃ x : ℤ, P = x • g

/-- How well `T` tells the point `ab·g` from a random one, given `a·g` and `b·g`. -/
noncomputable def ddhAdv (cv : Curve G) (g : G) (T : G → G → G → ℝ) : ℝ :=
  |(∑ a ∈ range cv.order, ∑ b ∈ range cv.order, T ((a : ℤ) • g) ((b : ℤ) • g) (((a : ℤ) * b) • g)) / (cv.order : ℝ) ^ 2 -
    (∑ a ∈ range cv.order, ∑ b ∈ range cv.order, ∑ c ∈ range cv.order, T ((a : ℤ) • g) ((b : ℤ) • g) ((c : ℤ) • g)) / (cv.order : ℝ) ^ 3|

/-- The average outcome of a game in which a secret key and encryption randomness are drawn. -/
noncomputable def game (cv : Curve G) (f : ℤ → ℤ → ℝ) : ℝ :=
  (∑ a ∈ range cv.order, ∑ r ∈ range cv.order, f a r) / (cv.order : ℝ) ^ 2

/-- Adding a fixed multiple of `g` permutes the multiples of `g`. -/
theorem sum_shift (cv : Curve G) (g : G) (x : ℤ) (f : G → ℝ) :
    ∑ c ∈ range cv.order, f ((c : ℤ) • g + x • g) = ∑ c ∈ range cv.order, f ((c : ℤ) • g) := by
  have hq : (0 : ℤ) < cv.order := by exact_mod_cast cv.order_pos
  have key : ∀ y : ℤ, (((y % (cv.order : ℤ)).toNat : ℕ) : ℤ) = y % cv.order := fun y => Int.toNat_of_nonneg (Int.emod_nonneg _ cv.order_ne)
  have small : ∀ y : ℤ, (y % (cv.order : ℤ)).toNat ∈ range cv.order := fun y => by
    rw [mem_range]
    have := Int.emod_lt_of_pos y hq
    have := key y
    omega
  have back : ∀ (c : ℕ) (y : ℤ), c ∈ range cv.order → (((((c + y) % (cv.order : ℤ)).toNat : ℕ) - y) % (cv.order : ℤ)).toNat = c := by
    intro c y hc
    rw [mem_range] at hc
    have e : ((((c + y) % (cv.order : ℤ)).toNat : ℤ) - y) % (cv.order : ℤ) = c := by
      rw [key, Int.emod_sub_emod, add_sub_cancel_right]
      exact Int.emod_eq_of_lt (by omega) (by exact_mod_cast hc)
    rw [e]
    rfl
  refine sum_nbij' (fun c => (((c : ℤ) + x) % (cv.order : ℤ)).toNat) (fun c => (((c : ℤ) - x) % (cv.order : ℤ)).toNat) (fun c _ => small _)
    (fun c _ => small _) (fun c hc => back c x hc) (fun c hc => ?_) (fun c _ => ?_)
  · have := back c (-x) hc
    simpa [sub_eq_add_neg] using this
  · rw [key, cv.emod_smul, add_smul]

/-- Two games that become the same one when the Diffie-Hellman value is replaced by a random point. -/
theorem gap (cv : Curve G) (g : G) (T0 T1 : G → G → G → ℝ) (f0 f1 : ℤ → ℤ → ℝ)
    (h0 : ∀ a b, f0 a b = T0 (a • g) (b • g) ((a * b) • g)) (h1 : ∀ a b, f1 a b = T1 (a • g) (b • g) ((a * b) • g)) (S : ℝ)
    (z0 : (∑ a ∈ range cv.order, ∑ b ∈ range cv.order, ∑ c ∈ range cv.order, T0 ((a : ℤ) • g) ((b : ℤ) • g) ((c : ℤ) • g)) = S)
    (z1 : (∑ a ∈ range cv.order, ∑ b ∈ range cv.order, ∑ c ∈ range cv.order, T1 ((a : ℤ) • g) ((b : ℤ) • g) ((c : ℤ) • g)) = S) :
    |game cv f0 - game cv f1| ≤ ddhAdv cv g T0 + ddhAdv cv g T1 := by
  unfold game ddhAdv
  simp only [h0, h1, z0, z1]
  exact (abs_sub_le _ _ _).trans (add_le_add le_rfl (le_of_eq (abs_sub_comm _ _)))

end Kunlun.Hiding

namespace Kunlun

open Kunlun Finset Hiding

variable {G : Type} [AddCommGroup G]

namespace ElGamal

/-- **C111** ElGamal: whoever sees a public key, chooses two messages and is given an encryption of one of them has at most the sum of the
advantages of two Diffie-Hellman tests that run its test once. -/
theorem elgamal_hides_message (cv : Curve G) (g : G) (hg : Generates g) (m0 m1 : G → G) (D : G → CT G → ℝ) :
    |game cv (fun sk r => D (keyGen g sk) (enc g (keyGen g sk) (m0 (keyGen g sk)) r)) -
      game cv (fun sk r => D (keyGen g sk) (enc g (keyGen g sk) (m1 (keyGen g sk)) r))| ≤
      ddhAdv cv g (fun A B C => D A ⟨B, C + m0 A⟩) + ddhAdv cv g (fun A B C => D A ⟨B, C + m1 A⟩) := by
  have e : ∀ (m : G → G) (a b : ℤ), D (keyGen g a) (enc g (keyGen g a) (m (keyGen g a)) b) = D (a • g) ⟨b • g, (a * b) • g + m (a • g)⟩ := fun m a b => by
    simp only [keyGen, enc]
    rw [smul_smul, mul_comm b a]
  have z : ∀ m : G → G, (∑ a ∈ range cv.order, ∑ b ∈ range cv.order, ∑ c ∈ range cv.order, D ((a : ℤ) • g) ⟨(b : ℤ) • g, (c : ℤ) • g + m ((a : ℤ) • g)⟩) =
      ∑ a ∈ range cv.order, ∑ b ∈ range cv.order, ∑ c ∈ range cv.order, D ((a : ℤ) • g) ⟨(b : ℤ) • g, (c : ℤ) • g⟩ := fun m => by
    refine sum_congr rfl fun a _ => sum_congr rfl fun b _ => ?_
    obtain ⟨x, hx⟩ := hg (m ((a : ℤ) • g))
    rw [hx]
    exact sum_shift cv g x fun P => D ((a : ℤ) • g) ⟨(b : ℤ) • g, P⟩
  exact gap cv _ _ _ _ _ (e m0) (e m1) _ (z m0) (z m1)

/-- **C111** A re-randomised ciphertext, whatever the ciphertext was, is distributed like a fresh encryption of the message in it. -/
theorem elgamal_reRand_fresh (cv : Curve G) (g : G) (hg : Generates g) (sk : ℤ) (ct : CT G) (f : CT G → ℝ) :
    ∑ r ∈ range cv.order, f (reRand g (keyGen g sk) ct r) = ∑ r ∈ range cv.order, f (enc g (keyGen g sk) (dec sk ct) r) := by
  obtain ⟨x, hx⟩ := hg ct.X
  refine Eq.trans (sum_congr rfl fun r _ => ?_) ((sum_shift cv g x fun P => f ⟨P, sk • P + dec sk ct⟩).trans (sum_congr rfl fun r _ => ?_))
  · simp only [reRand, keyGen, dec, hx]
    congr 2
    · module
    · module
  · simp only [enc, keyGen]
    congr 2
    module

end ElGamal

namespace ExpElGamal

/-- **C111** Exponential ElGamal hides the number encrypted, as ElGamal does. -/
theorem exp_elgamal_hides_message (cv : Curve G) (g : G) (m0 m1 : G → ℤ) (D : G → CT G → ℝ) :
    |game cv (fun sk r => D (keyGen g sk) (enc g (keyGen g sk) (m0 (keyGen g sk)) r)) -
      game cv (fun sk r => D (keyGen g sk) (enc g (keyGen g sk) (m1 (keyGen g sk)) r))| ≤
      ddhAdv cv g (fun A B C => D A ⟨B, C + m0 A • g⟩) + ddhAdv cv g (fun A B C => D A ⟨B, C + m1 A • g⟩) := by
  have e : ∀ (m : G → ℤ) (a b : ℤ), D (keyGen g a) (enc g (keyGen g a) (m (keyGen g a)) b) = D (a • g) ⟨b • g, (a * b) • g + m (a • g) • g⟩ := fun m a b => by
    simp only [keyGen, enc, msm_two]
    rw [smul_smul, mul_comm b a]
  have z : ∀ m : G → ℤ, (∑ a ∈ range cv.order, ∑ b ∈ range cv.order, ∑ c ∈ range cv.order, D ((a : ℤ) • g) ⟨(b : ℤ) • g, (c : ℤ) • g + m ((a : ℤ) • g) • g⟩) =
      ∑ a ∈ range cv.order, ∑ b ∈ range cv.order, ∑ c ∈ range cv.order, D ((a : ℤ) • g) ⟨(b : ℤ) • g, (c : ℤ) • g⟩ := fun m =>
    sum_congr rfl fun a _ => sum_congr rfl fun b _ => sum_shift cv g _ fun P => D ((a : ℤ) • g) ⟨(b : ℤ) • g, P⟩
  exact gap cv _ _ _ _ _ (e m0) (e m1) _ (z m0) (z m1)

/-- **C111** Several recipients: the keys are `A + t·g` for numbers `t` (independent keys are the average over the `t`). -/
theorem exp_elgamal_multi_hides_message (cv : Curve G) (g : G) (ts : List ℤ) (m0 m1 : List G → ℤ) (D : List G → G × List G → ℝ) :
    |game cv (fun sk r => let pks := ts.map fun t => keyGen g (sk + t); D pks (encMulti g pks (m0 pks) r)) -
      game cv (fun sk r => let pks := ts.map fun t => keyGen g (sk + t); D pks (encMulti g pks (m1 pks) r))| ≤
      ddhAdv cv g (fun A B C => let pks := ts.map fun t => A + t • g; D pks (B, ts.map fun t => C + t • B + m0 pks • g)) +
      ddhAdv cv g (fun A B C => let pks := ts.map fun t => A + t • g; D pks (B, ts.map fun t => C + t • B + m1 pks • g)) := by
  have e : ∀ (m : List G → ℤ) (a b : ℤ), (let pks := ts.map fun t => keyGen g (a + t); D pks (encMulti g pks (m pks) b)) =
      (let pks := ts.map fun t => a • g + t • g; D pks (b • g, ts.map fun t => (a * b) • g + t • b • g + m pks • g)) := fun m a b => by
    have hp : (ts.map fun t => keyGen g (a + t)) = ts.map fun t => a • g + t • g := by
      simp only [keyGen, add_smul]
    simp only [hp, encMulti, List.map_map]
    congr 2
    apply List.map_congr_left
    intro t _
    simp only [Function.comp_apply]
    module
  have z : ∀ m : List G → ℤ, (∑ a ∈ range cv.order, ∑ b ∈ range cv.order, ∑ c ∈ range cv.order,
        (let pks := ts.map fun t => (a : ℤ) • g + t • g; D pks ((b : ℤ) • g, ts.map fun t => (c : ℤ) • g + t • (b : ℤ) • g + m pks • g))) =
      ∑ a ∈ range cv.order, ∑ b ∈ range cv.order, ∑ c ∈ range cv.order,
        (let pks := ts.map fun t => (a : ℤ) • g + t • g; D pks ((b : ℤ) • g, ts.map fun t => (c : ℤ) • g + t • (b : ℤ) • g)) := fun m =>
    sum_congr rfl fun a _ => sum_congr rfl fun b _ => by
      rw [← sum_shift cv g (m (ts.map fun t => (a : ℤ) • g + t • g))
        fun P => D (ts.map fun t => (a : ℤ) • g + t • g) ((b : ℤ) • g, ts.map fun t => P + t • (b : ℤ) • g)]
      refine sum_congr rfl fun c _ => congrArg (D _) (congrArg (Prod.mk _) ?_)
      apply List.map_congr_left
      intro t _
      exact add_right_comm _ _ _
  exact gap cv _ _ _ _ _ (e m0) (e m1) _ (z m0) (z m1)

/-- **C111** Re-randomisation and re-encryption give a fresh encryption of what the ciphertext holds. -/
theorem exp_elgamal_reRand_fresh (cv : Curve G) (g : G) (hg : Generates g) (sk m : ℤ) (ct : CT G) (hm : decPoint sk ct = m • g) (f : CT G → ℝ) :
    ∑ r ∈ range cv.order, f (reRand g (keyGen g sk) ct r) = ∑ r ∈ range cv.order, f (enc g (keyGen g sk) m r) ∧
      ∀ r, reEnc g (keyGen g sk) sk ct r = enc g (keyGen g sk) m r := by
  have hY : ct.Y = sk • ct.X + m • g := by rw [← hm]; simp [decPoint]
  constructor
  · obtain ⟨x, hx⟩ := hg ct.X
    refine Eq.trans (sum_congr rfl fun r _ => ?_) ((sum_shift cv g x fun P => f ⟨P, sk • P + m • g⟩).trans (sum_congr rfl fun r _ => ?_))
    · simp only [reRand, keyGen, hY, hx]
      congr 2
      · module
      · module
    · simp only [enc, keyGen, msm_two]
      congr 2
      module
  · intro r
    simp only [reEnc, enc, msm_two, keyGen, hY]
    congr 1
    module

end ExpElGamal

namespace Twisted

/-- **C111** Twisted ElGamal hides the number encrypted, whatever is known about the two bases. -/
theorem twisted_hides_message (cv : Curve G) (pp : PP G) (hg : Generates pp.g) (m0 m1 : G → ℤ) (D : G → CT G → ℝ) :
    |game cv (fun sk r => D (keyGen pp sk) (enc pp (keyGen pp sk) (m0 (keyGen pp sk)) r)) -
      game cv (fun sk r => D (keyGen pp sk) (enc pp (keyGen pp sk) (m1 (keyGen pp sk)) r))| ≤
      ddhAdv cv pp.g (fun A B C => D A ⟨C, B + m0 A • pp.h⟩) + ddhAdv cv pp.g (fun A B C => D A ⟨C, B + m1 A • pp.h⟩) := by
  have e : ∀ (m : G → ℤ) (a b : ℤ), D (keyGen pp a) (enc pp (keyGen pp a) (m (keyGen pp a)) b) =
      D (a • pp.g) ⟨(a * b) • pp.g, b • pp.g + m (a • pp.g) • pp.h⟩ := fun m a b => by
    simp only [keyGen, enc, msm_two]
    rw [smul_smul, mul_comm b a]
  obtain ⟨k, hk⟩ := hg pp.h
  have z : ∀ m : G → ℤ, (∑ a ∈ range cv.order, ∑ b ∈ range cv.order, ∑ c ∈ range cv.order,
        D ((a : ℤ) • pp.g) ⟨(c : ℤ) • pp.g, (b : ℤ) • pp.g + m ((a : ℤ) • pp.g) • pp.h⟩) =
      ∑ a ∈ range cv.order, ∑ b ∈ range cv.order, ∑ c ∈ range cv.order, D ((a : ℤ) • pp.g) ⟨(c : ℤ) • pp.g, (b : ℤ) • pp.g⟩ := fun m => by
    refine sum_congr rfl fun a _ => ?_
    rw [hk, smul_smul]
    exact sum_shift cv pp.g _ fun P => ∑ c ∈ range cv.order, D ((a : ℤ) • pp.g) ⟨(c : ℤ) • pp.g, P⟩
  exact gap cv _ _ _ _ _ (e m0) (e m1) _ (z m0) (z m1)

/-- **C111** Several recipients, as in the transactions of `adcp`: the keys are `t·A` for numbers `t` (independent keys, if the first is not zero, are
the average over the `t`). -/
theorem twisted_multi_hides_message (cv : Curve G) (pp : PP G) (hg : Generates pp.g) (ts : List ℤ) (m0 m1 : List G → ℤ) (D : List G → MRCT G → ℝ) :
    |game cv (fun sk r => let pks := ts.map fun t => keyGen pp (t * sk); D pks (encMulti pp pks (m0 pks) r)) -
      game cv (fun sk r => let pks := ts.map fun t => keyGen pp (t * sk); D pks (encMulti pp pks (m1 pks) r))| ≤
      ddhAdv cv pp.g (fun A B C => let pks := ts.map fun t => t • A; D pks ⟨ts.map fun t => t • C, B + m0 pks • pp.h⟩) +
      ddhAdv cv pp.g (fun A B C => let pks := ts.map fun t => t • A; D pks ⟨ts.map fun t => t • C, B + m1 pks • pp.h⟩) := by
  have e : ∀ (m : List G → ℤ) (a b : ℤ), (let pks := ts.map fun t => keyGen pp (t * a); D pks (encMulti pp pks (m pks) b)) =
      (let pks := ts.map fun t => t • a • pp.g; D pks ⟨ts.map fun t => t • (a * b) • pp.g, b • pp.g + m pks • pp.h⟩) := fun m a b => by
    have hp : (ts.map fun t => keyGen pp (t * a)) = ts.map fun t => t • a • pp.g := by
      simp only [keyGen, mul_smul]
    simp only [hp, encMulti, List.map_map]
    congr 2
    apply List.map_congr_left
    intro t _
    simp only [Function.comp_apply]
    module
  obtain ⟨k, hk⟩ := hg pp.h
  have z : ∀ m : List G → ℤ, (∑ a ∈ range cv.order, ∑ b ∈ range cv.order, ∑ c ∈ range cv.order,
        (let pks := ts.map fun t => t • (a : ℤ) • pp.g; D pks ⟨ts.map fun t => t • (c : ℤ) • pp.g, (b : ℤ) • pp.g + m pks • pp.h⟩)) =
      ∑ a ∈ range cv.order, ∑ b ∈ range cv.order, ∑ c ∈ range cv.order,
        (let pks := ts.map fun t => t • (a : ℤ) • pp.g; D pks ⟨ts.map fun t => t • (c : ℤ) • pp.g, (b : ℤ) • pp.g⟩) := fun m => by
    refine sum_congr rfl fun a _ => ?_
    simp only [hk, smul_smul]
    exact sum_shift cv pp.g _ fun P => ∑ c ∈ range cv.order,
      D (ts.map fun t => (t * (a : ℤ)) • pp.g) ⟨ts.map fun t => (t * (c : ℤ)) • pp.g, P⟩
  exact gap cv _ _ _ _ _ (e m0) (e m1) _ (z m0) (z m1)

/-- **C111** Re-randomisation of any ciphertext, and re-encryption, give a fresh encryption of the point in it. -/
theorem twisted_reRand_fresh (cv : Curve G) (pp : PP G) (hg : Generates pp.g) (sk : ℤ) (hsk : ¬ (cv.order : ℤ) ∣ sk) (ct : CT G) (f : CT G → ℝ) :
    ∑ r ∈ range cv.order, f (reRand pp (keyGen pp sk) ct r) = ∑ r ∈ range cv.order, f (encPoint pp (keyGen pp sk) (decPoint cv sk ct) r) ∧
      ∀ r, reEnc cv pp (keyGen pp sk) sk ct r = encPoint pp (keyGen pp sk) (decPoint cv sk ct) r := by
  constructor
  · obtain ⟨x, hx⟩ := hg (BigInt.modInverse sk cv.order • ct.X)
    have hX : ct.X = (sk * x) • pp.g := by
      classical
      rw [mul_smul, ← hx]
      rw [smul_comm]
      exact (inv_smul_smul cv sk hsk ct.X).symm
    refine Eq.trans (sum_congr rfl fun r _ => ?_) ((sum_shift cv pp.g x fun P => f ⟨sk • P, P + decPoint cv sk ct⟩).trans (sum_congr rfl fun r _ => ?_))
    · simp only [reRand, keyGen, decPoint, hx]
      rw [hX]
      congr 2
      · module
      · module
    · simp only [encPoint, keyGen]
      congr 2
      module
  · intro r
    rfl

end Twisted

namespace ElGamal25519

/-- **C111 (violation)** The default build of `elgamal.hpp`: `Enc` draws its randomness from a generator seeded with a constant, so an encryption is a
function of key and message that everyone can evaluate, and different messages have different ciphertexts. -/
theorem elgamal25519_guess (mul : Bytes → Bytes → Bytes) (hlen : ∀ s p, (mul s p).length = 32) (fixedSeed : Block) (temp temp' : List Block)
    (h : temp.length = 8) (h' : temp'.length = 8) (g pk : Bytes) :
    ∃ E : Bytes → CT, (∀ m, encRnd mul temp fixedSeed g pk m = some (E m) ∧ encRnd mul temp' fixedSeed g pk m = some (E m)) ∧
      ∀ m0 m1 : Bytes, m0.length = 32 → m1.length = 32 → E m0 = E m1 → m0 = m1 := by
  obtain ⟨k, e⟩ : ∃ b, ∀ t : List Block, t.length = 8 → fixedBytes t fixedSeed = some b := by
    refine ⟨(PRG.bytesOf (PRG.stream (PRG.setSeed fixedSeed 0).key (PRG.setSeed fixedSeed 0).counter 2)).take 32, ?_⟩
    intro t ht
    unfold fixedBytes
    rw [PRG.genRandomBytes_spec t ht]
    rfl
  refine ⟨fun m => enc mul g pk m k, fun m => ⟨by simp only [encRnd, e _ h, Option.map_some], by simp only [encRnd, e _ h', Option.map_some]⟩, ?_⟩
  intro m0 m1 l0 l1 hE
  have := congrArg CT.Y hE
  simp only [enc] at this
  rw [← xor32_cancel (mul k pk) m0 (by rw [hlen, l0]), ← xor32_cancel (mul k pk) m1 (by rw [hlen, l1]), this]

end ElGamal25519

/-- The points of the toy curve are multiples of its generator. -/
theorem toy_generates : Generates toyCurve.gen := by
  intro P
  refine ⟨P.val, ?_⟩
  revert P
  decide

/-- The statements for a concrete group, two messages, and a test that looks at a ciphertext. -/
example : |game toyCurve (fun sk r => if (ElGamal.enc toyCurve.gen (ElGamal.keyGen toyCurve.gen sk) 2 r).Y = 2 then 1 else 0) -
      game toyCurve (fun sk r => if (ElGamal.enc toyCurve.gen (ElGamal.keyGen toyCurve.gen sk) 3 r).Y = 2 then 1 else 0)| ≤
      ddhAdv toyCurve toyCurve.gen (fun _ _ C => if C + 2 = 2 then 1 else 0) + ddhAdv toyCurve toyCurve.gen (fun _ _ C => if C + 3 = 2 then 1 else 0) :=
  ElGamal.elgamal_hides_message toyCurve toyCurve.gen toy_generates (fun _ => 2) (fun _ => 3) (fun _ ct => if ct.Y = 2 then 1 else 0)

/-- That difference is not zero in so small a group. -/
example : game toyCurve (fun sk r => if (ElGamal.enc toyCurve.gen (ElGamal.keyGen toyCurve.gen sk) 2 r).Y = 2 then 1 else 0) ≠
      game toyCurve (fun sk r => if (ElGamal.enc toyCurve.gen (ElGamal.keyGen toyCurve.gen sk) 3 r).Y = 2 then 1 else 0) := by
  have count : ∀ (p : ℤ → ℤ → Prop) [∀ a b, Decidable (p a b)], game toyCurve (fun a b => if p a b then 1 else 0) =
      ((∑ a ∈ range 7, ∑ b ∈ range 7, if p a b then 1 else 0 : ℕ) : ℝ) / 7 ^ 2 := fun p _ => by
    unfold game
    push_cast
    rfl
  rw [count, count]
  have h0 : (∑ a ∈ range 7, ∑ b ∈ range 7, if (ElGamal.enc toyCurve.gen (ElGamal.keyGen toyCurve.gen a) 2 b).Y = 2 then 1 else 0 : ℕ) = 13 := by decide
  have h1 : (∑ a ∈ range 7, ∑ b ∈ range 7, if (ElGamal.enc toyCurve.gen (ElGamal.keyGen toyCurve.gen a) 3 b).Y = 2 then 1 else 0 : ℕ) = 6 := by decide
  rw [h0, h1]
  norm_num

/-- A key for which re-randomisation is stated. -/
example : ¬ ((toyCurve.order : ℤ) ∣ 3) ∧ Generates (⟨1, 3⟩ : Twisted.PP (ZMod 7)).g := ⟨by decide, toy_generates⟩

example : ExpElGamal.decPoint 3 (ExpElGamal.enc toyCurve.gen (ExpElGamal.keyGen toyCurve.gen 3) 2 5) = (2 : ℤ) • toyCurve.gen := by decide

end Kunlun
