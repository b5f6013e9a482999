import Verif.Model.BigInt
import Mathlib.Tactic.Ring
import Mathlib.Tactic.Linarith
import Mathlib.Data.Int.ModEq
/-! Properties C10, C11, C12: big integers. -/

namespace Kunlun.BigInt

open Kunlun

/-! ### C11 -/

/-- Specification: `r` is the canonical residue of `x` modulo `m`. -/
def IsResidue (r x m : Int) : Prop := 0 ≤ r ∧ r < m ∧ r ≡ x [ZMOD m]

theorem residue_emod {x m : Int} (h : 0 < m) : IsResidue (x % m) x m :=
  ⟨Int.emod_nonneg _ (by omega), Int.emod_lt_of_pos _ h, Int.mod_modEq _ _⟩

/-- A residue is determined by the number and the modulus, so the specification fixes the result. -/
theorem isResidue_unique {r r' x m : Int} (h : IsResidue r x m) (h' : IsResidue r' x m) : r = r' := by
  have e : r % m = r' % m := h.2.2.trans h'.2.2.symm
  rwa [Int.emod_eq_of_lt h.1 h.2.1, Int.emod_eq_of_lt h'.1 h'.2.1] at e

theorem mod_eq {a m : Int} (h : 0 < m) : mod a m = a % m := by
  simp [mod, checked, bnNNMod, show m ≠ 0 by omega]

/-- **C11** `Mod`. -/
theorem mod_residue (a : Int) {m : Int} (h : 0 < m) : IsResidue (mod a m) a m := by
  rw [mod_eq h]; exact residue_emod h

/-- **C11** `ModAdd`. -/
theorem modAdd_residue (a b : Int) {m : Int} (h : 0 < m) : IsResidue (modAdd a b m) (a + b) m := mod_residue _ h

/-- **C11** `ModSub`. -/
theorem modSub_residue (a b : Int) {m : Int} (h : 0 < m) : IsResidue (modSub a b m) (a - b) m := mod_residue _ h

/-- **C11** `ModMul`. -/
theorem modMul_residue (a b : Int) {m : Int} (h : 0 < m) : IsResidue (modMul a b m) (a * b) m := mod_residue _ h

/-- **C11** `ModSquare`. -/
theorem modSquare_residue (a : Int) {m : Int} (h : 0 < m) : IsResidue (modSquare a m) (a ^ 2) m := by
  rw [sq]; exact mod_residue _ h

theorem shift_step (p k : Nat) (hk : k ≤ p.log2) :
    p >>> (p.log2 - k) = 2 * (p >>> (p.log2 + 1 - k)) + (if p.testBit (p.log2 - k) then 1 else 0) := by
  have e : p.log2 + 1 - k = (p.log2 - k) + 1 := by omega
  rw [e, Nat.shiftRight_succ, Nat.testBit_eq_decide_div_mod_eq, Nat.shiftRight_eq_div_pow]
  by_cases h : p / 2 ^ (p.log2 - k) % 2 = 1
  · simp only [h, decide_true, if_true]; omega
  · simp only [h, decide_false, Bool.false_eq_true, if_false]; omega

theorem powLoop_spec (a : Int) {m : Int} (h : 0 < m) (p : Nat) (k : Nat) (hk : k ≤ p.log2 + 1) :
    powLoop a m p k ≡ a ^ (p >>> (p.log2 + 1 - k)) [ZMOD m] ∧ 0 ≤ powLoop a m p k ∧ powLoop a m p k < m := by
  induction k with
  | zero =>
    have : p >>> (p.log2 + 1) = 0 := by
      rw [Nat.shiftRight_eq_div_pow, Nat.div_eq_of_lt]
      exact Nat.lt_log2_self
    rw [Nat.sub_zero, this, pow_zero]
    exact ⟨Int.mod_modEq _ _, Int.emod_nonneg _ (by omega), Int.emod_lt_of_pos _ h⟩
  | succ k ih =>
    obtain ⟨ih, _, _⟩ := ih (by omega)
    have hs := shift_step p k (by omega)
    have e : p.log2 + 1 - (k + 1) = p.log2 - k := by omega
    have hsq : powLoop a m p k * powLoop a m p k % m ≡ a ^ (2 * (p >>> (p.log2 + 1 - k))) [ZMOD m] := by
      refine (Int.mod_modEq _ _).trans ?_
      rw [two_mul, pow_add]
      exact ih.mul ih
    rw [e, hs]
    simp only [powLoop]
    split
    · refine ⟨?_, Int.emod_nonneg _ (by omega), Int.emod_lt_of_pos _ h⟩
      rw [pow_succ]
      exact (Int.mod_modEq _ _).trans (hsq.mul_right _)
    · exact ⟨hsq, Int.emod_nonneg _ (by omega), Int.emod_lt_of_pos _ h⟩

/-- **C11** `ModExp` for every base and every non-negative exponent. -/
theorem modExp_residue (a : Int) (p : Nat) {m : Int} (h : 0 < m) : IsResidue (modExp a p m) (a ^ p) m := by
  unfold modExp checked bnModExp
  rw [if_neg (by omega), Option.getD_some]
  by_cases hp : (p : Int) = 0
  · rw [if_pos hp]
    have : p = 0 := by omega
    subst this
    rw [pow_zero]
    exact residue_emod h
  · rw [if_neg hp, Int.natAbs_natCast]
    obtain ⟨e, h1, h2⟩ := powLoop_spec a h p (p.log2 + 1) (Nat.le_refl _)
    rw [Nat.sub_self, Nat.shiftRight_zero] at e
    exact ⟨h1, h2, e⟩

/-- **C11** `ModInverse` of a number coprime to the modulus. -/
theorem modInverse_residue (a : Int) {m : Int} (h : 0 < m) (hc : Int.gcd a m = 1) :
    0 ≤ modInverse a m ∧ modInverse a m < m ∧ modInverse a m * a ≡ 1 [ZMOD m] := by
  have e : modInverse a m = Int.gcdA a m % m := by
    simp [modInverse, checked, bnModInverse, show m ≠ 0 by omega, hc]
  rw [e]
  refine ⟨Int.emod_nonneg _ (by omega), Int.emod_lt_of_pos _ h, ?_⟩
  have hb := Int.gcd_eq_gcd_ab a m
  rw [hc] at hb
  refine ((Int.mod_modEq _ _).mul_right _).trans ?_
  rw [Int.modEq_iff_dvd]
  exact ⟨Int.gcdB a m, by push_cast at hb; linarith⟩

/-- **C11** when no inverse exists the failure is only printed and zero is returned. -/
theorem modInverse_not_coprime (a m : Int) (hc : Int.gcd a m ≠ 1) : modInverse a m = 0 := by
  simp [modInverse, checked, bnModInverse, hc]

/-- **C11** `Div` and `DivAndTruncate` round towards zero: what is left has the sign of the dividend and is smaller than the divisor. -/
theorem divTrunc_spec (a : Int) {b : Int} (h : b ≠ 0) :
    (a - divTrunc a b * b).natAbs < b.natAbs ∧ 0 ≤ (a - divTrunc a b * b) * a ∧ (divTrunc a b * b).natAbs ≤ a.natAbs := by
  have e : divTrunc a b = a.tdiv b := by simp [divTrunc, checked, h]
  have hr : a - a.tdiv b * b = a.tmod b := by
    have := Int.mul_tdiv_add_tmod a b
    rw [mul_comm] at this
    omega
  rw [e, hr]
  have hn : (a.tmod b).natAbs = a.natAbs % b.natAbs := Int.natAbs_tmod a b
  refine ⟨?_, ?_, ?_⟩
  · rw [hn]
    exact Nat.mod_lt _ (Int.natAbs_pos.2 h)
  · rcases le_total 0 a with ha | ha
    · exact mul_nonneg (Int.tmod_nonneg b ha) ha
    · have := Int.tmod_nonneg b (neg_nonneg.2 ha)
      rw [Int.neg_tmod] at this
      exact mul_nonneg_of_nonpos_of_nonpos (by omega) ha
  · rw [Int.natAbs_mul, Int.natAbs_tdiv]
    exact Nat.div_mul_le_self _ _

example : divTrunc (-7) 2 = -3 ∧ (2 : Int) ≠ 0 := by decide

/-- **C11** (partial) `ModNegate` returns the canonical residue of `-a` except when `a` is a non-zero multiple of the modulus.
Missing: that case, in which the property fails (`modNegate_multiple_not_canonical`). -/
theorem modNegate_residue_partial (a : Int) {m : Int} (h : 0 < m) (hm : a = 0 ∨ ¬ m ∣ a) : IsResidue (modNegate a m) (-a) m := by
  unfold modNegate
  rw [mod_eq h]
  by_cases h0 : a = 0
  · rw [if_pos h0, h0]; exact ⟨by omega, h, by simp⟩
  · rw [if_neg h0]
    have hnd : ¬ m ∣ a := by tauto
    have h1 := Int.emod_nonneg a (show m ≠ 0 by omega)
    have h2 := Int.emod_lt_of_pos a h
    have h3 : a % m ≠ 0 := fun e => hnd (Int.dvd_of_emod_eq_zero e)
    refine ⟨by omega, by omega, ?_⟩
    rw [Int.modEq_iff_dvd]
    refine ⟨-(a / m) - 1, ?_⟩
    have := Int.emod_add_mul_ediv a m
    linarith [this]

/-- **C11 is violated by `ModNegate`**: for every non-zero multiple of the modulus it returns the modulus itself instead of 0. -/
theorem modNegate_multiple_not_canonical (a : Int) {m : Int} (h : 0 < m) (h0 : a ≠ 0) (hd : m ∣ a) :
    modNegate a m = m ∧ ¬ IsResidue (modNegate a m) (-a) m := by
  have e : modNegate a m = m := by
    unfold modNegate
    rw [if_neg h0, mod_eq h, Int.emod_eq_zero_of_dvd hd]
    omega
  rw [e]
  exact ⟨rfl, fun ⟨_, h2, _⟩ => by omega⟩

/-- Even then the result is congruent to `-a`, which is all that scalar multiplications by it need. -/
theorem modNegate_congruent (a : Int) {m : Int} (h : 0 < m) : modNegate a m ≡ -a [ZMOD m] := by
  by_cases hm : a = 0 ∨ ¬ m ∣ a
  · exact (modNegate_residue_partial a h hm).2.2
  · simp only [not_or, not_not] at hm
    rw [(modNegate_multiple_not_canonical a h hm.1 hm.2).1]
    have h1 : m ≡ 0 [ZMOD m] := by simp [Int.ModEq]
    have h2 : -a ≡ 0 [ZMOD m] := (Int.modEq_zero_iff_dvd).mpr (by simpa using hm.2)
    exact h1.trans h2.symm

/-- A zero modulus is only reported; the result is 0. -/
theorem mod_zero_modulus (a : Int) : mod a 0 = 0 := rfl

example : IsResidue (mod (-5) 7) (-5) 7 := mod_residue _ (by decide)
example : mod (-5) 7 = 2 ∧ modNegate 14 7 = 7 ∧ modExp 3 5 7 = 5 ∧ modInverse 3 7 = 5 := by decide +kernel
example : Int.gcd 3 7 = 1 := by decide

/-- Bit access: for a non-negative number `GetTheNthBit` is its binary digit. -/
theorem nthBit_spec (a : Nat) (j : Nat) : nthBit a j = a / 2 ^ j % 2 := by
  have e : rshift (a : Int) j = ((a >>> j : Nat) : Int) := by
    unfold rshift
    rcases Nat.eq_zero_or_pos a with rfl | h
    · simp
    · rw [Int.sign_eq_one_of_pos (by exact_mod_cast h)]; simp
  have e2 : ∀ n : Nat, lastNBits (n : Int) 1 = ((n % 2 : Nat) : Int) := by
    intro n
    unfold lastNBits
    rcases Nat.eq_zero_or_pos n with rfl | h
    · simp
    · rw [Int.sign_eq_one_of_pos (by exact_mod_cast h)]; simp
  unfold nthBit
  rw [e, e2, Nat.shiftRight_eq_div_pow]
  rcases Nat.mod_two_eq_zero_or_one (a / 2 ^ j) with h | h <;> simp [h]

/-- `GenRandomBigIntBetween(start, end)` lies in `[start, end)` for every draw of the underlying generator in `[0, end − start)`. -/
theorem randomBetween_range (s e r : Int) (h0 : 0 ≤ r) (h1 : r < e - s) :
    s ≤ randomBetween s e r ∧ randomBetween s e r < e := by
  unfold randomBetween; omega

/-! ### C12 -/

/-- **C12** `BigIntVectorModNegate`: entry by entry the negative modulo `m` (the modulus itself for a nonzero multiple of it, as `ModNegate`). -/
theorem vecModNegate_spec (a : List Int) {m : Int} (h : 0 < m) :
    (vecModNegate a m).length = a.length ∧ ∀ (i : Nat) x, a[i]? = some x → ∃ z, (vecModNegate a m)[i]? = some z ∧ z ≡ -x [ZMOD m] ∧
      (x = 0 ∨ ¬ m ∣ x → IsResidue z (-x) m) ∧ 0 ≤ z ∧ z ≤ m := by
  refine ⟨by simp [vecModNegate], fun i x hx => ⟨modNegate x m, by simp [vecModNegate, hx], modNegate_congruent x h, modNegate_residue_partial x h, ?_⟩⟩
  by_cases hm : x = 0 ∨ ¬ m ∣ x
  · have := modNegate_residue_partial x h hm
    exact ⟨this.1, this.2.1.le⟩
  · simp only [not_or, not_not] at hm
    rw [(modNegate_multiple_not_canonical x h hm.1 hm.2).1]
    omega

example : vecModNegate [3, 0, 14] 7 = [4, 0, 7] := by decide +kernel

/-- **C12** sums. -/
theorem vecModAdd_spec (a b : List Int) {m : Int} (h : 0 < m) :
    (a.length ≠ b.length → vecModAdd a b m = none) ∧
    (a.length = b.length → ∃ r, vecModAdd a b m = some r ∧ r.length = a.length ∧
      ∀ (i : Nat) x y, a[i]? = some x → b[i]? = some y → ∃ z, r[i]? = some z ∧ IsResidue z (x + y) m) := by
  refine ⟨fun hl => by simp [vecModAdd, hl], fun hl => ⟨_, by simp only [vecModAdd, hl, ne_eq, not_true_eq_false, if_false]; rfl,
    by simp [hl], ?_⟩⟩
  intro i x y hx hy
  exact ⟨_, by simp [List.getElem?_zipWith, hx, hy], mod_residue _ h⟩

/-- **C12** differences. -/
theorem vecModSub_spec (a b : List Int) {m : Int} (h : 0 < m) :
    (a.length ≠ b.length → vecModSub a b m = none) ∧
    (a.length = b.length → ∃ r, vecModSub a b m = some r ∧ r.length = a.length ∧
      ∀ (i : Nat) x y, a[i]? = some x → b[i]? = some y → ∃ z, r[i]? = some z ∧ IsResidue z (x - y) m) := by
  refine ⟨fun hl => by simp [vecModSub, hl], fun hl => ⟨_, by simp only [vecModSub, hl, ne_eq, not_true_eq_false, if_false]; rfl,
    by simp [hl], ?_⟩⟩
  intro i x y hx hy
  exact ⟨_, by simp [List.getElem?_zipWith, hx, hy], mod_residue _ h⟩

/-- **C12** coordinate-wise products. -/
theorem vecModProduct_spec (a b : List Int) {m : Int} (h : 0 < m) :
    (a.length ≠ b.length → vecModProduct a b m = none) ∧
    (a.length = b.length → ∃ r, vecModProduct a b m = some r ∧ r.length = a.length ∧
      ∀ (i : Nat) x y, a[i]? = some x → b[i]? = some y → ∃ z, r[i]? = some z ∧ IsResidue z (x * y) m) := by
  refine ⟨fun hl => by simp [vecModProduct, hl], fun hl => ⟨_, by simp only [vecModProduct, hl, ne_eq, not_true_eq_false, if_false]; rfl,
    by simp [hl], ?_⟩⟩
  intro i x y hx hy
  exact ⟨_, by simp [List.getElem?_zipWith, hx, hy], mod_residue _ h⟩

/-- **C12** scaling. -/
theorem vecModScalar_spec (a : List Int) (c : Int) {m : Int} (h : 0 < m) :
    (vecModScalar a c m).length = a.length ∧
      ∀ (i : Nat) x, a[i]? = some x → ∃ z, (vecModScalar a c m)[i]? = some z ∧ IsResidue z (x * c) m := by
  refine ⟨by simp [vecModScalar], ?_⟩
  intro i x hx
  exact ⟨_, by simp [vecModScalar, hx], mod_residue _ h⟩

/-- **C12** inverses, for coordinates coprime to the modulus. -/
theorem vecModInverse_spec (a : List Int) {m : Int} (h : 0 < m) :
    (vecModInverse a m).length = a.length ∧
      ∀ (i : Nat) x, a[i]? = some x → Int.gcd x m = 1 →
        ∃ z, (vecModInverse a m)[i]? = some z ∧ 0 ≤ z ∧ z < m ∧ z * x ≡ 1 [ZMOD m] := by
  refine ⟨by simp [vecModInverse], ?_⟩
  intro i x hx hc
  exact ⟨_, by simp [vecModInverse, hx], modInverse_residue x h hc⟩

theorem dotLoop_eq (a b : List Int) (acc : Int) (hl : a.length = b.length) :
    dotLoop a b acc = acc + (List.zipWith (· * ·) a b).sum := by
  induction a generalizing b acc with
  | nil => cases b with
    | nil => simp [dotLoop]
    | cons => simp at hl
  | cons x a ih => cases b with
    | nil => simp at hl
    | cons y b =>
      simp only [List.length_cons, Nat.add_right_cancel_iff] at hl
      simp [dotLoop, ih b _ hl]
      ring

/-- **C12** inner product: the canonical residue of `Σ a_i b_i`; different lengths end the program. -/
theorem vecModInnerProduct_spec (a b : List Int) {m : Int} (h : 0 < m) :
    (a.length ≠ b.length → vecModInnerProduct a b m = none) ∧
    (a.length = b.length → ∃ r, vecModInnerProduct a b m = some r ∧ IsResidue r (List.zipWith (· * ·) a b).sum m) := by
  refine ⟨fun hl => by simp [vecModInnerProduct, hl], fun hl => ⟨_, by simp only [vecModInnerProduct, hl, ne_eq, not_true_eq_false, if_false]; rfl, ?_⟩⟩
  rw [dotLoop_eq a b 0 hl, zero_add]
  exact mod_residue _ h

example : vecModInnerProduct [1, 2, 3] [4, 5, 6] 7 = some 4 ∧ vecModAdd [1] [2, 3] 7 = none := by decide

/-! ### C10 -/

theorem bin2bn_bn2binpad (a : Nat) (buf : Bytes) (h : a < 256 ^ buf.length) : bin2bn (bn2binpad (a : Int) buf) = a := by
  unfold bin2bn bn2binpad
  rw [Int.natAbs_natCast, if_pos h, ofBE_beBytes _ _ h]

/-- **C10** `operator<<` / `operator>>` on numbers that fit `BN_BYTE_LEN` bytes, whatever the uninitialised buffer held. -/
theorem bigint_stream_round_trip (a : Nat) (garbage : Bytes) (h : a < 256 ^ garbage.length) : get (put garbage a) = a :=
  bin2bn_bn2binpad a garbage h

/-- **C10** `ToByteVector(LEN)` / `FromByteVector`. -/
theorem bigint_byteVector_round_trip (a len : Nat) (h : a < 256 ^ len) : fromByteVector (toByteVector len a) = a :=
  bin2bn_bn2binpad a _ (by simpa using h)

/-- **C10** the encodings have the fixed length, and distinct numbers have distinct encodings. -/
theorem bigint_byteVector_injective (a b len : Nat) (ha : a < 256 ^ len) (hb : b < 256 ^ len) :
    (toByteVector len a).length = len ∧ (toByteVector len a = toByteVector len b → a = b) := by
  refine ⟨by simp [toByteVector, bn2binpad, ha], fun e => ?_⟩
  have h1 := bigint_byteVector_round_trip a len ha
  have h2 := bigint_byteVector_round_trip b len hb
  rw [e, h2] at h1
  exact_mod_cast h1.symm

/-- **C10** the same for `operator<<`: independent of the buffer garbage. -/
theorem bigint_stream_injective (a b : Nat) (g g' : Bytes) (hl : g.length = g'.length) (ha : a < 256 ^ g.length) (hb : b < 256 ^ g.length) :
    (put g a).length = g.length ∧ (put g a = put g' b → a = b) := by
  refine ⟨by simp [put, bn2binpad, ha], fun e => ?_⟩
  have h1 := bigint_stream_round_trip a g ha
  have h2 := bigint_stream_round_trip b g' (by rw [← hl]; exact hb)
  rw [e, h2] at h1
  exact_mod_cast h1.symm

theorem lt_pow_numBytes (a : Nat) : a < 256 ^ numBytes (a : Int) := by
  unfold numBytes
  by_cases h : a = 0
  · subst h; decide
  · rw [if_neg (by exact_mod_cast h), Int.natAbs_natCast]
    have h1 : a < 2 ^ (a.log2 + 1) := Nat.lt_log2_self
    have h2 : 2 ^ (a.log2 + 1) ≤ 2 ^ (8 * (a.log2 / 8 + 1)) := Nat.pow_le_pow_right (by decide) (by omega)
    rw [show (256 : Nat) = 2 ^ 8 from rfl, ← Nat.pow_mul]
    omega

/-- **C10** `ToByteString()` (used in Fiat–Shamir transcripts) determines the number. -/
theorem bigint_byteString_round_trip (a : Nat) : fromByteVector (toByteString a) = a := by
  unfold fromByteVector toByteString bin2bn
  rw [Int.natAbs_natCast, ofBE_beBytes _ _ (lt_pow_numBytes a)]

/-- Boundary of C10: the sign is lost. -/
theorem bigint_sign_lost (a : Nat) (garbage : Bytes) (h : a < 256 ^ garbage.length) : get (put garbage (-(a : Int))) = a := by
  unfold get put bin2bn bn2binpad
  rw [Int.natAbs_neg, Int.natAbs_natCast, if_pos h, ofBE_beBytes _ _ h]

/-- Boundary of C10: a number that does not fit writes the uninitialised buffer. -/
theorem bigint_oversized_writes_garbage (a : Nat) (garbage : Bytes) (h : 256 ^ garbage.length ≤ a) : put garbage a = garbage := by
  unfold put bn2binpad
  rw [Int.natAbs_natCast, if_neg (by omega)]

/-- Boundary of C10: `ToByteString()` has variable length, so concatenated strings do not determine the numbers. -/
theorem bigint_byteString_concat_ambiguous :
    toByteString 0x0102 ++ toByteString 3 = toByteString 1 ++ toByteString 0x0203 := by decide

example : (2 ^ 256 - 1 : Nat) < 256 ^ (List.replicate 32 (0 : UInt8)).length := by decide

end Kunlun.BigInt
