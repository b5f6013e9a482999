import Verif.Model.WordLemmas
/-!
Property C70: word tricks.
-/

namespace Kunlun.Word

/-- **C70** `upperpower2`: for every argument in `[1, 2^31]` the result is the least power of two not below it. -/
theorem upperpower2_least (x : BitVec 32) (h1 : 1 ≤ x.toNat) (h2 : x.toNat ≤ 2 ^ 31) :
    ∃ k, (upperpower2 x).toNat = 2 ^ k ∧ x.toNat ≤ 2 ^ k ∧ ∀ j, x.toNat ≤ 2 ^ j → 2 ^ k ≤ 2 ^ j := by
  by_cases hx : x.toNat = 1
  · have : x = 1#32 := BitVec.eq_of_toNat_eq hx
    subst this
    refine ⟨0, by decide, by decide, ?_⟩
    intro j _
    exact Nat.two_pow_pos j
  · refine ⟨_, upperpower2_toNat x (by omega) h2, ?_, ?_⟩
    · have := Nat.lt_log2_self (n := x.toNat - 1)
      omega
    · intro j hj
      apply Nat.pow_le_pow_right (by decide)
      have h0 : x.toNat - 1 ≠ 0 := by omega
      have := (Nat.log2_lt (n := x.toNat - 1) (k := j) h0).mpr (by omega)
      omega

/-- **C70** (boundary) outside that range the result is 0, not a power of two. -/
theorem upperpower2_out_of_range (x : BitVec 32) (h : x.toNat = 0 ∨ 2 ^ 31 < x.toNat) :
    upperpower2 x = 0#32 := by
  have hm : (x - 1#32).toNat = if x.toNat = 0 then 2 ^ 32 - 1 else x.toNat - 1 := by
    have hx := x.isLt
    rw [BitVec.toNat_sub, show (1#32).toNat = 1 from rfl]
    split <;> omega
  have hge : 2 ^ 31 ≤ (x - 1#32).toNat := by
    rw [hm]; split <;> omega
  have hlt := (x - 1#32).isLt
  have hs := smear_eq (x - 1#32)
  simp only at hs
  have hlog : (x - 1#32).toNat.log2 = 31 := by
    have a := (Nat.le_log2 (n := (x - 1#32).toNat) (k := 31) (by omega)).mpr hge
    have b := (Nat.log2_lt (n := (x - 1#32).toNat) (k := 32) (by omega)).mpr hlt
    omega
  rw [if_neg (by omega), hlog] at hs
  unfold upperpower2
  simp only
  apply BitVec.eq_of_toNat_eq
  rw [BitVec.toNat_add, hs]
  rfl

/-- **C70** `IsPowerOfTwo` decides exactly the powers of two, for every word. -/
theorem isPowerOfTwo_iff (x : BitVec 64) : isPowerOfTwo x = true ↔ ∃ k, x.toNat = 2 ^ k := by
  unfold isPowerOfTwo
  by_cases hx : x = 0#64
  · subst hx
    simp only [bne_self_eq_false, Bool.false_and, Bool.false_eq_true, false_iff]
    rintro ⟨k, hk⟩
    have : 0 < 2 ^ k := Nat.two_pow_pos k
    simp at hk; omega
  · have hn : x.toNat ≠ 0 := fun h => hx (BitVec.eq_of_toNat_eq h)
    have hsub : (x - 1#64).toNat = x.toNat - 1 := by
      have := x.isLt
      rw [BitVec.toNat_sub, show (1#64).toNat = 1 from rfl]; omega
    have hz : (x &&& (x - 1#64)) = 0#64 ↔ x.toNat &&& (x.toNat - 1) = 0 := by
      rw [← BitVec.toNat_inj, BitVec.toNat_and, hsub]; rfl
    simp only [Bool.and_eq_true, bne_iff_ne, ne_eq, hx, not_false_eq_true, true_and, beq_iff_eq]
    rw [hz, Nat.and_sub_one_eq_zero_iff_isPowerOfTwo hn]
    rfl

/-- **C70** the packed search used by the filter: true exactly when one of the four 16-bit slots holds the tag. -/
theorem hasvalue16_iff (x : BitVec 64) (tag : Nat) (h : tag < 2 ^ 16) :
    hasvalue16 x tag ≠ 0#64 ↔ ∃ i, i < 4 ∧ x.toNat / 2 ^ (16 * i) % 2 ^ 16 = tag :=
  hasvalue16_iff_lane x tag h

/-- **C70** four 12-bit slots. -/
theorem hasvalue12_iff (x : BitVec 64) (tag : Nat) (h : tag < 2 ^ 12) :
    hasvalue12 x tag ≠ 0#64 ↔ ∃ i, i < 4 ∧ x.toNat / 2 ^ (12 * i) % 2 ^ 12 = tag :=
  hasvalue12_iff_lane x tag h

/-- **C70** four 8-bit slots. -/
theorem hasvalue8_iff (x : BitVec 64) (tag : Nat) (h : tag < 2 ^ 8) :
    hasvalue8 x tag ≠ 0#64 ↔ ∃ i, i < 4 ∧ x.toNat / 2 ^ (8 * i) % 2 ^ 8 = tag :=
  hasvalue8_iff_lane x tag h

/-- **C70** four 4-bit slots. -/
theorem hasvalue4_iff (x : BitVec 64) (tag : Nat) (h : tag < 2 ^ 4) :
    hasvalue4 x tag ≠ 0#64 ↔ ∃ i, i < 4 ∧ x.toNat / 2 ^ (4 * i) % 2 ^ 4 = tag :=
  hasvalue4_iff_lane x tag h

/-! Non-vacuity: the hypotheses are met by concrete words. -/
example : 1 ≤ (1000#32).toNat ∧ (1000#32).toNat ≤ 2 ^ 31 ∧ upperpower2 1000#32 = 1024#32 := by decide
example : hasvalue16 0x1234_0000_FFFF_0007#64 0x1234 ≠ 0#64 ∧ hasvalue16 0x1234_0000_FFFF_0007#64 0x1235 = 0#64 := by
  decide

end Kunlun.Word
