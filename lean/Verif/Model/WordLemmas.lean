import Verif.Model.WordTricks
/-! Helper lemmas for the word tricks. -/

namespace Kunlun.Word

/-- lane `i` of width `w` of a word -/
def lane (w : Nat) (x : BitVec 64) (i : Nat) : Nat := x.toNat / 2 ^ (w * i) % 2 ^ w

theorem ne_zero_iff_bit {n : Nat} (x : BitVec n) : x ≠ 0#n ↔ ∃ i, i < n ∧ x.getLsbD i = true := by
  constructor
  · intro h
    apply Classical.byContradiction
    intro hne
    apply h
    apply BitVec.eq_of_getLsbD_eq
    intro i hi
    simp only [BitVec.getLsbD_zero]
    cases hb : x.getLsbD i with
    | false => rfl
    | true => exact absurd ⟨i, hi, hb⟩ hne
  · rintro ⟨i, _, hb⟩ rfl
    simp at hb

theorem bit_iff (x : BitVec 64) (i : Nat) : x.getLsbD i = true ↔ x.toNat / 2 ^ i % 2 = 1 := by
  rw [← BitVec.testBit_toNat, Nat.testBit_eq_decide_div_mod_eq, decide_eq_true_eq]

/-- The mask-and-test form of `haszero`. -/
theorem haszero_iff (x one msk : BitVec 64) (a b c d : Nat) (hd : d < 64) (hab : a < d ∧ b < d ∧ c < d)
    (hm : ∀ i, i < 64 → (msk.getLsbD i = true ↔ i = a ∨ i = b ∨ i = c ∨ i = d)) :
    ((x - one) &&& (~~~x) &&& msk) ≠ 0#64 ↔
      ∃ i, (i = a ∨ i = b ∨ i = c ∨ i = d) ∧ (x - one).toNat / 2 ^ i % 2 = 1 ∧ x.toNat / 2 ^ i % 2 = 0 := by
  rw [ne_zero_iff_bit]
  constructor
  · rintro ⟨i, hi, h⟩
    simp only [BitVec.getLsbD_and, BitVec.getLsbD_not, Bool.and_eq_true, hi, decide_true, Bool.true_and,
      Bool.not_eq_true'] at h
    refine ⟨i, (hm i hi).mp h.2, (bit_iff _ _).mp h.1.1, ?_⟩
    have : ¬ x.getLsbD i = true := by rw [h.1.2]; simp
    rw [bit_iff] at this
    omega
  · rintro ⟨i, hi, h1, h2⟩
    have hlt : i < 64 := by omega
    refine ⟨i, hlt, ?_⟩
    simp only [BitVec.getLsbD_and, BitVec.getLsbD_not, Bool.and_eq_true, hlt, decide_true, Bool.true_and,
      Bool.not_eq_true']
    refine ⟨⟨(bit_iff _ _).mpr h1, ?_⟩, (hm i hlt).mpr hi⟩
    have : ¬ x.getLsbD i = true := by rw [bit_iff]; omega
    simpa using this

theorem xor_eq_zero_iff' {a b : Nat} : a ^^^ b = 0 ↔ a = b := by
  constructor
  · intro h
    apply Nat.eq_of_testBit_eq
    intro i
    have := congrArg (fun n => n.testBit i) h
    simp only [Nat.testBit_xor, Nat.zero_testBit] at this
    cases ha : a.testBit i <;> cases hb : b.testBit i <;> simp_all
  · rintro rfl; simp

theorem lane_xor (w : Nat) (x y : BitVec 64) (i : Nat) : lane w (x ^^^ y) i = lane w x i ^^^ lane w y i := by
  unfold lane
  rw [BitVec.toNat_xor, ← Nat.shiftRight_eq_div_pow, Nat.shiftRight_xor_distrib, Nat.xor_mod_two_pow,
    Nat.shiftRight_eq_div_pow, Nat.shiftRight_eq_div_pow]

theorem haszero4_iff (x : BitVec 64) : haszero4 x ≠ 0#64 ↔ ∃ i, i < 4 ∧ lane 4 x i = 0 := by
  unfold haszero4
  rw [haszero_iff x _ _ 3 7 11 15 (by omega) (by omega) (by decide)]
  have hx := x.isLt
  have hs : (x - 0x1111#64).toNat = (x.toNat + 2 ^ 64 - 4369) % 2 ^ 64 := by
    rw [BitVec.toNat_sub, show (0x1111#64).toNat = 4369 from rfl]
    omega
  rw [hs]
  unfold lane
  generalize x.toNat = X at *
  simp only [Nat.reducePow] at *
  constructor
  · rintro ⟨i, hi, h1, h2⟩
    apply Classical.byContradiction
    intro hne
    have l0 : X / 2 ^ (4 * 0) % 16 ≠ 0 := fun h => hne ⟨0, by omega, h⟩
    have l1 : X / 2 ^ (4 * 1) % 16 ≠ 0 := fun h => hne ⟨1, by omega, h⟩
    have l2 : X / 2 ^ (4 * 2) % 16 ≠ 0 := fun h => hne ⟨2, by omega, h⟩
    have l3 : X / 2 ^ (4 * 3) % 16 ≠ 0 := fun h => hne ⟨3, by omega, h⟩
    simp only [Nat.reducePow, Nat.reduceMul] at l0 l1 l2 l3
    rcases hi with rfl | rfl | rfl | rfl <;> simp only [Nat.reducePow] at h1 h2 <;> omega
  · rintro ⟨i, hi, h⟩
    by_cases l0 : X % 16 = 0
    · exact ⟨3, by simp, by simp only [Nat.reducePow]; omega, by simp only [Nat.reducePow]; omega⟩
    by_cases l1 : X / 16 % 16 = 0
    · exact ⟨7, by simp, by simp only [Nat.reducePow]; omega, by simp only [Nat.reducePow]; omega⟩
    by_cases l2 : X / 256 % 16 = 0
    · exact ⟨11, by simp, by simp only [Nat.reducePow]; omega, by simp only [Nat.reducePow]; omega⟩
    by_cases l3 : X / 4096 % 16 = 0
    · exact ⟨15, by simp, by simp only [Nat.reducePow]; omega, by simp only [Nat.reducePow]; omega⟩
    exfalso
    have : i = 0 ∨ i = 1 ∨ i = 2 ∨ i = 3 := by omega
    rcases this with rfl | rfl | rfl | rfl <;> simp at h <;> omega

theorem hasvalue4_iff_lane (x : BitVec 64) (n : Nat) (hn : n < 16) :
    hasvalue4 x n ≠ 0#64 ↔ ∃ i, i < 4 ∧ lane 4 x i = n := by
  unfold hasvalue4
  rw [haszero4_iff]
  have hc : (0x1111#64 * BitVec.ofNat 64 n).toNat = 4369 * n := by
    rw [BitVec.toNat_mul, show (0x1111#64).toNat = 4369 from rfl, BitVec.toNat_ofNat]
    omega
  have key : ∀ i, i < 4 → (lane 4 (x ^^^ (0x1111#64 * BitVec.ofNat 64 n)) i = 0 ↔ lane 4 x i = n) := by
    intro i hi
    rw [lane_xor, xor_eq_zero_iff']
    have : lane 4 (0x1111#64 * BitVec.ofNat 64 n) i = n := by
      unfold lane
      rw [hc]
      have : i = 0 ∨ i = 1 ∨ i = 2 ∨ i = 3 := by omega
      have d0 : 4369 * n / 1 = 4369 * n := by omega
      have e0 : 4369 * n % 16 = n := by omega
      have d1 : 4369 * n / 16 = 273 * n := by omega
      have e1 : 273 * n % 16 = n := by omega
      have d2 : 4369 * n / 256 = 17 * n := by omega
      have e2 : 17 * n % 16 = n := by omega
      have d3 : 4369 * n / 4096 = n := by omega
      have e3 : n % 16 = n := by omega
      rcases this with rfl | rfl | rfl | rfl <;> simp only [Nat.reducePow, Nat.reduceMul, d0, d1, d2, d3, e0, e1, e2, e3]
    rw [this]
  constructor
  · rintro ⟨i, hi, h⟩; exact ⟨i, hi, (key i hi).mp h⟩
  · rintro ⟨i, hi, h⟩; exact ⟨i, hi, (key i hi).mpr h⟩

theorem haszero8_iff (x : BitVec 64) : haszero8 x ≠ 0#64 ↔ ∃ i, i < 4 ∧ lane 8 x i = 0 := by
  unfold haszero8
  rw [haszero_iff x _ _ 7 15 23 31 (by omega) (by omega) (by decide)]
  have hx := x.isLt
  have hs : (x - 0x01010101#64).toNat = (x.toNat + 2 ^ 64 - 16843009) % 2 ^ 64 := by
    rw [BitVec.toNat_sub, show (0x01010101#64).toNat = 16843009 from rfl]
    omega
  rw [hs]
  unfold lane
  generalize x.toNat = X at *
  simp only [Nat.reducePow] at *
  constructor
  · rintro ⟨i, hi, h1, h2⟩
    apply Classical.byContradiction
    intro hne
    have l0 : X / 2 ^ (8 * 0) % 256 ≠ 0 := fun h => hne ⟨0, by omega, h⟩
    have l1 : X / 2 ^ (8 * 1) % 256 ≠ 0 := fun h => hne ⟨1, by omega, h⟩
    have l2 : X / 2 ^ (8 * 2) % 256 ≠ 0 := fun h => hne ⟨2, by omega, h⟩
    have l3 : X / 2 ^ (8 * 3) % 256 ≠ 0 := fun h => hne ⟨3, by omega, h⟩
    simp only [Nat.reducePow, Nat.reduceMul] at l0 l1 l2 l3
    rcases hi with rfl | rfl | rfl | rfl <;> simp only [Nat.reducePow] at h1 h2 <;> omega
  · rintro ⟨i, hi, h⟩
    by_cases l0 : X % 256 = 0
    · exact ⟨7, by simp, by simp only [Nat.reducePow]; omega, by simp only [Nat.reducePow]; omega⟩
    by_cases l1 : X / 256 % 256 = 0
    · exact ⟨15, by simp, by simp only [Nat.reducePow]; omega, by simp only [Nat.reducePow]; omega⟩
    by_cases l2 : X / 65536 % 256 = 0
    · exact ⟨23, by simp, by simp only [Nat.reducePow]; omega, by simp only [Nat.reducePow]; omega⟩
    by_cases l3 : X / 16777216 % 256 = 0
    · exact ⟨31, by simp, by simp only [Nat.reducePow]; omega, by simp only [Nat.reducePow]; omega⟩
    exfalso
    have : i = 0 ∨ i = 1 ∨ i = 2 ∨ i = 3 := by omega
    rcases this with rfl | rfl | rfl | rfl <;> simp at h <;> omega

theorem hasvalue8_iff_lane (x : BitVec 64) (n : Nat) (hn : n < 256) :
    hasvalue8 x n ≠ 0#64 ↔ ∃ i, i < 4 ∧ lane 8 x i = n := by
  unfold hasvalue8
  rw [haszero8_iff]
  have hc : (0x01010101#64 * BitVec.ofNat 64 n).toNat = 16843009 * n := by
    rw [BitVec.toNat_mul, show (0x01010101#64).toNat = 16843009 from rfl, BitVec.toNat_ofNat]
    omega
  have key : ∀ i, i < 4 → (lane 8 (x ^^^ (0x01010101#64 * BitVec.ofNat 64 n)) i = 0 ↔ lane 8 x i = n) := by
    intro i hi
    rw [lane_xor, xor_eq_zero_iff']
    have : lane 8 (0x01010101#64 * BitVec.ofNat 64 n) i = n := by
      unfold lane
      rw [hc]
      have : i = 0 ∨ i = 1 ∨ i = 2 ∨ i = 3 := by omega
      have d0 : 16843009 * n / 1 = 16843009 * n := by omega
      have e0 : 16843009 * n % 256 = n := by omega
      have d1 : 16843009 * n / 256 = 65793 * n := by omega
      have e1 : 65793 * n % 256 = n := by omega
      have d2 : 16843009 * n / 65536 = 257 * n := by omega
      have e2 : 257 * n % 256 = n := by omega
      have d3 : 16843009 * n / 16777216 = n := by omega
      have e3 : n % 256 = n := by omega
      rcases this with rfl | rfl | rfl | rfl <;> simp only [Nat.reducePow, Nat.reduceMul, d0, d1, d2, d3, e0, e1, e2, e3]
    rw [this]
  constructor
  · rintro ⟨i, hi, h⟩; exact ⟨i, hi, (key i hi).mp h⟩
  · rintro ⟨i, hi, h⟩; exact ⟨i, hi, (key i hi).mpr h⟩

theorem haszero12_iff (x : BitVec 64) : haszero12 x ≠ 0#64 ↔ ∃ i, i < 4 ∧ lane 12 x i = 0 := by
  unfold haszero12
  rw [haszero_iff x _ _ 11 23 35 47 (by omega) (by omega) (by decide)]
  have hx := x.isLt
  have hs : (x - 0x001001001001#64).toNat = (x.toNat + 2 ^ 64 - 68736258049) % 2 ^ 64 := by
    rw [BitVec.toNat_sub, show (0x001001001001#64).toNat = 68736258049 from rfl]
    omega
  rw [hs]
  unfold lane
  generalize x.toNat = X at *
  simp only [Nat.reducePow] at *
  constructor
  · rintro ⟨i, hi, h1, h2⟩
    apply Classical.byContradiction
    intro hne
    have l0 : X / 2 ^ (12 * 0) % 4096 ≠ 0 := fun h => hne ⟨0, by omega, h⟩
    have l1 : X / 2 ^ (12 * 1) % 4096 ≠ 0 := fun h => hne ⟨1, by omega, h⟩
    have l2 : X / 2 ^ (12 * 2) % 4096 ≠ 0 := fun h => hne ⟨2, by omega, h⟩
    have l3 : X / 2 ^ (12 * 3) % 4096 ≠ 0 := fun h => hne ⟨3, by omega, h⟩
    simp only [Nat.reducePow, Nat.reduceMul] at l0 l1 l2 l3
    rcases hi with rfl | rfl | rfl | rfl <;> simp only [Nat.reducePow] at h1 h2 <;> omega
  · rintro ⟨i, hi, h⟩
    by_cases l0 : X % 4096 = 0
    · exact ⟨11, by simp, by simp only [Nat.reducePow]; omega, by simp only [Nat.reducePow]; omega⟩
    by_cases l1 : X / 4096 % 4096 = 0
    · exact ⟨23, by simp, by simp only [Nat.reducePow]; omega, by simp only [Nat.reducePow]; omega⟩
    by_cases l2 : X / 16777216 % 4096 = 0
    · exact ⟨35, by simp, by simp only [Nat.reducePow]; omega, by simp only [Nat.reducePow]; omega⟩
    by_cases l3 : X / 68719476736 % 4096 = 0
    · exact ⟨47, by simp, by simp only [Nat.reducePow]; omega, by simp only [Nat.reducePow]; omega⟩
    exfalso
    have : i = 0 ∨ i = 1 ∨ i = 2 ∨ i = 3 := by omega
    rcases this with rfl | rfl | rfl | rfl <;> simp at h <;> omega

theorem hasvalue12_iff_lane (x : BitVec 64) (n : Nat) (hn : n < 4096) :
    hasvalue12 x n ≠ 0#64 ↔ ∃ i, i < 4 ∧ lane 12 x i = n := by
  unfold hasvalue12
  rw [haszero12_iff]
  have hc : (0x001001001001#64 * BitVec.ofNat 64 n).toNat = 68736258049 * n := by
    rw [BitVec.toNat_mul, show (0x001001001001#64).toNat = 68736258049 from rfl, BitVec.toNat_ofNat]
    omega
  have key : ∀ i, i < 4 → (lane 12 (x ^^^ (0x001001001001#64 * BitVec.ofNat 64 n)) i = 0 ↔ lane 12 x i = n) := by
    intro i hi
    rw [lane_xor, xor_eq_zero_iff']
    have : lane 12 (0x001001001001#64 * BitVec.ofNat 64 n) i = n := by
      unfold lane
      rw [hc]
      have : i = 0 ∨ i = 1 ∨ i = 2 ∨ i = 3 := by omega
      have d0 : 68736258049 * n / 1 = 68736258049 * n := by omega
      have e0 : 68736258049 * n % 4096 = n := by omega
      have d1 : 68736258049 * n / 4096 = 16781313 * n := by omega
      have e1 : 16781313 * n % 4096 = n := by omega
      have d2 : 68736258049 * n / 16777216 = 4097 * n := by omega
      have e2 : 4097 * n % 4096 = n := by omega
      have d3 : 68736258049 * n / 68719476736 = n := by omega
      have e3 : n % 4096 = n := by omega
      rcases this with rfl | rfl | rfl | rfl <;> simp only [Nat.reducePow, Nat.reduceMul, d0, d1, d2, d3, e0, e1, e2, e3]
    rw [this]
  constructor
  · rintro ⟨i, hi, h⟩; exact ⟨i, hi, (key i hi).mp h⟩
  · rintro ⟨i, hi, h⟩; exact ⟨i, hi, (key i hi).mpr h⟩

theorem haszero16_iff (x : BitVec 64) : haszero16 x ≠ 0#64 ↔ ∃ i, i < 4 ∧ lane 16 x i = 0 := by
  unfold haszero16
  rw [haszero_iff x _ _ 15 31 47 63 (by omega) (by omega) (by decide)]
  have hx := x.isLt
  have hs : (x - 0x0001000100010001#64).toNat = (x.toNat + 2 ^ 64 - 281479271743489) % 2 ^ 64 := by
    rw [BitVec.toNat_sub, show (0x0001000100010001#64).toNat = 281479271743489 from rfl]
    omega
  rw [hs]
  unfold lane
  generalize x.toNat = X at *
  simp only [Nat.reducePow] at *
  constructor
  · rintro ⟨i, hi, h1, h2⟩
    apply Classical.byContradiction
    intro hne
    have l0 : X / 2 ^ (16 * 0) % 65536 ≠ 0 := fun h => hne ⟨0, by omega, h⟩
    have l1 : X / 2 ^ (16 * 1) % 65536 ≠ 0 := fun h => hne ⟨1, by omega, h⟩
    have l2 : X / 2 ^ (16 * 2) % 65536 ≠ 0 := fun h => hne ⟨2, by omega, h⟩
    have l3 : X / 2 ^ (16 * 3) % 65536 ≠ 0 := fun h => hne ⟨3, by omega, h⟩
    simp only [Nat.reducePow, Nat.reduceMul] at l0 l1 l2 l3
    rcases hi with rfl | rfl | rfl | rfl <;> simp only [Nat.reducePow] at h1 h2 <;> omega
  · rintro ⟨i, hi, h⟩
    by_cases l0 : X % 65536 = 0
    · exact ⟨15, by simp, by simp only [Nat.reducePow]; omega, by simp only [Nat.reducePow]; omega⟩
    by_cases l1 : X / 65536 % 65536 = 0
    · exact ⟨31, by simp, by simp only [Nat.reducePow]; omega, by simp only [Nat.reducePow]; omega⟩
    by_cases l2 : X / 4294967296 % 65536 = 0
    · exact ⟨47, by simp, by simp only [Nat.reducePow]; omega, by simp only [Nat.reducePow]; omega⟩
    by_cases l3 : X / 281474976710656 % 65536 = 0
    · exact ⟨63, by simp, by simp only [Nat.reducePow]; omega, by simp only [Nat.reducePow]; omega⟩
    exfalso
    have : i = 0 ∨ i = 1 ∨ i = 2 ∨ i = 3 := by omega
    rcases this with rfl | rfl | rfl | rfl <;> simp at h <;> omega

theorem hasvalue16_iff_lane (x : BitVec 64) (n : Nat) (hn : n < 65536) :
    hasvalue16 x n ≠ 0#64 ↔ ∃ i, i < 4 ∧ lane 16 x i = n := by
  unfold hasvalue16
  rw [haszero16_iff]
  have hc : (0x0001000100010001#64 * BitVec.ofNat 64 n).toNat = 281479271743489 * n := by
    rw [BitVec.toNat_mul, show (0x0001000100010001#64).toNat = 281479271743489 from rfl, BitVec.toNat_ofNat]
    omega
  have key : ∀ i, i < 4 → (lane 16 (x ^^^ (0x0001000100010001#64 * BitVec.ofNat 64 n)) i = 0 ↔ lane 16 x i = n) := by
    intro i hi
    rw [lane_xor, xor_eq_zero_iff']
    have : lane 16 (0x0001000100010001#64 * BitVec.ofNat 64 n) i = n := by
      unfold lane
      rw [hc]
      have : i = 0 ∨ i = 1 ∨ i = 2 ∨ i = 3 := by omega
      have d0 : 281479271743489 * n / 1 = 281479271743489 * n := by omega
      have e0 : 281479271743489 * n % 65536 = n := by omega
      have d1 : 281479271743489 * n / 65536 = 4295032833 * n := by omega
      have e1 : 4295032833 * n % 65536 = n := by omega
      have d2 : 281479271743489 * n / 4294967296 = 65537 * n := by omega
      have e2 : 65537 * n % 65536 = n := by omega
      have d3 : 281479271743489 * n / 281474976710656 = n := by omega
      have e3 : n % 65536 = n := by omega
      rcases this with rfl | rfl | rfl | rfl <;> simp only [Nat.reducePow, Nat.reduceMul, d0, d1, d2, d3, e0, e1, e2, e3]
    rw [this]
  constructor
  · rintro ⟨i, hi, h⟩; exact ⟨i, hi, (key i hi).mp h⟩
  · rintro ⟨i, hi, h⟩; exact ⟨i, hi, (key i hi).mpr h⟩

/-- `S m k i`: some bit of `m` in positions `i .. i + k - 1` is set. -/
theorem smear_step (m y : BitVec 32) (k : Nat)
    (hy : ∀ i, y.getLsbD i = true ↔ ∃ j, i ≤ j ∧ j < i + k ∧ m.getLsbD j = true) (i : Nat) :
    (y ||| (y >>> k)).getLsbD i = true ↔ ∃ j, i ≤ j ∧ j < i + (k + k) ∧ m.getLsbD j = true := by
  rw [BitVec.getLsbD_or, BitVec.getLsbD_ushiftRight, Bool.or_eq_true, hy, hy]
  constructor
  · rintro (⟨j, h1, h2, h3⟩ | ⟨j, h1, h2, h3⟩)
    · exact ⟨j, h1, by omega, h3⟩
    · exact ⟨j, by omega, by omega, h3⟩
  · rintro ⟨j, h1, h2, h3⟩
    by_cases h : j < i + k
    · exact Or.inl ⟨j, h1, h, h3⟩
    · exact Or.inr ⟨j, by omega, by omega, h3⟩

/-- After the five smearing steps the word is `2^(bit length) - 1`. -/
theorem smear_eq (m : BitVec 32) :
    (let x := m
     let x := x ||| (x >>> 1)
     let x := x ||| (x >>> 2)
     let x := x ||| (x >>> 4)
     let x := x ||| (x >>> 8)
     let x := x ||| (x >>> 16)
     x).toNat = if m.toNat = 0 then 0 else 2 ^ (m.toNat.log2 + 1) - 1 := by
  have h0 : ∀ i, m.getLsbD i = true ↔ ∃ j, i ≤ j ∧ j < i + 1 ∧ m.getLsbD j = true := by
    intro i
    constructor
    · intro h; exact ⟨i, by omega, by omega, h⟩
    · rintro ⟨j, h1, h2, h3⟩
      have : j = i := by omega
      rw [← this]; exact h3
  have h1 := smear_step m _ 1 h0
  have h2 := smear_step m _ 2 h1
  have h3 := smear_step m _ 4 h2
  have h4 := smear_step m _ 8 h3
  have h5 := smear_step m _ 16 h4
  simp only
  generalize hy : ((((m ||| m >>> 1) ||| (m ||| m >>> 1) >>> 2) ||| ((m ||| m >>> 1) ||| (m ||| m >>> 1) >>> 2) >>> 4) |||
      (((m ||| m >>> 1) ||| (m ||| m >>> 1) >>> 2) ||| ((m ||| m >>> 1) ||| (m ||| m >>> 1) >>> 2) >>> 4) >>> 8) = y at *
  apply Nat.eq_of_testBit_eq
  intro i
  rw [BitVec.testBit_toNat, Bool.eq_iff_iff, h5]
  have big : ∀ j, m.getLsbD j = true → j < 32 := fun j hj => by
    apply Classical.byContradiction
    intro h
    rw [BitVec.getLsbD_of_ge _ _ (by omega)] at hj
    cases hj
  have low : (∃ j, i ≤ j ∧ j < i + (16 + 16) ∧ m.getLsbD j = true) ↔ 2 ^ i ≤ m.toNat := by
    constructor
    · rintro ⟨j, h1, _, h3⟩
      rw [← BitVec.testBit_toNat] at h3
      exact Nat.le_trans (Nat.pow_le_pow_right (by decide) h1) (Nat.ge_two_pow_of_testBit h3)
    · intro h
      obtain ⟨j, hj, hb⟩ := Nat.exists_ge_and_testBit_of_ge_two_pow h
      rw [BitVec.testBit_toNat] at hb
      exact ⟨j, hj, by have := big j hb; omega, hb⟩
  rw [low]
  split
  · rename_i hz
    rw [hz]
    have : 0 < 2 ^ i := Nat.two_pow_pos i
    simp
  · rename_i hz
    rw [Nat.testBit_two_pow_sub_one, decide_eq_true_eq]
    rw [← Nat.le_log2 hz]
    omega

theorem upperpower2_toNat (x : BitVec 32) (h : 2 ≤ x.toNat) (h2 : x.toNat ≤ 2 ^ 31) :
    (upperpower2 x).toNat = 2 ^ ((x.toNat - 1).log2 + 1) := by
  have hx := x.isLt
  have hm : (x - 1#32).toNat = x.toNat - 1 := by
    rw [BitVec.toNat_sub, show (1#32).toNat = 1 from rfl]; omega
  have hs := smear_eq (x - 1#32)
  simp only at hs
  rw [hm, if_neg (by omega)] at hs
  have hl : (x.toNat - 1).log2 < 31 := (Nat.log2_lt (by omega)).mpr (by omega)
  have hp : 2 ^ ((x.toNat - 1).log2 + 1) ≤ 2 ^ 31 := Nat.pow_le_pow_right (by decide) (by omega)
  have hpos : 0 < 2 ^ ((x.toNat - 1).log2 + 1) := Nat.two_pow_pos _
  unfold upperpower2
  simp only
  rw [BitVec.toNat_add, hs, show (1#32).toNat = 1 from rfl]
  rw [Nat.sub_add_cancel hpos, Nat.mod_eq_of_lt (by omega)]

end Kunlun.Word
