import Verif.Model.Block
/-!
C16 (block order) and C17 (bit helpers of blocks).
-/

namespace Kunlun.Block

/-! ### C16 -/

/-- **C16** `IsLessThan` is irreflexive. -/
theorem block_order_irrefl (a : Block) : isLessThan a a = false := lt_irrefl' a

/-- **C16** `IsLessThan` is transitive. -/
theorem block_order_trans (a b c : Block) (h1 : isLessThan a b = true) (h2 : isLessThan b c = true) : isLessThan a c = true :=
  lt_trans' h1 h2

/-- **C16** `IsLessThan` is total, and two blocks neither of which is less are bitwise equal. -/
theorem block_order_total (a b : Block) : (isLessThan a b = true ∧ isLessThan b a = false ∧ a ≠ b) ∨
    (isLessThan b a = true ∧ isLessThan a b = false ∧ a ≠ b) ∨ (isLessThan a b = false ∧ isLessThan b a = false ∧ a = b) := by
  cases h1 : isLessThan a b with
  | true =>
    refine Or.inl ⟨rfl, lt_asymm h1, fun h => ?_⟩
    rw [h, lt_irrefl'] at h1; cases h1
  | false =>
    cases h2 : isLessThan b a with
    | true =>
      refine Or.inr (Or.inl ⟨rfl, rfl, fun h => ?_⟩)
      rw [h, lt_irrefl'] at h2; cases h2
    | false => exact Or.inr (Or.inr ⟨rfl, rfl, eq_of_not_lt h1 h2⟩)

/-- **C16** `Compare` on blocks is bitwise equality. -/
theorem block_compare_iff_eq (a b : Block) : compare a b = true ↔ a = b := compare_iff a b

/-- **C16** `Compare` on vectors of equal size is equality. -/
theorem block_compareVec_iff_eq (as bs : List Block) (h : as.length = bs.length) : compareVec as bs = some (as == bs) := by
  rw [compareVec_spec as bs (by omega), h, List.take_length]

/-- Vectors of different size: the size check only prints, so a proper prefix compares equal to the longer vector, and a longer
first vector reads out of range. -/
theorem block_compareVec_prefix (as : List Block) (b : Block) :
    compareVec as (as ++ [b]) = some true ∧ ∀ bs, bs.length < as.length → (∀ i, bs[i]? = as[i]? ∨ bs.length ≤ i) → compareVec as bs = none := by
  constructor
  · rw [compareVec_spec _ _ (by simp)]
    simp
  · intro bs
    induction as generalizing bs with
    | nil => intro h; simp at h
    | cons a as ih =>
      intro h hp
      cases bs with
      | nil => rfl
      | cons b bs =>
        rw [compareVec, ih bs (by simpa using h) (fun i => by simpa using hp (i + 1))]
        rfl

/-- **C16 (use)** The ordered set built by `ComputeSetDifference` is the set difference: no element is lost, merged with a different
one, or listed twice. -/
theorem block_set_difference (as bs : List Block) (x : Block) : x ∈ computeSetDifference as bs ↔ x ∈ as ∧ x ∉ bs := by
  have e : Sorted [] := List.Pairwise.nil
  unfold computeSetDifference
  rw [mem_setDifference x _ _ (build_sorted as [] e) (build_sorted bs [] e), mem_build, mem_build]
  simp

/-- The order is not the numeric one: lanes are compared as signed bytes, so `0x80` comes before `0x7f`. -/
example : isLessThan 0x80#128 0x7f#128 = true ∧ isLessThan 0x01#128 0x0100#128 = true ∧ isLessThan 5#128 5#128 = false := by
  decide +kernel

/-! ### C17 -/

/-- Bit `n` in the numbering of block.hpp: counted from the most significant end. -/
def bitAt (a : Block) (n : Nat) : Bool := a.getLsbD (127 - n)

/-- **C17** `BlockToInt64` is the low half of what `MakeBlock` put together. -/
theorem block_low_half (h l : BitVec 64) : blockToInt64 (makeBlock h l) = l := by
  unfold blockToInt64 makeBlock
  apply BitVec.eq_of_toNat_eq
  rw [BitVec.extractLsb'_toNat, BitVec.toNat_append, Nat.shiftRight_zero, Nat.shiftLeft_eq]
  have := l.isLt
  rw [← Nat.shiftLeft_eq, ← Nat.shiftLeft_add_eq_or_of_lt this, Nat.shiftLeft_eq]
  omega

/-- **C17** `SetBit(a, n)` makes bit `n` one and leaves every other bit alone. -/
theorem block_setBit (a : Block) (n m : Nat) (hn : n < 128) (hm : m < 128) :
    bitAt (setBit a n) m = if m = n then true else bitAt a m := by
  unfold bitAt setBit
  rw [BitVec.getLsbD_or, getLsbD_genMask n _ hn (by omega)]
  by_cases h : m = n
  · simp [h]
  · have : ¬ (127 - m = 127 - n) := by omega
    simp [h, this]

/-- **C17** the mask has exactly the one bit. -/
theorem block_genMask (n m : Nat) (hn : n < 128) (hm : m < 128) : bitAt (genMask n) m = decide (m = n) := by
  unfold bitAt
  rw [getLsbD_genMask n _ hn (by omega)]
  by_cases h : m = n
  · simp [h]
  · have : ¬ (127 - m = 127 - n) := by omega
    simp [h, this]

/-- What `ClearBit(a, n)` does: bit `n` becomes the complement of what it was, and **all other bits are erased**. The operands of
`_mm_andnot_si128` are in the wrong order. -/
theorem block_clearBit_effect (a : Block) (n m : Nat) (hn : n < 128) (hm : m < 128) :
    bitAt (clearBit a n) m = if m = n then !bitAt a n else false := by
  have hlt : 127 - m < 128 := by omega
  unfold bitAt clearBit andnot
  rw [BitVec.getLsbD_and, getLsbD_genMask n _ hn hlt, BitVec.getLsbD_not]
  by_cases h : m = n
  · subst h; simp [hlt]
  · have : ¬ (127 - m = 127 - n) := by omega
    simp [h, this]

/-- **C17 is violated by `ClearBit`**: clearing an already clear bit sets it, and other bits are lost. -/
theorem block_clearBit_wrong (n : Nat) (hn : n < 128) :
    bitAt (clearBit 0#128 n) n = true ∧
    ∀ m < 128, m ≠ n → bitAt (BitVec.allOnes 128) m = true ∧ bitAt (clearBit (BitVec.allOnes 128) n) m = false := by
  constructor
  · rw [block_clearBit_effect _ _ _ hn hn, if_pos rfl]
    simp [bitAt]
  · intro m hm hne
    rw [block_clearBit_effect _ _ _ hn hm, if_neg hne]
    refine ⟨?_, rfl⟩
    simp only [bitAt, BitVec.getLsbD_allOnes, decide_eq_true_iff]; omega

/-- **C17, the part that holds for `ClearBit`**: a bit that was one is cleared. -/
theorem block_clearBit_partial (a : Block) (n : Nat) (hn : n < 128) (h : bitAt a n = true) : bitAt (clearBit a n) n = false := by
  rw [block_clearBit_effect _ _ _ hn hn, if_pos rfl, h]; rfl

/-- **C17** `FromSparseBytes` packs one byte per bit, low bit first: bit `k` of block `i` is one exactly when byte `128 i + k` is not
zero. -/
theorem block_fromSparseBytes (bytes : Bytes) (blockLen : Nat) (h : bytes.length = 128 * blockLen) :
    ∃ bs, fromSparseBytes bytes blockLen = some bs ∧ bs.length = blockLen ∧
      ∀ (i k : Nat), i < blockLen → k < 128 → ∃ b, bs[i]? = some b ∧ (b.getLsbD k = true ↔ ∃ x, bytes[128 * i + k]? = some x ∧ x ≠ 0) := by
  refine ⟨_, by unfold fromSparseBytes; rw [if_pos (by omega)], by simp, ?_⟩
  intro i k hi hk
  refine ⟨fromSparse1 (fun j => bytes.getD (128 * i + j) 0) 128, by simp [hi], ?_⟩
  rw [getLsbD_fromSparse1 _ _ _ (by omega) hk]
  have hlt : 128 * i + k < bytes.length := by omega
  simp [hk, List.getD, hlt]

/-- A byte array shorter than `128 * BLOCK_LEN` is read out of range (the size check only prints). -/
theorem block_fromSparseBytes_short (bytes : Bytes) (blockLen : Nat) (h : bytes.length < 128 * blockLen) :
    fromSparseBytes bytes blockLen = none := by
  unfold fromSparseBytes
  rw [if_neg (by omega)]

/-- Vector XOR and AND work position by position when the sizes agree, and read out of range when the second is shorter. -/
theorem block_vec_ops (as bs : List Block) :
    (as.length = bs.length → xorVec as bs = some (List.zipWith (· ^^^ ·) as bs) ∧ andVec as bs = some (List.zipWith (· &&& ·) as bs)) ∧
    (bs.length < as.length → xorVec as bs = none ∧ andVec as bs = none) :=
  ⟨fun h => ⟨zipLoop_spec _ _ _ (by omega), zipLoop_spec _ _ _ (by omega)⟩,
   fun h => ⟨zipLoop_short _ _ _ h, zipLoop_short _ _ _ h⟩⟩

example : bitAt (setBit 0#128 3) 3 = true ∧ setBit 0#128 127 = 1#128 ∧ clearBit 0#128 127 = 1#128 := by decide +kernel

end Kunlun.Block
