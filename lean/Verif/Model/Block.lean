import Verif.Base.Bytes
/-!
Model of `crypto/block.hpp` (128-bit SSE blocks), except the bit-matrix transpose, which is in `Verif/Model/Transpose.lean`.

A block is a 128-bit word.  Bit `k` of the word is bit `k % 8` of byte `k / 8` in memory (x86 is little-endian).  The SSE2
intrinsics used by the code are defined here from the instruction reference.
-/

namespace Kunlun

abbrev Block := BitVec 128

namespace Block

/-! ### Intrinsics -/

/-- Byte lane `i` of a block. -/
def lane (a : Block) (i : Nat) : BitVec 8 := a.extractLsb' (8 * i) 8

/-- The block with the given 16 byte lanes. -/
def ofLanes (f : Nat → BitVec 8) : Block :=
  (List.range 16).foldr (fun i acc => acc ||| ((f i).setWidth 128 <<< (8 * i))) 0#128

/-- `_mm_slli_epi64`: shift both 64-bit halves left. -/
def slli64 (a : Block) (k : Nat) : Block := (a.extractLsb' 64 64 <<< k) ++ (a.extractLsb' 0 64 <<< k)

/-- `_mm_srli_epi64`: shift both 64-bit halves right. -/
def srli64 (a : Block) (k : Nat) : Block := (a.extractLsb' 64 64 >>> k) ++ (a.extractLsb' 0 64 >>> k)

/-- `_mm_slli_si128`: shift left by whole bytes. -/
def slliBytes (a : Block) (k : Nat) : Block := a <<< (8 * k)

/-- `_mm_srli_si128`: shift right by whole bytes. -/
def srliBytes (a : Block) (k : Nat) : Block := a >>> (8 * k)

/-- `_mm_movemask_epi8` of lanes below `n`: the top bit of each byte lane, packed. -/
def movemaskN (a : Block) : Nat → Nat
  | 0 => 0
  | n + 1 => movemaskN a n + (if a.getLsbD (8 * n + 7) then 2 ^ n else 0)

/-- `_mm_movemask_epi8`. -/
def movemask (a : Block) : Nat := movemaskN a 16

/-- `_mm_cmplt_epi8`: signed comparison of byte lanes. -/
def cmplt8 (a b : Block) : Block := ofLanes fun i => if (lane a i).slt (lane b i) then 0xff#8 else 0#8

/-- `_mm_cmpgt_epi8`. -/
def cmpgt8 (a b : Block) : Block := ofLanes fun i => if (lane b i).slt (lane a i) then 0xff#8 else 0#8

/-- `_mm_andnot_si128(a, b)` is `(NOT a) AND b`. -/
def andnot (a b : Block) : Block := ~~~a &&& b

/-! ### Functions of block.hpp -/

/-- block.hpp:22-24 -/
def makeBlock (high low : BitVec 64) : Block := high ++ low

/-- block.hpp:26-29 (as the unsigned 64-bit pattern) -/
def blockToInt64 (a : Block) : BitVec 64 := a.extractLsb' 0 64

/-- block.hpp:33 -/
def allOne : Block := BitVec.allOnes 128

/-- block.hpp:41-46 -/
def genMask (n : Nat) : Block :=
  let onesLowHigh := slli64 allOne 63
  let singleOne := if n < 64 then slliBytes onesLowHigh 8 else srliBytes onesLowHigh 8
  srli64 singleOne (n % 64)

/-- block.hpp:49-52 -/
def setBit (a : Block) (n : Nat) : Block := a ||| genMask n

/-- block.hpp:55-58, with the operand order of the code -/
def clearBit (a : Block) (n : Nat) : Block := andnot a (genMask n)

/-- Element-wise loop over two vectors: the result has the length of the first; a missing element of the second is an
out-of-range read (`none`). The size check in the code only prints. -/
def zipLoop (f : Block → Block → Block) : List Block → List Block → Option (List Block)
  | [], _ => some []
  | _ :: _, [] => none
  | a :: as, b :: bs => (zipLoop f as bs).map (f a b :: ·)

/-- block.hpp:60-72 -/
def andVec := zipLoop (· &&& ·)

/-- block.hpp:75-87 -/
def xorVec := zipLoop (· ^^^ ·)

/-- block.hpp:89-97 -/
def fixXor (as : List Block) (b : Block) : List Block := as.map (· ^^^ b)

/-- block.hpp:118-123: `_mm_testz_si128(v, v)` is true exactly when `v` is zero -/
def compare (a b : Block) : Bool := (a ^^^ b) == 0#128

/-- block.hpp:100-116; the size check only prints -/
def compareVec : List Block → List Block → Option Bool
  | [], _ => some true
  | _ :: _, [] => none
  | a :: as, b :: bs => (compareVec as bs).map (fun r => compare a b && r)

/-- block.hpp:127-138 -/
def isLessThan (a b : Block) : Bool := movemask (cmplt8 a b) > movemask (cmpgt8 a b)

/-- The 16 bytes of a block in memory, block.hpp:140-145 and 192-198. -/
def toBytes (a : Block) : Bytes := leBytes 16 a.toNat

/-- Block from its 16 bytes, block.hpp:200-206. -/
def ofBytes (b : Bytes) : Block := BitVec.ofNat 128 (ofLE b)

/-- block.hpp:154-160, the inner loop for one block: `j` and `k` run in opposite directions. -/
def fromSparse1 (byte : Nat → UInt8) : Nat → Block
  | 0 => 0#128
  | j + 1 => if byte j ≠ 0 then setBit (fromSparse1 byte j) (127 - j) else fromSparse1 byte j

/-- block.hpp:148-161: `none` when the loop reads past the byte array (the size check only prints). -/
def fromSparseBytes (bytes : Bytes) (blockLen : Nat) : Option (List Block) :=
  if 128 * blockLen ≤ bytes.length then
    some ((List.range blockLen).map fun i => fromSparse1 (fun j => bytes.getD (128 * i + j) 0) 128)
  else none

/-- A `std::set<block, BlockCompare>`: a list kept sorted by `BlockCompare` (block.hpp:242-248), in which an element equivalent to
one already present is not inserted. -/
def setInsert (x : Block) : List Block → List Block
  | [] => [x]
  | y :: ys => if isLessThan x y then x :: y :: ys else if isLessThan y x then y :: setInsert x ys else y :: ys

/-- `std::set_difference` on sorted ranges. -/
def setDifference : List Block → List Block → List Block
  | [], _ => []
  | a :: as, [] => a :: as
  | a :: as, b :: bs =>
    if isLessThan a b then a :: setDifference as (b :: bs)
    else if isLessThan b a then setDifference (a :: as) bs
    else setDifference as bs
termination_by as bs => as.length + bs.length

/-- block.hpp:250-265 -/
def computeSetDifference (as bs : List Block) : List Block :=
  setDifference (as.foldl (fun s x => setInsert x s) []) (bs.foldl (fun s x => setInsert x s) [])

/-! ### Lemmas -/

theorem getLsbD_lane (a : Block) (i k : Nat) (hk : k < 8) : (lane a i).getLsbD k = a.getLsbD (8 * i + k) := by
  simp [lane, hk]

theorem ofLanesAux (f : Nat → BitVec 8) (n k : Nat) (hn : n ≤ 16) (acc : Block) :
    ((List.range n).foldr (fun i acc => acc ||| ((f i).setWidth 128 <<< (8 * i))) acc).getLsbD k =
      (acc.getLsbD k || (decide (k < 8 * n) && (f (k / 8)).getLsbD (k % 8))) := by
  induction n generalizing acc with
  | zero => simp
  | succ n ih =>
    rw [List.range_succ, List.foldr_append, ih (by omega)]
    simp only [List.foldr_cons, List.foldr_nil, BitVec.getLsbD_or, BitVec.getLsbD_shiftLeft, BitVec.getLsbD_setWidth]
    by_cases h1 : k < 8 * n
    · have : k < 8 * (n + 1) := by omega
      simp [h1, this]
    · by_cases h2 : k < 8 * (n + 1)
      · have h3 : k / 8 = n := by omega
        have h4 : k % 8 = k - 8 * n := by omega
        have h5 : k < 128 := by omega
        have h6 : k - 8 * n < 128 := by omega
        simp [h1, h2, h3, h4, h5, h6]
      · have : (f n).getLsbD (k - 8 * n) = false := by
          apply BitVec.getLsbD_of_ge; omega
        simp [h1, h2, this]

theorem getLsbD_ofLanes (f : Nat → BitVec 8) (k : Nat) (hk : k < 128) :
    (ofLanes f).getLsbD k = (f (k / 8)).getLsbD (k % 8) := by
  unfold ofLanes
  rw [ofLanesAux f 16 k (by omega)]
  simp [show k < 8 * 16 by omega]

theorem eq_of_lanes {a b : Block} (h : ∀ i < 16, lane a i = lane b i) : a = b := by
  apply BitVec.eq_of_getLsbD_eq
  intro k hk
  have : (lane a (k / 8)).getLsbD (k % 8) = (lane b (k / 8)).getLsbD (k % 8) := by rw [h (k / 8) (by omega)]
  rw [getLsbD_lane _ _ _ (by omega), getLsbD_lane _ _ _ (by omega)] at this
  rwa [show 8 * (k / 8) + k % 8 = k by omega] at this

theorem lane_ofLanes (f : Nat → BitVec 8) (i : Nat) (hi : i < 16) : lane (ofLanes f) i = f i := by
  apply BitVec.eq_of_getLsbD_eq
  intro k hk
  rw [getLsbD_lane _ _ _ hk, getLsbD_ofLanes _ _ (by omega)]
  congr 2 <;> omega

theorem getLsbD_slli64 (a : Block) (s k : Nat) (hk : k < 128) :
    (slli64 a s).getLsbD k = (decide (s ≤ k % 64) && a.getLsbD (k - s)) := by
  unfold slli64
  rw [BitVec.getLsbD_append]
  by_cases h : k < 64
  · have h1 : k % 64 = k := by omega
    simp only [h, h1, BitVec.getLsbD_shiftLeft, BitVec.getLsbD_extractLsb', decide_true, Bool.true_and, if_true]
    by_cases h2 : k < s
    · simp [h2, Nat.not_le.mpr h2]
    · have h3 : k - s < 64 := by omega
      simp [h2, Nat.not_lt.mp h2, h3]
  · have h1 : k % 64 = k - 64 := by omega
    simp only [h, h1, BitVec.getLsbD_shiftLeft, BitVec.getLsbD_extractLsb', if_false]
    by_cases h2 : k - 64 < s
    · simp [h2, Nat.not_le.mpr h2]
    · have h3 : k - 64 - s < 64 := by omega
      have h4 : 64 + (k - 64 - s) = k - s := by omega
      simp [h2, Nat.not_lt.mp h2, h3, h4, show k - 64 < 64 by omega]

theorem getLsbD_srli64 (a : Block) (s k : Nat) (hk : k < 128) :
    (srli64 a s).getLsbD k = (decide (k % 64 + s < 64) && a.getLsbD (k + s)) := by
  unfold srli64
  rw [BitVec.getLsbD_append]
  by_cases h : k < 64
  · have h1 : k % 64 = k := by omega
    simp only [h, h1, if_true, BitVec.getLsbD_ushiftRight, BitVec.getLsbD_extractLsb']
    simp [Nat.add_comm]
  · have h1 : k % 64 = k - 64 := by omega
    simp only [h, h1, if_false, BitVec.getLsbD_ushiftRight, BitVec.getLsbD_extractLsb']
    rw [show 64 + (s + (k - 64)) = k + s by omega]
    simp [Nat.add_comm]

/-- `GenMaskBlock(n)` has exactly one bit: position `n` counted from the most significant end. -/
theorem getLsbD_genMask (n k : Nat) (hn : n < 128) (hk : k < 128) : (genMask n).getLsbD k = decide (k = 127 - n) := by
  have ho : ∀ j, j < 128 → (slli64 allOne 63).getLsbD j = decide (j % 64 = 63) := by
    intro j hj
    rw [getLsbD_slli64 _ _ _ hj]
    simp only [allOne, BitVec.getLsbD_allOnes]
    by_cases h : j % 64 = 63
    · simp [h]; omega
    · simp [h]; omega
  simp only [genMask]
  generalize slli64 allOne 63 = X at ho
  rw [getLsbD_srli64 _ _ _ hk]
  by_cases h : n < 64
  · simp only [h, if_true, slliBytes, BitVec.getLsbD_shiftLeft]
    by_cases h1 : k + n % 64 < 64
    · simp [h1]; omega
    · by_cases h2 : k % 64 + n % 64 < 64
      · have hlt : k + n % 64 < 128 := by omega
        rw [ho _ (by omega)]
        simp only [h1, h2, hlt]
        simp
        omega
      · simp [h2]; omega
  · simp only [h, if_false, srliBytes, BitVec.getLsbD_ushiftRight]
    by_cases h2 : k % 64 + n % 64 < 64
    · by_cases h1 : 8 * 8 + (k + n % 64) < 128
      · rw [ho _ h1]
        simp only [h2]
        simp
        omega
      · rw [BitVec.getLsbD_of_ge _ _ (by omega)]
        simp; omega
    · simp [h2]; omega

/-! movemask and the order -/

theorem movemaskN_lt (a : Block) (n : Nat) : movemaskN a n < 2 ^ n := by
  induction n with
  | zero => simp [movemaskN]
  | succ n ih => simp only [movemaskN, Nat.pow_succ]; split <;> omega

/-- Bit `i` of the packed mask is the top bit of lane `i`. -/
theorem movemaskN_testBit (a : Block) (n i : Nat) : (movemaskN a n).testBit i = (decide (i < n) && a.getLsbD (8 * i + 7)) := by
  induction n with
  | zero => simp [movemaskN]
  | succ n ih =>
    have hlt := movemaskN_lt a n
    simp only [movemaskN]
    split
    · next h =>
      rw [Nat.add_comm]
      by_cases hi : i < n
      · rw [Nat.testBit_two_pow_add_gt (by omega), ih]; simp [hi, show i < n + 1 by omega]
      · by_cases he : i = n
        · subst he
          rw [Nat.testBit_two_pow_add_eq, Nat.testBit_lt_two_pow hlt]; simp [h]
        · have : 2 ^ n + movemaskN a n < 2 ^ i := by
            have : 2 ^ (n + 1) ≤ 2 ^ i := Nat.pow_le_pow_right (by omega) (by omega)
            rw [Nat.pow_succ] at this; omega
          rw [Nat.testBit_lt_two_pow this]; simp; omega
    · next h =>
      rw [Nat.add_zero, ih]
      by_cases hi : i < n
      · simp [hi, show i < n + 1 by omega]
      · by_cases he : i = n
        · subst he; simp at h; simp [h]
        · have : ¬ i < n + 1 := by omega
          simp [hi, this]

/-- Lexicographic comparison of the lanes below `n`, most significant lane first, lanes compared as signed bytes. -/
def lexLt (a b : Block) : Nat → Prop
  | 0 => False
  | n + 1 => (lane a n).toInt < (lane b n).toInt ∨ (lane a n = lane b n ∧ lexLt a b n)

theorem topBit_cmplt (a b : Block) (n : Nat) (hn : n < 16) :
    (cmplt8 a b).getLsbD (8 * n + 7) = decide ((lane a n).toInt < (lane b n).toInt) := by
  unfold cmplt8
  rw [getLsbD_ofLanes _ _ (by omega), show (8 * n + 7) / 8 = n by omega, show (8 * n + 7) % 8 = 7 by omega]
  rw [BitVec.slt_eq_decide]
  by_cases h : (lane a n).toInt < (lane b n).toInt <;> simp [h]

theorem topBit_cmpgt (a b : Block) (n : Nat) (hn : n < 16) :
    (cmpgt8 a b).getLsbD (8 * n + 7) = decide ((lane b n).toInt < (lane a n).toInt) := by
  unfold cmpgt8
  rw [getLsbD_ofLanes _ _ (by omega), show (8 * n + 7) / 8 = n by omega, show (8 * n + 7) % 8 = 7 by omega]
  rw [BitVec.slt_eq_decide]
  by_cases h : (lane b n).toInt < (lane a n).toInt <;> simp [h]

theorem movemask_cmp_iff (a b : Block) (n : Nat) (hn : n ≤ 16) :
    movemaskN (cmplt8 a b) n > movemaskN (cmpgt8 a b) n ↔ lexLt a b n := by
  induction n with
  | zero => simp [movemaskN, lexLt]
  | succ n ih =>
    have ih := ih (by omega)
    have h1 := movemaskN_lt (cmplt8 a b) n
    have h2 := movemaskN_lt (cmpgt8 a b) n
    simp only [movemaskN, topBit_cmplt a b n (by omega), topBit_cmpgt a b n (by omega), lexLt]
    by_cases hl : (lane a n).toInt < (lane b n).toInt
    · have hg : ¬ (lane b n).toInt < (lane a n).toInt := by omega
      simp only [hl, hg, decide_true, decide_false, if_true]
      simp only [Bool.false_eq_true, if_false, true_or, iff_true]
      omega
    · by_cases hg : (lane b n).toInt < (lane a n).toInt
      · have hne : lane a n ≠ lane b n := fun h => by rw [h] at hg; omega
        simp only [hl, hg, hne, decide_true, decide_false, if_true]
        simp only [Bool.false_eq_true, if_false, false_or, false_and, iff_false]
        omega
      · have he : lane a n = lane b n := BitVec.eq_of_toInt_eq (by omega)
        rw [he] at hl
        simp only [he]
        simp [ih]

theorem isLessThan_iff (a b : Block) : isLessThan a b = true ↔ lexLt a b 16 := by
  unfold isLessThan movemask
  rw [decide_eq_true_iff]
  exact movemask_cmp_iff a b 16 (by omega)

theorem lexLt_irrefl (a : Block) (n : Nat) : ¬ lexLt a a n := by
  induction n with
  | zero => simp [lexLt]
  | succ n ih => simp [lexLt, ih]

theorem lexLt_trans {a b c : Block} {n : Nat} (h1 : lexLt a b n) (h2 : lexLt b c n) : lexLt a c n := by
  induction n with
  | zero => exact h1
  | succ n ih =>
    simp only [lexLt] at *
    rcases h1 with h1 | ⟨e1, h1⟩ <;> rcases h2 with h2 | ⟨e2, h2⟩
    · left; omega
    · left; rw [← e2]; exact h1
    · left; rw [e1]; exact h2
    · right; exact ⟨e1.trans e2, ih h1 h2⟩

theorem lexLt_total (a b : Block) (n : Nat) : lexLt a b n ∨ lexLt b a n ∨ ∀ i < n, lane a i = lane b i := by
  induction n with
  | zero => right; right; intro i hi; omega
  | succ n ih =>
    simp only [lexLt]
    rcases Int.lt_trichotomy (lane a n).toInt (lane b n).toInt with h | h | h
    · exact Or.inl (Or.inl h)
    · have he : lane a n = lane b n := BitVec.eq_of_toInt_eq h
      rcases ih with h1 | h1 | h1
      · exact Or.inl (Or.inr ⟨he, h1⟩)
      · exact Or.inr (Or.inl (Or.inr ⟨he.symm, h1⟩))
      · right; right
        intro i hi
        by_cases hin : i = n
        · rw [hin]; exact he
        · exact h1 i (by omega)
    · exact Or.inr (Or.inl (Or.inl h))

theorem lt_asymm {a b : Block} (h : isLessThan a b = true) : isLessThan b a = false := by
  rw [isLessThan_iff] at h
  cases hb : isLessThan b a with
  | false => rfl
  | true =>
    rw [isLessThan_iff] at hb
    exact absurd (lexLt_trans h hb) (lexLt_irrefl a 16)

theorem eq_of_not_lt {a b : Block} (h1 : isLessThan a b = false) (h2 : isLessThan b a = false) : a = b := by
  rcases lexLt_total a b 16 with h | h | h
  · rw [← isLessThan_iff, h1] at h; cases h
  · rw [← isLessThan_iff, h2] at h; cases h
  · exact eq_of_lanes h

theorem lt_trans' {a b c : Block} (h1 : isLessThan a b = true) (h2 : isLessThan b c = true) : isLessThan a c = true := by
  rw [isLessThan_iff] at *
  exact lexLt_trans h1 h2

theorem lt_irrefl' (a : Block) : isLessThan a a = false := by
  cases h : isLessThan a a with
  | false => rfl
  | true => rw [isLessThan_iff] at h; exact absurd h (lexLt_irrefl a 16)

/-- Sortedness with respect to `BlockCompare`. -/
def Sorted (l : List Block) : Prop := l.Pairwise (fun a b => isLessThan a b = true)

theorem mem_setInsert (x y : Block) (l : List Block) : y ∈ setInsert x l ↔ y = x ∨ y ∈ l := by
  induction l with
  | nil => simp [setInsert]
  | cons z zs ih =>
    unfold setInsert
    by_cases h1 : isLessThan x z = true
    · simp [h1]
    · by_cases h2 : isLessThan z x = true
      · rw [if_neg h1, if_pos h2, List.mem_cons, ih, List.mem_cons]
        constructor
        · rintro (h | h | h)
          · exact Or.inr (Or.inl h)
          · exact Or.inl h
          · exact Or.inr (Or.inr h)
        · rintro (h | h | h)
          · exact Or.inr (Or.inl h)
          · exact Or.inl h
          · exact Or.inr (Or.inr h)
      · have : x = z := eq_of_not_lt (by simpa using h1) (by simpa using h2)
        subst this
        simp [h1]

theorem setInsert_sorted (x : Block) (l : List Block) (h : Sorted l) : Sorted (setInsert x l) := by
  induction l with
  | nil => simp [setInsert, Sorted]
  | cons z zs ih =>
    have hz := List.pairwise_cons.mp h
    unfold setInsert
    by_cases h1 : isLessThan x z = true
    · simp only [h1, if_true]
      refine List.pairwise_cons.mpr ⟨fun y hy => ?_, h⟩
      rcases List.mem_cons.mp hy with rfl | hy
      · exact h1
      · exact lt_trans' h1 (hz.1 y hy)
    · by_cases h2 : isLessThan z x = true
      · simp only [h1, h2, if_true]
        simp only [Bool.false_eq_true, if_false]
        refine List.pairwise_cons.mpr ⟨fun y hy => ?_, ih hz.2⟩
        rcases (mem_setInsert x y zs).mp hy with rfl | hy
        · exact h2
        · exact hz.1 y hy
      · simp only [h1, h2]
        exact h

theorem build_sorted (xs s : List Block) (h : Sorted s) : Sorted (xs.foldl (fun s x => setInsert x s) s) := by
  induction xs generalizing s with
  | nil => exact h
  | cons x xs ih => exact ih _ (setInsert_sorted x s h)

theorem mem_build (y : Block) (xs s : List Block) : y ∈ xs.foldl (fun s x => setInsert x s) s ↔ y ∈ xs ∨ y ∈ s := by
  induction xs generalizing s with
  | nil => simp
  | cons x xs ih =>
    simp only [List.foldl_cons, ih, mem_setInsert, List.mem_cons]
    constructor
    · rintro (h | h | h) <;> simp [h]
    · rintro ((h | h) | h) <;> simp [h]

theorem mem_setDifference (y : Block) (as bs : List Block) (ha : Sorted as) (hb : Sorted bs) :
    y ∈ setDifference as bs ↔ y ∈ as ∧ y ∉ bs := by
  induction as, bs using setDifference.induct with
  | case1 bs => simp [setDifference]
  | case2 a as => simp [setDifference]
  | case3 a as b bs h ih =>
    have ha' := List.pairwise_cons.mp ha
    have hb' := List.pairwise_cons.mp hb
    rw [setDifference]
    simp only [h, if_true, List.mem_cons, ih ha'.2 hb]
    have hnot : a ∉ b :: bs := by
      intro hm
      rcases List.mem_cons.mp hm with rfl | hm
      · rw [lt_irrefl'] at h; cases h
      · have := lt_asymm (lt_trans' h (hb'.1 a hm)); rw [lt_trans' h (hb'.1 a hm)] at this; cases this
    constructor
    · rintro (rfl | ⟨h1, h2⟩)
      · exact ⟨Or.inl rfl, by simpa using hnot⟩
      · exact ⟨Or.inr h1, by simpa using h2⟩
    · rintro ⟨h1 | h1, h2⟩
      · exact Or.inl h1
      · exact Or.inr ⟨h1, by simpa using h2⟩
  | case4 a as b bs h h' ih =>
    have ha' := List.pairwise_cons.mp ha
    have hb' := List.pairwise_cons.mp hb
    rw [setDifference]
    rw [if_neg h, if_pos h', ih ha hb'.2]
    constructor
    · rintro ⟨h1, h2⟩
      refine ⟨h1, fun hm => ?_⟩
      rcases List.mem_cons.mp hm with rfl | hm
      · rcases List.mem_cons.mp h1 with rfl | h1
        · rw [lt_irrefl'] at h'; cases h'
        · have := lt_trans' h' (ha'.1 _ h1); rw [lt_irrefl'] at this; cases this
      · exact h2 hm
    · rintro ⟨h1, h2⟩
      exact ⟨h1, fun hm => h2 (by simp [hm])⟩
  | case5 a as b bs h h' ih =>
    have ha' := List.pairwise_cons.mp ha
    have hb' := List.pairwise_cons.mp hb
    have he : a = b := eq_of_not_lt (by simpa using h) (by simpa using h')
    subst he
    rw [setDifference]
    rw [if_neg h, if_neg h, ih ha'.2 hb'.2]
    constructor
    · rintro ⟨h1, h2⟩
      refine ⟨by simp [h1], fun hm => ?_⟩
      rcases List.mem_cons.mp hm with rfl | hm
      · have := ha'.1 _ h1; rw [lt_irrefl'] at this; cases this
      · exact h2 hm
    · rintro ⟨h1, h2⟩
      rcases List.mem_cons.mp h1 with rfl | h1
      · exact absurd (by simp) h2
      · exact ⟨h1, fun hm => h2 (by simp [hm])⟩

/-! bytes -/

@[simp] theorem toBytes_length (a : Block) : (toBytes a).length = 16 := by simp [toBytes]

theorem ofBytes_toBytes (a : Block) : ofBytes (toBytes a) = a := by
  unfold ofBytes toBytes
  rw [ofLE_leBytes 16 _ (by have := a.isLt; simpa using this)]
  simp

theorem toBytes_ofBytes (b : Bytes) (h : b.length = 16) : toBytes (ofBytes b) = b := by
  unfold ofBytes toBytes
  have := ofLE_lt b
  rw [h] at this
  rw [BitVec.toNat_ofNat, Nat.mod_eq_of_lt (by simpa using this), ← h]
  exact leBytes_ofLE b

theorem toBytes_inj {a b : Block} (h : toBytes a = toBytes b) : a = b := by
  rw [← ofBytes_toBytes a, h, ofBytes_toBytes]

theorem getLsbD_fromSparse1 (byte : Nat → UInt8) (n k : Nat) (hn : n ≤ 128) (hk : k < 128) :
    (fromSparse1 byte n).getLsbD k = (decide (k < n) && decide (byte k ≠ 0)) := by
  induction n with
  | zero => simp [fromSparse1]
  | succ n ih =>
    have ih := ih (by omega)
    unfold fromSparse1
    by_cases hb : byte n ≠ 0
    · rw [if_pos hb]
      simp only [setBit, BitVec.getLsbD_or]
      rw [ih, getLsbD_genMask _ _ (by omega) hk, show 127 - (127 - n) = n by omega]
      by_cases hkn : k = n
      · subst hkn; simp [hb]
      · by_cases h2 : k < n
        · simp [hkn, h2, show k < n + 1 by omega]
        · simp [hkn, h2, show ¬ k < n + 1 by omega]
    · rw [if_neg hb, ih]
      by_cases hkn : k = n
      · subst hkn; simp at hb; simp [hb]
      · by_cases h2 : k < n
        · simp [h2, show k < n + 1 by omega]
        · simp [h2, show ¬ k < n + 1 by omega]

theorem zipLoop_spec (f : Block → Block → Block) (as bs : List Block) (h : as.length ≤ bs.length) :
    zipLoop f as bs = some (List.zipWith f as bs) := by
  induction as generalizing bs with
  | nil => simp [zipLoop]
  | cons a as ih =>
    cases bs with
    | nil => simp at h
    | cons b bs => simp [zipLoop, ih bs (by simpa using h)]

theorem zipLoop_short (f : Block → Block → Block) (as bs : List Block) (h : bs.length < as.length) : zipLoop f as bs = none := by
  induction as generalizing bs with
  | nil => simp at h
  | cons a as ih =>
    cases bs with
    | nil => rfl
    | cons b bs => simp [zipLoop, ih bs (by simpa using h)]

theorem compare_iff (a b : Block) : compare a b = true ↔ a = b := by
  simp [compare]

theorem compareVec_spec (as bs : List Block) (h : as.length ≤ bs.length) :
    compareVec as bs = some (as == bs.take as.length) := by
  induction as generalizing bs with
  | nil => simp [compareVec]
  | cons a as ih =>
    cases bs with
    | nil => simp at h
    | cons b bs =>
      simp only [compareVec, ih bs (by simpa using h), Option.map_some, List.length_cons, List.take_succ_cons]
      congr 1
      rw [Bool.eq_iff_iff]
      simp [compare_iff]

end Block
end Kunlun
