import Verif.Model.P256Compressed
import Verif.Model.Block
/-!
Functions of crypto/hash.hpp that call `BasicHash` (SM3 or SHA-256). `H : Bytes → Bytes` stands for `BasicHash`: any function with results of
`HASH_OUTPUT_LEN` = 32 bytes. The aligned loads of lines 80, 88 and 179 from an array of characters are taken to work.
-/

namespace Kunlun.HashWrap
open Kunlun

/-- The first block of a hash value (`_mm_load_si128((block*)&output[0])`). -/
def firstBlock (out : Bytes) : Block := Block.ofBytes (out.take 16)

/-- hash.hpp:76-81 `StringToBlock`, and 84-89 `BytesToBlock`. -/
def stringToBlock (H : Bytes → Bytes) (s : Bytes) : Block := firstBlock (H s)

/-- hash.hpp:91-100 `StringToBigInt`: the hash value as a number, highest byte first. -/
def stringToBigInt (H : Bytes → Bytes) (s : Bytes) : Nat := ofBE (H s)

/-- block.hpp:140-145 `ToString`: 16 characters `'0'`, then `memcpy` of 16 bytes. -/
def blockToString (a : Block) : Bytes := (Block.toBytes a).take 16 ++ (List.replicate 16 48).drop 16

/-- hash.hpp:167-180 `BlocksToBlock`. -/
def blocksToBlock (H : Bytes → Bytes) (v : List Block) : Block := firstBlock (H (v.foldl (fun s a => s ++ blockToString a) []))

/-- `EC_POINT_point2oct` (compressed) into a buffer of 33 bytes that holds `buf`. -/
def writePoint (buf : Bytes) (P : P256.Pt) : Bytes := P256.encC P ++ buf.drop (P256.encC P).length

/-- ec_point.hpp:223-230 `ToByteString`. -/
def pointString (P : P256.Pt) : Bytes := writePoint (List.replicate 33 48) P

/-- hash.hpp:130-134 `ECPointToBlock`. -/
def pointToBlock (H : Bytes → Bytes) (P : P256.Pt) : Block := stringToBlock H (pointString P)

/-- hash.hpp:136-148 `ECPointToString` and 150-163 `ECPointToBytes`: the array `input` is not initialised, it holds `stack`. -/
def pointToString (H : Bytes → Bytes) (stack : Bytes) (P : P256.Pt) : Bytes := (H (writePoint stack P)).take 32

/-! ### Lemmas -/

theorem encC_length (x y : P256.F) (h) : (P256.encC (.some x y h)).length = 33 := by
  simp only [P256.encC, List.length_cons, P256.beBytes_length, P256.bnLen]

theorem encC_head (x y : P256.F) (h) : (P256.encC (.some x y h)).head? ≠ some 0 := by
  simp only [P256.encC, List.head?_cons, ne_eq, Option.some.injEq]
  rcases Nat.mod_two_eq_zero_or_one y.val with h2 | h2 <;> rw [h2] <;> decide

theorem writePoint_some (buf : Bytes) (hb : buf.length = 33) (x y : P256.F) (h) : writePoint buf (.some x y h) = P256.encC (.some x y h) := by
  unfold writePoint
  rw [encC_length, List.drop_eq_nil_of_le (by omega), List.append_nil]

theorem writePoint_inj (b b' : Bytes) (hb : b.length = 33) (hb' : b'.length = 33) (P Q : P256.Pt) (h : writePoint b P = writePoint b' Q) :
    P = Q := by
  rcases P with _ | ⟨x, y, hx⟩ <;> rcases Q with _ | ⟨x', y', hx'⟩
  · rfl
  · rw [writePoint_some b' hb'] at h
    exact absurd (by rw [← h]; rfl) (encC_head x' y' hx')
  · rw [writePoint_some b hb] at h
    exact absurd (by rw [h]; rfl) (encC_head x y hx)
  · rw [writePoint_some b hb, writePoint_some b' hb'] at h
    have h1 := P256.decC_enc x y hx
    rw [h, P256.decC_enc x' y' hx'] at h1
    exact (Option.some.inj h1).symm

theorem blockToString_eq (a : Block) : blockToString a = Block.toBytes a := by
  unfold blockToString
  rw [List.take_of_length_le (by simp)]
  simp

theorem concat_eq (v : List Block) (s : Bytes) : v.foldl (fun s a => s ++ blockToString a) s = s ++ (v.map Block.toBytes).flatten := by
  induction v generalizing s with
  | nil => simp
  | cons a v ih => rw [List.foldl_cons, ih, blockToString_eq]; simp

theorem concat_inj (v w : List Block) (h : (v.map Block.toBytes).flatten = (w.map Block.toBytes).flatten) : v = w := by
  induction v generalizing w with
  | nil =>
    cases w with
    | nil => rfl
    | cons b w =>
      have := congrArg List.length h
      simp at this
      omega
  | cons a v ih =>
    cases w with
    | nil =>
      have := congrArg List.length h
      simp at this
    | cons b w =>
      simp only [List.map_cons, List.flatten_cons] at h
      obtain ⟨h1, h2⟩ := List.append_inj h (by simp)
      rw [Block.toBytes_inj h1, ih w h2]

end Kunlun.HashWrap
