import Verif.Model.HashWrap
import Verif.Props.HashToCurve
/-!
C142: the functions that call the basic hash function give it all of their input. Whoever finds two inputs of one of them with the same
result has found a collision of the (shortened) basic hash function; the two strings are named.
-/

namespace Kunlun.HashWrap
open Kunlun

variable (H : Bytes → Bytes) (hH : ∀ s, (H s).length = 32)
include hH

/-- Two different strings whose hash values agree in the first 16 bytes. -/
def Collides (H : Bytes → Bytes) (s t : Bytes) : Prop := s ≠ t ∧ (H s).take 16 = (H t).take 16

/-- `StringToBlock` and `BytesToBlock` keep exactly the first 16 bytes of the hash value of all characters, also of zero characters. -/
theorem string_to_block (s t : Bytes) : stringToBlock H s = stringToBlock H t ↔ (H s).take 16 = (H t).take 16 := by
  unfold stringToBlock firstBlock
  refine ⟨fun h => ?_, fun h => by rw [h]⟩
  have := congrArg Block.toBytes h
  rwa [Block.toBytes_ofBytes _ (by simp [hH]), Block.toBytes_ofBytes _ (by simp [hH])] at this

/-- `StringToBigInt` keeps the whole hash value; the number has at most 256 bits. -/
theorem string_to_bigint (s t : Bytes) : (stringToBigInt H s = stringToBigInt H t ↔ H s = H t) ∧ stringToBigInt H s < 2 ^ 256 := by
  unfold stringToBigInt
  refine ⟨⟨fun h => ?_, fun h => by rw [h]⟩, ?_⟩
  · have := Hash.beBytes_ofBE (H s)
    rw [h, hH, ← hH t, Hash.beBytes_ofBE] at this
    exact this.symm
  · have := ofLE_lt (H s).reverse
    rw [List.length_reverse, hH] at this
    exact this

/-- `BlocksToBlock`: different lists of blocks, also of different lengths, have the same result only if two strings collide. -/
theorem blocks_to_block (v w : List Block) (h : blocksToBlock H v = blocksToBlock H w) :
    v = w ∨ Collides H (v.map Block.toBytes).flatten (w.map Block.toBytes).flatten := by
  by_cases e : v = w
  · exact Or.inl e
  · refine Or.inr ⟨fun h' => e (concat_inj v w h'), ?_⟩
    have := (string_to_block H hH _ _).1 h
    rwa [concat_eq, concat_eq, List.nil_append, List.nil_append] at this

/-- `ECPointToBlock`: different points, also the point at infinity, have the same result only if two strings collide. -/
theorem point_to_block (P Q : P256.Pt) (h : pointToBlock H P = pointToBlock H Q) : P = Q ∨ Collides H (pointString P) (pointString Q) := by
  by_cases e : P = Q
  · exact Or.inl e
  · exact Or.inr ⟨fun h' => e (writePoint_inj _ _ (by simp) (by simp) P Q h'), (string_to_block H hH _ _).1 h⟩

/-- `ECPointToString` and `ECPointToBytes` of points other than infinity: the result does not depend on what the stack held, and different
points have the same result only if the basic hash function collides. -/
theorem point_to_string_partial (b b' : Bytes) (hb : b.length = 33) (hb' : b'.length = 33) (P Q : P256.Pt) (hP : P ≠ 0) :
    pointToString H b P = pointToString H b' P ∧
    (pointToString H b P = pointToString H b' Q → P = Q ∨ writePoint b P ≠ writePoint b' Q ∧ H (writePoint b P) = H (writePoint b' Q)) := by
  have full : ∀ s, (H s).take 32 = H s := fun s => List.take_of_length_le (by rw [hH])
  unfold pointToString
  rw [full, full, full]
  refine ⟨?_, fun h => ?_⟩
  · rcases P with _ | ⟨x, y, hx⟩
    · exact absurd rfl hP
    · rw [writePoint_some b hb, writePoint_some b' hb']
  · by_cases e : P = Q
    · exact Or.inl e
    · exact Or.inr ⟨fun h' => e (writePoint_inj b b' hb hb' P Q h'), h⟩

/-- The point at infinity: 32 bytes that nobody has written are hashed. Two calls return the same only if the stack held the same bytes or
the basic hash function collides. -/
theorem point_to_string_infinity (b b' : Bytes) (h : pointToString H b 0 = pointToString H b' 0) :
    b.drop 1 = b'.drop 1 ∨ (0 :: b.drop 1 ≠ 0 :: b'.drop 1 ∧ H (0 :: b.drop 1) = H (0 :: b'.drop 1)) := by
  have full : ∀ s, (H s).take 32 = H s := fun s => List.take_of_length_le (by rw [hH])
  unfold pointToString at h
  rw [full, full] at h
  by_cases e : b.drop 1 = b'.drop 1
  · exact Or.inl e
  · exact Or.inr ⟨fun h' => e (List.cons.inj h').2, h⟩

omit hH in
/-- The functions are not separated from each other: the block of a list of blocks is that of a string. -/
theorem blocks_are_string (v : List Block) : blocksToBlock H v = stringToBlock H (v.map Block.toBytes).flatten := by
  unfold blocksToBlock stringToBlock
  rw [concat_eq, List.nil_append]

omit hH in
/-- With a hash function that keeps the second to 33rd byte the result for infinity is what the stack held. -/
theorem infinity_shows_stack : ∃ H : Bytes → Bytes, (∀ s, (H s).length = 32) ∧
    ∀ b : Bytes, b.length = 33 → pointToString H b 0 = b.drop 1 := by
  refine ⟨fun s => (s.drop 1).take 32 ++ List.replicate (32 - (s.drop 1).length) 0, fun s => by simp; omega, fun b hb => ?_⟩
  have e : writePoint b 0 = 0 :: b.drop 1 := rfl
  unfold pointToString
  rw [e]
  simp only [List.drop_succ_cons, List.drop_zero]
  rw [List.take_of_length_le (l := b.drop 1) (by simp [hb]), List.length_drop, hb]
  simp [hb, List.take_of_length_le]

omit hH in
/-- The hypotheses are met, with results that differ. -/
example : ∃ H : Bytes → Bytes, (∀ s, (H s).length = 32) ∧ stringToBlock H [1] ≠ stringToBlock H [2] ∧
    blocksToBlock H [1#128] ≠ blocksToBlock H [2#128] :=
  ⟨fun s => s.take 32 ++ List.replicate (32 - s.length) 0, fun s => by simp; omega, by decide +kernel, by decide +kernel⟩

end Kunlun.HashWrap
