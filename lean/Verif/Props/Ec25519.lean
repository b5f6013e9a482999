import Verif.Model.Ec25519
import Verif.Props.X25519
/-!
C141: points of Curve25519 as values: comparison, order, `^`, files.
-/

namespace Kunlun.Ec25519
open Kunlun Kunlun.Ser

/-- `==` compares all 32 bytes. -/
theorem point_compare_iff (a b : Point) : a.compareTo b = true ↔ a = b := by
  unfold Point.compareTo
  rw [equal_iff]
  exact ⟨Point.ext, fun h => by rw [h]⟩

/-- The lexical comparison is a strict total order, as `std::sort` requires; two points of which none comes first are equal. -/
theorem point_order (a b c : Point) : a.less a = false ∧ (a.less b = true → b.less c = true → a.less c = true) ∧
    (a.less b = true ∨ a = b ∨ b.less a = true) := by
  have hs : ∀ q : Point, q.toByteString = q.px := fun q => by
    unfold Point.toByteString
    rw [List.take_of_length_le (by rw [q.len])]
    simp
  unfold Point.less
  simp only [hs]
  refine ⟨strLess_irrefl _, strLess_trans _ _ _, ?_⟩
  rcases strLess_total a.px b.px with h | h | h
  · exact Or.inl h
  · exact Or.inr (Or.inl (Point.ext h))
  · exact Or.inr (Or.inr h)

/-- `^` in whatever order the threads handle the positions: each byte of the result is the exclusive or of the two bytes. -/
theorem point_xor_bytes (order : List Nat) (ho : ∀ i < 32, i ∈ order) (a b : Point) (i : Nat) (hi : i < 32) :
    (a.xor order b).px[i]? = some (a.px.getD i 0 ^^^ b.px.getD i 0) := by
  unfold Point.xor
  simp only
  rw [foldl_xorAt _ _ _ _ _ (by rw [Point.fresh.len]; exact hi), if_pos (ho i hi)]

/-- So `^` with the same point twice gives the first point back, also with two different orders. -/
theorem point_xor_twice (order order' : List Nat) (ho : ∀ i < 32, i ∈ order) (ho' : ∀ i < 32, i ∈ order') (a b : Point) :
    (a.xor order b).xor order' b = a := by
  ext1
  apply List.ext_getElem?
  intro i
  by_cases hi : i < 32
  · rw [point_xor_bytes order' ho' _ _ i hi, List.getD_eq_getElem?_getD (l := (a.xor order b).px), point_xor_bytes order ho _ _ i hi,
      List.getElem?_eq_getElem (by rw [a.len]; exact hi), List.getD_eq_getElem?_getD (l := a.px),
      List.getElem?_eq_getElem (by rw [a.len]; exact hi)]
    simp [UInt8.xor_assoc]
  · rw [List.getElem?_eq_none (by rw [Point.len]; omega), List.getElem?_eq_none (by rw [Point.len]; omega)]

/-- Points that are written to a file one after the other are read back into points with any content, and what follows stays in the stream. -/
theorem point_file_round_trip (as old : List Point) (h : old.length = as.length) (rest : Bytes) :
    getAll old ⟨putAll as ++ rest, false⟩ = (as, ⟨rest, false⟩) := by
  induction as generalizing old with
  | nil =>
    obtain rfl : old = [] := List.length_eq_zero_iff.1 h
    rfl
  | cons a as ih =>
    cases old with
    | nil => cases h
    | cons o os =>
      have e : putAll (a :: as) ++ rest = a.px ++ (putAll as ++ rest) := by
        show (a.px ++ putAll as) ++ rest = _
        rw [List.append_assoc]
      have r : readInto ⟨a.px ++ (putAll as ++ rest), false⟩ o.px = (a.px, ⟨putAll as ++ rest, false⟩) := by
        unfold readInto
        rw [if_neg (by simp), if_neg (by simp only [List.length_append, o.len, a.len]; omega)]
        simp only [o.len]
        rw [← a.len, List.take_left, List.drop_left]
      have g : o.get ⟨a.px ++ (putAll as ++ rest), false⟩ = (a, ⟨putAll as ++ rest, false⟩) := by
        unfold Point.get
        refine Prod.ext (Point.ext ?_) ?_
        · simp only [r]
        · simp only [r]
      rw [e]
      unfold getAll
      rw [g]
      simp only
      rw [ih os (by simpa using h)]

/-- A file that is too short sets the failure flag; the bytes that are there have been stored, so that the point is neither the old nor a
written one. -/
theorem point_file_short (old : Point) (b : Bytes) (h : b.length < 32) :
    (old.get ⟨b, false⟩).2.fail = true ∧ (old.get ⟨b, false⟩).1.px = b ++ old.px.drop b.length := by
  have r : readInto ⟨b, false⟩ old.px = (b ++ old.px.drop b.length, ⟨[], true⟩) := by
    unfold readInto
    rw [if_neg (by simp), if_pos (by rw [old.len]; exact h)]
  exact ⟨congrArg (fun q => q.2.fail) r, congrArg Prod.fst r⟩

/-- The constructor without arguments does not make "a all zero byte array", as its comment says: all bytes are 48, and `^` with such a point
changes every byte. -/
theorem point_fresh_not_zero (order : List Nat) (ho : ∀ i < 32, i ∈ order) (a : Point) (i : Nat) (hi : i < 32) :
    Point.fresh.px ≠ List.replicate 32 0 ∧ (a.xor order Point.fresh).px[i]? ≠ a.px[i]? := by
  refine ⟨by decide, ?_⟩
  rw [point_xor_bytes order ho _ _ i hi, List.getElem?_eq_getElem (by rw [a.len]; exact hi), List.getD_eq_getElem?_getD (l := a.px),
    List.getElem?_eq_getElem (by rw [a.len]; exact hi)]
  have h48 : Point.fresh.px.getD i 0 = 48 := by
    have : Point.fresh.px = List.replicate 32 48 := rfl
    rw [this, List.getD_eq_getElem?_getD, List.getElem?_replicate, if_pos hi]
    rfl
  rw [h48]
  simp only [Option.getD_some, ne_eq, Option.some.injEq]
  generalize a.px[i]'(by rw [a.len]; exact hi) = x
  intro h
  have : (48 : UInt8) = 0 := by
    have h2 := congrArg (fun z => x ^^^ z) h
    simpa [← UInt8.xor_assoc] using h2
  exact absurd this (by decide)

/-- Nine, the base point, and the same with the highest bit set. -/
def nine : Point := ⟨9 :: List.replicate 31 0, by simp⟩
def nine' : Point := ⟨9 :: List.replicate 30 0 ++ [128], by simp⟩

/-- `==` does not compare points of the curve: two points that it tells apart have the same multiples, all of them. -/
theorem point_unequal_same : nine.compareTo nine' = false ∧ ∀ k, X25519.mulx k nine.px = X25519.mulx k nine'.px := by
  refine ⟨by decide, fun k => X25519.x25519_ignores k k _ _ (by decide +kernel) fun _ _ _ => rfl⟩

/-- After a multiplication it does: results with the same first coordinate are equal byte for byte. -/
theorem point_equal_after_mul (k k' u v : Bytes) (hu : (X25519.mulx k u).length = 32) (hv : (X25519.mulx k' v).length = 32) :
    (Point.mk (X25519.mulx k u) hu).compareTo ⟨X25519.mulx k' v, hv⟩ = true ↔
      X25519.fromBytes (X25519.mulx k u) = X25519.fromBytes (X25519.mulx k' v) := by
  rw [point_compare_iff, Point.mk.injEq]
  refine ⟨fun h => by rw [h], fun h => ?_⟩
  unfold X25519.mulx at h ⊢
  rw [X25519.fromBytes_leBytes _ (X25519.ladder_lt _ _), X25519.fromBytes_leBytes _ (X25519.ladder_lt _ _)] at h
  rw [h]

/-- The hypotheses are met: any order that contains all positions, here the one of two threads that take turns. -/
example : ∀ i < 32, i ∈ (List.range 16).flatMap fun i => [i, i + 16] := by decide

/-- Two points in a file, followed by another byte. -/
example : getAll [Point.fresh, nine] ⟨putAll [nine, nine'] ++ [7], false⟩ = ([nine, nine'], ⟨[7], false⟩) :=
  point_file_round_trip [nine, nine'] [Point.fresh, nine] rfl [7]

/-- A file of three bytes. -/
example : ([1, 2, 3] : Bytes).length < 32 ∧ (nine.get ⟨[1, 2, 3], false⟩).1.px = [1, 2, 3] ++ List.replicate 29 0 := ⟨by decide, by decide⟩

end Kunlun.Ec25519
