import Verif.Model.Serialization
/-!
crypto/ec_25519.hpp: points of Curve25519 as values. A point is its array `px` of 32 bytes.
-/

namespace Kunlun.Ec25519
open Kunlun Kunlun.Ser

/-- ec_25519.hpp:19-21 -/
@[ext] structure Point where
  px : Bytes
  len : px.length = 32
deriving DecidableEq

/-- ec_25519.hpp:71-74, the constructor without arguments: `memset(px, '0', 32)`. -/
def Point.fresh : Point := ⟨List.replicate 32 48, by simp⟩

/-- ec_25519.hpp:80-82, the constructor from a buffer; a shorter buffer is read out of bounds. -/
def Point.ofBuffer (b : Bytes) : Option Point :=
  if h : 32 ≤ b.length then some ⟨b.take 32, by simp [h]⟩ else none

/-- ec_25519.hpp:95, the body of the loop of `XOR` for position `i`. -/
def xorAt (a b : Bytes) (r : Bytes) (i : Nat) : Bytes := r.set i (a.getD i 0 ^^^ b.getD i 0)

theorem xorAt_len (a b : Bytes) (l : List Nat) (r : Bytes) : (l.foldl (xorAt a b) r).length = r.length := by
  induction l generalizing r with
  | nil => rfl
  | cons i l ih => rw [List.foldl_cons, ih, xorAt, List.length_set]

/-- ec_25519.hpp:90-98 `XOR`: the threads handle the positions in the order `order`. -/
def Point.xor (order : List Nat) (a b : Point) : Point :=
  ⟨order.foldl (xorAt a.px b.px) Point.fresh.px, by rw [xorAt_len]; exact Point.fresh.len⟩

/-- `std::equal` on two ranges. -/
def equal : Bytes → Bytes → Bool
  | [], [] => true
  | a :: as, b :: bs => if a = b then equal as bs else false
  | _, _ => false

/-- ec_25519.hpp:100-102 `CompareTo`. -/
def Point.compareTo (a b : Point) : Bool := equal a.px b.px

/-- ec_25519.hpp:106-111 `ToByteString`: 32 characters `'0'`, then `memcpy` of 32 bytes. -/
def Point.toByteString (a : Point) : Bytes := a.px.take 32 ++ (List.replicate 32 48).drop 32

/-- `operator<` of `std::string`: the first different characters decide, compared as `unsigned char`; otherwise the length. -/
def strLess : Bytes → Bytes → Bool
  | [], b => !b.isEmpty
  | _ :: _, [] => false
  | x :: a, y :: b => if x.toNat < y.toNat then true else if y.toNat < x.toNat then false else strLess a b

/-- ec_25519.hpp:149-151 `EC25519Point_Lexical_Compare`. -/
def Point.less (a b : Point) : Bool := strLess a.toByteString b.toByteString

/-- ec_25519.hpp:127-131 `operator<<`. -/
def Point.put (a : Point) : Bytes := a.px

theorem readInto_len (s : IStream) (old : Bytes) : (readInto s old).1.length = old.length := by
  unfold readInto
  split
  · rfl
  · split
    · simp; omega
    · simp; omega

/-- ec_25519.hpp:133-137 `operator>>` into a point that holds `old`. -/
def Point.get (old : Point) (s : IStream) : Point × IStream :=
  (⟨(readInto s old.px).1, by rw [readInto_len]; exact old.len⟩, (readInto s old.px).2)

/-- Points written one after the other. -/
def putAll (as : List Point) : Bytes := (as.map Point.put).flatten

/-- Points read one after the other. -/
def getAll : List Point → IStream → List Point × IStream
  | [], s => ([], s)
  | o :: os, s => ((o.get s).1 :: (getAll os (o.get s).2).1, (getAll os (o.get s).2).2)

/-! ### Lemmas -/

theorem equal_iff (a b : Bytes) : equal a b = true ↔ a = b := by
  induction a generalizing b with
  | nil => cases b <;> simp [equal]
  | cons x a ih => cases b with
    | nil => simp [equal]
    | cons y b =>
      unfold equal
      split
      · rename_i h; rw [ih]; simp [h]
      · rename_i h; simp [h]

theorem strLess_irrefl (a : Bytes) : strLess a a = false := by
  induction a with
  | nil => rfl
  | cons x a ih => unfold strLess; simp [ih]

theorem strLess_trans (a b c : Bytes) (h1 : strLess a b = true) (h2 : strLess b c = true) : strLess a c = true := by
  induction a generalizing b c with
  | nil =>
    cases c with
    | nil => cases b <;> simp [strLess] at h1 h2
    | cons z c => rfl
  | cons x a ih =>
    cases b with
    | nil => simp [strLess] at h1
    | cons y b =>
      cases c with
      | nil => simp [strLess] at h2
      | cons z c =>
        unfold strLess at h1 h2 ⊢
        rcases lt_trichotomy x.toNat y.toNat with h | h | h
        · rcases lt_trichotomy y.toNat z.toNat with k | k | k
          · rw [if_pos (h.trans k)]
          · obtain rfl := UInt8.toNat_inj.1 k; rw [if_pos h]
          · rw [if_neg (not_lt_of_gt k), if_pos k] at h2; cases h2
        · obtain rfl := UInt8.toNat_inj.1 h
          rw [if_neg (lt_irrefl _), if_neg (lt_irrefl _)] at h1
          rcases lt_trichotomy x.toNat z.toNat with k | k | k
          · rw [if_pos k]
          · obtain rfl := UInt8.toNat_inj.1 k
            rw [if_neg (lt_irrefl _), if_neg (lt_irrefl _)] at h2 ⊢
            exact ih b c h1 h2
          · rw [if_neg (not_lt_of_gt k), if_pos k] at h2; cases h2
        · rw [if_neg (not_lt_of_gt h), if_pos h] at h1; cases h1

theorem strLess_total (a b : Bytes) : strLess a b = true ∨ a = b ∨ strLess b a = true := by
  induction a generalizing b with
  | nil => cases b <;> simp [strLess]
  | cons x a ih =>
    cases b with
    | nil => simp [strLess]
    | cons y b =>
      unfold strLess
      rcases lt_trichotomy x.toNat y.toNat with h | h | h
      · left; rw [if_pos h]
      · obtain rfl := UInt8.toNat_inj.1 h
        rw [if_neg (lt_irrefl _), if_neg (lt_irrefl _), if_neg (lt_irrefl _), if_neg (lt_irrefl _)]
        rcases ih b with k | k | k
        · exact Or.inl k
        · exact Or.inr (Or.inl (by rw [k]))
        · exact Or.inr (Or.inr k)
      · right; right; rw [if_pos h]

theorem foldl_xorAt (a b : Bytes) (l : List Nat) (r : Bytes) (i : Nat) (hi : i < r.length) :
    (l.foldl (xorAt a b) r)[i]? = if i ∈ l then some (a.getD i 0 ^^^ b.getD i 0) else r[i]? := by
  induction l generalizing r with
  | nil => simp
  | cons j l ih =>
    rw [List.foldl_cons, ih _ (by rw [xorAt, List.length_set]; exact hi)]
    by_cases h : i ∈ l
    · rw [if_pos h, if_pos (List.mem_cons_of_mem _ h)]
    · rw [if_neg h, xorAt, List.getElem?_set]
      by_cases e : j = i
      · subst e; rw [if_pos rfl, if_pos hi, if_pos List.mem_cons_self]
      · rw [if_neg e, if_neg (by rw [List.mem_cons]; rintro (h' | h'); exacts [e h'.symm, h h'])]

end Kunlun.Ec25519
