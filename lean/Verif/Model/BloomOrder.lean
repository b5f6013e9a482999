import Verif.Model.Bloom
import Mathlib.Data.List.Perm.Basic
/-! The Bloom filter does not depend on the order of insertions. -/

namespace Kunlun.Bloom

open Kunlun

/-- A fold whose steps commute does not depend on the order. -/
theorem foldlM_perm {α β : Type} (g : β → α → Option β) (hc : ∀ b x y, (g b x).bind (g · y) = (g b y).bind (g · x)) {l l' : List α}
    (h : l.Perm l') : ∀ b, l.foldlM g b = l'.foldlM g b := by
  induction h with
  | nil => intro b; rfl
  | cons x _ ih =>
    intro b
    rw [List.foldlM_cons, List.foldlM_cons]
    exact congrArg (Option.bind (g b x)) (funext ih)
  | swap x y l =>
    intro b
    simp only [List.foldlM_cons, Option.bind_eq_bind]
    rw [← Option.bind_assoc, ← Option.bind_assoc, hc]
  | trans _ _ h1 h2 => intro b; rw [h1, h2]

theorem orBit_comm (t : Bytes) (i j : Nat) : (orBit t i).bind (orBit · j) = (orBit t j).bind (orBit · i) := by
  unfold orBit
  by_cases hi : i / 8 < t.length
  · by_cases hj : j / 8 < t.length
    · simp only [List.getElem?_eq_getElem hi, List.getElem?_eq_getElem hj, Option.bind_eq_bind, Option.bind_some, Option.pure_def, List.getElem?_set]
      by_cases e : i / 8 = j / 8
      · simp only [e, hj, if_true, Option.bind_some, List.set_set]
        congr 2
        rw [UInt8.or_assoc, UInt8.or_assoc, UInt8.or_comm (bitMask (i % 8))]
      · rw [if_neg e, if_neg (Ne.symm e)]
        simp only [Option.bind_some]
        rw [List.set_comm _ _ e]
    · simp only [List.getElem?_eq_getElem hi, List.getElem?_eq_none (Nat.le_of_not_lt hj), Option.bind_eq_bind, Option.bind_some, Option.pure_def,
        Option.bind_none]
      rw [List.getElem?_eq_none (by rw [List.length_set]; omega)]
      rfl
  · simp only [List.getElem?_eq_none (Nat.le_of_not_lt hi), Option.bind_eq_bind, Option.bind_none, Option.pure_def]
    cases h : t[j / 8]? with
    | none => rfl
    | some b =>
      simp only [Option.bind_some]
      rw [List.getElem?_eq_none (by rw [List.length_set]; omega)]
      rfl

theorem foldlM_orBit_comm (a b : List Nat) (t : Bytes) : (a.foldlM orBit t).bind (b.foldlM orBit ·) = (b.foldlM orBit t).bind (a.foldlM orBit ·) := by
  have := foldlM_perm orBit orBit_comm (List.perm_append_comm (l₁ := a) (l₂ := b)) t
  rwa [List.foldlM_append, List.foldlM_append] at this

theorem insert_comm (H : UInt32 → Bytes → UInt32) (f : Filter) (x y : Bytes) :
    (insert H f x).bind (insert H · y) = (insert H f y).bind (insert H · x) := by
  have key : ∀ x y, (insert H f x).bind (insert H · y) = (bitIndices H f x (List.range f.hashNum)).bind fun a =>
      (bitIndices H f y (List.range f.hashNum)).bind fun b => ((a.foldlM orBit f.bitTable).bind (b.foldlM orBit ·)).map fun t =>
        { f with bitTable := t, inserted := ((f.inserted + 1) % 2 ^ 64 + 1) % 2 ^ 64 } := by
    intro x y
    unfold insert insertSched
    cases bitIndices H f x (List.range f.hashNum) with
    | none => rfl
    | some a =>
      simp only [Option.bind_eq_bind, Option.bind_some, Option.pure_def]
      cases a.foldlM orBit f.bitTable with
      | none =>
        simp only [Option.bind_none]
        cases bitIndices H f y (List.range f.hashNum) <;> rfl
      | some t =>
        simp only [Option.bind_some]
        show (bitIndices H f y (List.range f.hashNum)).bind _ = _
        congr 1
        funext b
        cases b.foldlM orBit t <;> rfl
  rw [key, key]
  cases bitIndices H f x (List.range f.hashNum) with
  | none => cases bitIndices H f y (List.range f.hashNum) <;> rfl
  | some a =>
    cases bitIndices H f y (List.range f.hashNum) with
    | none => rfl
    | some b =>
      simp only [Option.bind_some]
      rw [foldlM_orBit_comm]

/-- Inserting the same elements in another order gives the same filter, byte for byte. -/
theorem insertAll_perm (H : UInt32 → Bytes → UInt32) (f : Filter) {xs ys : List Bytes} (h : xs.Perm ys) : insertAll H f xs = insertAll H f ys :=
  foldlM_perm _ (insert_comm H) h f

end Kunlun.Bloom
