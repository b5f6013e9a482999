import Verif.Model.NaorPinkas
import Verif.Props.Proto
/-! Property C48: Naor-Pinkas oblivious transfer. -/

namespace Kunlun.NPOT

open Kunlun Kunlun.Proto

variable {G : Type} [AddCommGroup G]

/-- The points that are sent are not infinity (which the connection cannot carry). -/
structure Finite (g : G) (d : ℤ) (r sk : Nat → ℤ) (sel : Bytes) (len : Nat) : Prop where
  C : d • g ≠ 0
  X : ∀ i < len, r i • g ≠ 0
  pk : ∀ i < len, pk0 g (d • g) sk sel i ≠ 0

theorem getD_map_range {α : Type} (f : Nat → α) (n i : Nat) (x : α) (h : i < n) : ((List.range n).map f).getD i x = f i := by
  simp [List.getD, h]

/-- What the receiver computes at position `i`, whatever its selection byte. -/
theorem npot_run (net : Net G) (hn : net.Ok) (kdf : G → Block) (g : G) (d : ℤ) (r sk : Nat → ℤ) (m0 m1 : List Block) (sel : Bytes) (len : Nat)
    (h0 : len ≤ m0.length) (h1 : len ≤ m1.length) (hs : len ≤ sel.length) (hf : Finite g d r sk sel len) :
    Runs (send net kdf g d r m0 m1 len) (receive net kdf g sk sel len) () ((List.range len).map fun i =>
      if sel.getD i 0 = 0 then m0.getD i 0 else if sel.getD i 0 = 1 then m1.getD i 0 else
        kdf (r i • d • g - r i • sk i • g) ^^^ m1.getD i 0 ^^^ kdf (sk i • r i • g)) := by
  unfold send receive
  refine .pointsLR net hn rfl (by simpa using hf.C) ?_
  refine .pointsLR net hn (by simp) ?_ ?_
  · intro p hp
    rw [List.mem_map] at hp
    obtain ⟨i, hi, rfl⟩ := hp
    exact hf.X i (List.mem_range.1 hi)
  rw [if_neg (by omega)]
  refine .pointsRL net hn (by simp) ?_ ?_
  · intro p hp
    rw [List.mem_map] at hp
    obtain ⟨i, hi, rfl⟩ := hp
    exact hf.pk i (List.mem_range.1 hi)
  rw [if_neg (by omega)]
  refine .blocksLR net hn (by simp) (.blocksLR net hn (by simp) ?_)
  have : ∀ x y : List Block, x = y → Runs (.done ()) (.done x) () y := by rintro x _ rfl; exact .done _ _
  apply this
  apply List.map_congr_left
  intro i hi
  rw [List.mem_range] at hi
  simp only [getD_map_range _ _ _ _ hi, key0, key1, pk0, List.getD_cons_zero]
  have hc : r i • sk i • g = sk i • r i • g := smul_comm _ _ _
  by_cases e0 : sel.getD i 0 = 0
  · simp only [e0, if_true]
    rw [if_neg (by decide), hc, BitVec.xor_comm (kdf _), BitVec.xor_assoc, BitVec.xor_self, BitVec.xor_zero]
  · simp only [e0, if_false]
    by_cases e1 : sel.getD i 0 = 1
    · simp only [e1, if_true]
      rw [smul_sub, sub_sub_cancel, hc, BitVec.xor_comm (kdf _), BitVec.xor_assoc, BitVec.xor_self, BitVec.xor_zero]
    · simp only [e1, if_false]

/-- **C48** For all messages, selection bits, keys and randomness, and however the two parties are interleaved, the receiver ends with
`m0[i]` where its bit is 0 and with `m1[i]` where it is 1. -/
theorem npot_correct (net : Net G) (hn : net.Ok) (kdf : G → Block) (g : G) (d : ℤ) (r sk : Nat → ℤ) (m0 m1 : List Block) (sel : Bytes) (len : Nat)
    (h0 : m0.length = len) (h1 : m1.length = len) (hs : sel.length = len) (hbit : ∀ b ∈ sel, b = 0 ∨ b = 1)
    (hf : Finite g d r sk sel len) : ∃ res, Runs (send net kdf g d r m0 m1 len) (receive net kdf g sk sel len) () res ∧
      res.length = len ∧ ∀ i < len, res[i]? = if sel[i]? = some 0 then m0[i]? else m1[i]? := by
  refine ⟨_, npot_run net hn kdf g d r sk m0 m1 sel len (by omega) (by omega) (by omega) hf, by simp, ?_⟩
  intro i hi
  have hb := hbit sel[i] (List.getElem_mem (by omega))
  simp only [List.getElem?_map, List.getElem?_range, hi, Option.map_some, if_true]
  have e1 : sel.getD i 0 = sel[i] := by simp [List.getD, hs, hi]
  have e2 : m0.getD i 0 = m0[i] := by simp [List.getD, h0, hi]
  have e3 : m1.getD i 0 = m1[i] := by simp [List.getD, h1, hi]
  rw [e1, e2, e3, List.getElem?_eq_getElem (by omega), List.getElem?_eq_getElem (by omega), List.getElem?_eq_getElem (by omega)]
  rcases hb with hb | hb <;> simp [hb]

/-- A selection byte that is neither 0 nor 1 gives neither message: the receiver gets `m1` masked by the hashes of both session keys. -/
theorem npot_other_byte (net : Net G) (hn : net.Ok) (kdf : G → Block) (g : G) (d : ℤ) (r sk : Nat → ℤ) (m0 m1 : List Block) (sel : Bytes)
    (len i : Nat) (h0 : m0.length = len) (h1 : m1.length = len) (hs : sel.length = len) (hf : Finite g d r sk sel len) (hi : i < len)
    (b : UInt8) (hb : sel[i]? = some b) (hb0 : b ≠ 0) (hb1 : b ≠ 1) (res : List Block)
    (hr : Runs (send net kdf g d r m0 m1 len) (receive net kdf g sk sel len) () res) :
    res[i]? = m1[i]?.map fun m => kdf (r i • d • g - r i • sk i • g) ^^^ m ^^^ kdf (sk i • r i • g) := by
  have := (proto_result_unique _ _ _ _ _ _ hr (npot_run net hn kdf g d r sk m0 m1 sel len (by omega) (by omega) (by omega) hf)).2
  subst this
  have e1 : sel.getD i 0 = b := by simp [List.getD, hb]
  have e3 : m1.getD i 0 = m1[i] := by simp [List.getD, h1, hi]
  simp only [List.getElem?_map, List.getElem?_range, hi, Option.map_some, if_true, e1, hb0, hb1, if_false, e3]
  rw [List.getElem?_eq_getElem (by omega), Option.map_some]

/-- The receiver's messages do not depend on its bits: what it sends with bits `sel` and keys `sk` it also sends with any other bits
and suitably shifted keys. The shift is its own inverse up to exchanging the two bit vectors, so it is a bijection of the keys: seeing the
messages says nothing about the bits. -/
theorem npot_receiver_hidden (g : G) (d : ℤ) (sk : Nat → ℤ) (sel sel' : Bytes) (i : Nat) :
    let sk' := fun i => if sel.getD i 0 = 1 ↔ sel'.getD i 0 = 1 then sk i else d - sk i
    pk0 g (d • g) sk sel i = pk0 g (d • g) sk' sel' i ∧
      (fun i => if sel'.getD i 0 = 1 ↔ sel.getD i 0 = 1 then sk' i else d - sk' i) = sk := by
  intro sk'
  constructor
  · simp only [pk0, sk']
    by_cases a : sel.getD i 0 = 1 <;> by_cases b : sel'.getD i 0 = 1 <;> simp only [a, b, if_true, if_false, iff_self, iff_true, iff_false, true_iff, not_true, not_false_iff]
    · rw [sub_smul]
    · rw [sub_smul]; abel
  · funext j
    simp only [sk']
    by_cases a : sel.getD j 0 = 1 <;> by_cases b : sel'.getD j 0 = 1 <;>
      simp only [a, b, if_true, if_false, iff_self, iff_true, iff_false, true_iff, not_true, not_false_iff, sub_sub_cancel]

/-- Two transfers over the toy connection. -/
example : ∃ res, Runs (send toyNet (fun p => BitVec.ofNat 128 p.val) 1 3 (fun i => i + 1) [10, 20] [30, 40] 2)
    (receive toyNet (fun p => BitVec.ofNat 128 p.val) 1 (fun i => i + 4) [1, 0] 2) () res ∧ res.length = 2 ∧
      ∀ i < 2, res[i]? = if ([1, 0] : Bytes)[i]? = some 0 then ([10, 20] : List Block)[i]? else ([30, 40] : List Block)[i]? :=
  npot_correct toyNet toyNet_ok _ _ _ _ _ _ _ _ _ rfl rfl rfl (by decide) ⟨by decide, by decide, by decide⟩

end Kunlun.NPOT
