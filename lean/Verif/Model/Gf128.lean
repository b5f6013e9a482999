import Verif.Model.Block
import Mathlib.RingTheory.AdjoinRoot
import Mathlib.FieldTheory.Finite.Basic
import Mathlib.Algebra.CharP.Two
/-!
Model of the GF(2^128) arithmetic of `mpc/okvs/okvs_utility.hpp` (`gf128_mul`, `gf128_inv`) and
`mpc/vole/basevole.hpp` (`gf128_mul`, `gadget_innerProduct`).

The carry-less multiplication instruction is defined from the instruction reference.  The two `gf128_mul` in the code
base are the same text, so one definition models both.
-/

namespace Kunlun.GF

open Kunlun

/-! ### Intrinsics -/

/-- Carry-less product of two 64-bit words: the xor of `a` shifted by every set position of `b`. -/
def clmulN (a b : BitVec 64) : Nat → BitVec 128
  | 0 => 0#128
  | n + 1 => clmulN a b n ^^^ (if b.getLsbD n then a.setWidth 128 <<< n else 0#128)

/-- `_mm_clmulepi64_si128(x, y, imm)` for the immediate `yhi << 4 | xhi`. -/
def clmul (x y : Block) (xhi yhi : Bool) : Block :=
  clmulN (x.extractLsb' (if xhi then 64 else 0) 64) (y.extractLsb' (if yhi then 64 else 0) 64) 64

/-! ### Code -/

/-- The low part of the modulus, `0b10000111` loaded by `_mm_loadl_epi64` (okvs_utility.hpp:484-486). -/
def modOmit : Block := 0b10000111#128

/-- okvs_utility.hpp:467-495 and basevole.hpp:350-378 -/
def mul (x y : Block) : Block :=
  let x0y0 := clmul x y false false
  let x1y0 := clmul x y false true
  let x0y1 := clmul x y true false
  let x1y1 := clmul x y true true
  let x1y0 := x1y0 ^^^ x0y1
  let x0y1 := Block.slliBytes x1y0 8
  let x1y0 := Block.srliBytes x1y0 8
  let x0y0 := x0y0 ^^^ x0y1
  let x1y1 := x1y1 ^^^ x1y0
  let low := x0y0
  let high := x1y1
  let impact := clmul high modOmit true false
  let low := low ^^^ Block.slliBytes impact 8
  let high := high ^^^ Block.srliBytes impact 8
  let impact := clmul high modOmit false false
  low ^^^ impact

/-- `k` squarings: the inner loop of `gf128_inv` (okvs_utility.hpp:521-524). -/
def squares : Nat → Block → Block
  | 0, b => b
  | k + 1, b => squares k (mul b b)

/-- The outer loop of `gf128_inv` (okvs_utility.hpp:517-540): iterations `i, i+1, ..., 6`, given as `fuel = 7 - i`. -/
def invLoop : Nat → Nat → Block → Block → Block
  | 0, _, _, result => result
  | fuel + 1, i, a, result =>
    let b := squares (1 <<< i) a
    invLoop fuel (i + 1) (mul a b) (if i = 0 then b else mul result b)

/-- okvs_utility.hpp:511-547 -/
def inv (x : Block) : Block := invLoop 7 0 x 0#128

/-- The loop of `gadget_innerProduct` (basevole.hpp:383-392) over the first `n` entries. -/
def gadgetN (v : List Block) : Nat → Option Block
  | 0 => some 0#128
  | n + 1 => do
    let x ← gadgetN v n
    let vi ← v[n]?
    let wi := if n < 64 then Block.makeBlock 0#64 (1#64 <<< n) else Block.makeBlock (1#64 <<< (n - 64)) 0#64
    some (x ^^^ mul wi vi)

/-- basevole.hpp:380-394; the `assert` on the length stops the program (with assertions disabled a shorter vector would be
read out of range, a longer one would be cut). -/
def gadget (v : List Block) : Option Block := if v.length = 128 then gadgetN v 128 else none

/-! ### Bit strings as polynomials in a ring element -/

section Eval
variable {R : Type*} [CommRing R] [CharP R 2] (α : R)

/-- The value at `α` of the polynomial whose coefficients are the bits of `v`. -/
def ev {w : Nat} (v : BitVec w) : R := ∑ i ∈ Finset.range w, if v.getLsbD i then α ^ i else 0

theorem ev_zero {w : Nat} : ev α (0#w) = 0 := by simp [ev]

theorem ev_xor {w : Nat} (a b : BitVec w) : ev α (a ^^^ b) = ev α a + ev α b := by
  unfold ev
  rw [← Finset.sum_add_distrib]
  refine Finset.sum_congr rfl fun i _ => ?_
  rw [BitVec.getLsbD_xor]
  cases a.getLsbD i <;> cases b.getLsbD i <;> simp [CharTwo.add_self_eq_zero]

/-- A longer sum with zero bits on top. -/
theorem ev_eq_range {w : Nat} (v : BitVec w) (n : Nat) (h : w ≤ n) :
    ev α v = ∑ i ∈ Finset.range n, if v.getLsbD i then α ^ i else 0 := by
  unfold ev
  refine Finset.sum_subset (by intro i; simp; omega) ?_
  intro i _ hi
  simp at hi
  simp [BitVec.getLsbD_of_ge v i hi]

theorem ev_shift (a : BitVec 64) (n : Nat) (hn : n < 64) : ev α (a.setWidth 128 <<< n) = α ^ n * ev α a := by
  unfold ev
  have : Finset.range 128 = Finset.range (n + (128 - n)) := by congr 1; omega
  rw [this, Finset.sum_range_add, Finset.mul_sum]
  have h1 : ∑ x ∈ Finset.range n, (if (a.setWidth 128 <<< n).getLsbD x then α ^ x else 0) = 0 := by
    refine Finset.sum_eq_zero fun i hi => ?_
    simp at hi
    simp [hi]
  rw [h1, zero_add]
  have h2 : ∑ i ∈ Finset.range 64, α ^ n * (if a.getLsbD i then α ^ i else 0) =
      ∑ i ∈ Finset.range (128 - n), α ^ n * (if a.getLsbD i then α ^ i else 0) := by
    refine Finset.sum_subset (by intro i; simp; omega) ?_
    intro i _ hi
    simp at hi
    simp [BitVec.getLsbD_of_ge a i hi]
  rw [h2]
  refine Finset.sum_congr rfl fun i hi => ?_
  simp at hi
  have h3 : (a.setWidth 128 <<< n).getLsbD (n + i) = a.getLsbD i := by
    rcases Nat.lt_or_ge i 64 with h | h
    · simp [show n + i < 128 by omega, show i < 128 by omega]
    · simp [BitVec.getLsbD_of_ge a i h]
  rw [h3]
  split <;> simp [pow_add]

theorem ev_clmulN (a b : BitVec 64) (n : Nat) (hn : n ≤ 64) :
    ev α (clmulN a b n) = ev α a * ∑ i ∈ Finset.range n, if b.getLsbD i then α ^ i else 0 := by
  induction n with
  | zero => simp [clmulN, ev_zero]
  | succ n ih =>
    rw [clmulN, ev_xor, ih (by omega), Finset.sum_range_succ, mul_add]
    congr 1
    split
    · rw [ev_shift α a n (by omega), mul_comm]
    · simp [ev_zero]

/-- The carry-less product is the product of the two polynomials. -/
theorem ev_clmul (x y : Block) (p q : Bool) : ev α (clmul x y p q) =
    ev α (x.extractLsb' (if p then 64 else 0) 64) * ev α (y.extractLsb' (if q then 64 else 0) 64) :=
  ev_clmulN α _ _ 64 (by omega)

theorem ev_halves (x : Block) : ev α x = ev α (x.extractLsb' 0 64) + α ^ 64 * ev α (x.extractLsb' 64 64) := by
  unfold ev
  rw [Finset.sum_range_add (fun i => if x.getLsbD i then α ^ i else 0) 64 64, Finset.mul_sum]
  congr 1
  · refine Finset.sum_congr rfl fun i hi => ?_
    simp at hi
    simp [BitVec.getLsbD_extractLsb', hi]
  · refine Finset.sum_congr rfl fun i hi => ?_
    simp at hi
    simp [BitVec.getLsbD_extractLsb', hi, pow_add]

theorem ev_slli (x : Block) : ev α (Block.slliBytes x 8) = α ^ 64 * ev α (x.extractLsb' 0 64) := by
  rw [ev_halves]
  have h1 : (Block.slliBytes x 8).extractLsb' 0 64 = 0#64 := by
    apply BitVec.eq_of_getLsbD_eq; intro i hi
    simp [BitVec.getLsbD_extractLsb', Block.slliBytes, hi]
  have h2 : (Block.slliBytes x 8).extractLsb' 64 64 = x.extractLsb' 0 64 := by
    apply BitVec.eq_of_getLsbD_eq; intro i hi
    simp [BitVec.getLsbD_extractLsb', Block.slliBytes, hi]
    intro _; omega
  rw [h1, h2, ev_zero, zero_add]

theorem ev_srli (x : Block) : ev α (Block.srliBytes x 8) = ev α (x.extractLsb' 64 64) := by
  rw [ev_halves]
  have h1 : (Block.srliBytes x 8).extractLsb' 64 64 = 0#64 := by
    apply BitVec.eq_of_getLsbD_eq; intro i hi
    simp [BitVec.getLsbD_extractLsb', Block.srliBytes, hi]
    exact BitVec.getLsbD_of_ge x _ (by omega)
  have h2 : (Block.srliBytes x 8).extractLsb' 0 64 = x.extractLsb' 64 64 := by
    apply BitVec.eq_of_getLsbD_eq; intro i hi
    simp [BitVec.getLsbD_extractLsb', Block.srliBytes, hi]
  rw [h1, h2, ev_zero, mul_zero, add_zero]

theorem ev_modOmit_lo : ev α (modOmit.extractLsb' 0 64) = α ^ 7 + α ^ 2 + α + 1 := by
  have h : modOmit.extractLsb' 0 64 = 0b10000111#64 := by decide +kernel
  rw [h]
  have : ev α (0b10000111#64) = ∑ i ∈ Finset.range 8, if (0b10000111#64).getLsbD i then α ^ i else 0 := by
    unfold ev
    symm
    refine Finset.sum_subset (by intro i; simp; omega) ?_
    intro i h1 hi
    simp at h1 hi
    have : ∀ i < 64, 8 ≤ i → (0b10000111#64).getLsbD i = false := by decide +kernel
    rw [this i h1 hi]; rfl
  rw [this]
  simp [Finset.sum_range_succ]
  ring

/-- `gf128_mul` multiplies in every ring in which `α` is a root of the modulus. -/
theorem ev_mul (hα : α ^ 128 = α ^ 7 + α ^ 2 + α + 1) (x y : Block) : ev α (mul x y) = ev α x * ev α y := by
  have hx := ev_halves α x
  have hy := ev_halves α y
  have hlo : ∀ a b : Block, (a ^^^ b).extractLsb' 0 64 = a.extractLsb' 0 64 ^^^ b.extractLsb' 0 64 := by
    intro a b; apply BitVec.eq_of_getLsbD_eq; intro i hi; simp [BitVec.getLsbD_extractLsb', hi]
  have hsrlo : ∀ a : Block, (Block.srliBytes a 8).extractLsb' 0 64 = a.extractLsb' 64 64 := by
    intro a; apply BitVec.eq_of_getLsbD_eq; intro i hi
    simp [BitVec.getLsbD_extractLsb', Block.srliBytes, hi]
  unfold mul
  dsimp only
  have h00 := ev_clmul α x y false false
  have h01 := ev_clmul α x y false true
  have h10 := ev_clmul α x y true false
  have h11 := ev_clmul α x y true true
  simp only [if_true, Bool.false_eq_true, if_false] at h00 h01 h10 h11
  generalize clmul x y false false = c00 at *
  have hm : ev α (clmul x y false true ^^^ clmul x y true false) = ev α (clmul x y false true) + ev α (clmul x y true false) :=
    ev_xor α _ _
  generalize clmul x y false true ^^^ clmul x y true false = m at *
  have hh : ev α (clmul x y true true ^^^ Block.srliBytes m 8) = ev α (clmul x y true true) + ev α (m.extractLsb' 64 64) := by
    rw [ev_xor, ev_srli]
  generalize clmul x y true true ^^^ Block.srliBytes m 8 = H at *
  have hi1 := ev_clmul α H modOmit true false
  simp only [if_true, Bool.false_eq_true, if_false, ev_modOmit_lo] at hi1
  generalize clmul H modOmit true false = I at *
  rw [ev_xor, ev_xor, ev_xor, ev_slli, ev_slli, ev_clmul]
  simp only [Bool.false_eq_true, if_false, ev_modOmit_lo, hlo, hsrlo, ev_xor]
  have hI := ev_halves α I
  have hH := ev_halves α H
  have hM := ev_halves α m
  rw [hx, hy]
  linear_combination (h00) + α ^ 64 * (hm + h01 + h10) + α ^ 128 * (hh + h11) - α^64 * hM - α ^ 128 * hH - α ^ 64 * hI + α^64 * hi1
    - (ev α (H.extractLsb' 0 64) + α ^ 64 * ev α (H.extractLsb' 64 64) + ev α (I.extractLsb' 64 64)) * hα

end Eval
end Kunlun.GF
