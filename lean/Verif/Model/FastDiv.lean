import Mathlib.Data.Nat.Prime.Basic
import Mathlib.Tactic.Ring
import Mathlib.Tactic.Linarith
import Mathlib.Data.Nat.Log
/-!
Model of the precomputed division of `mpc/okvs/okvs_utility.hpp` (lines 64-463), x86-64/gcc configuration
(the AVX2 code of the same file does not compile elsewhere): `__uint128_t` multiplication and the `divq` instruction.
-/

namespace Kunlun.FastDiv

/-- okvs_utility.hpp:64-68 `struct divider`. -/
structure Divider where
  magic : BitVec 64
  more : BitVec 8
  deriving DecidableEq

/-- Result of `gen_divider`: a C++ exception (line 334), a processor fault / undefined builtin / failed assert, or a value. -/
inductive Outcome where
  | thrown
  | fault
  | ok (d : Divider)
  deriving DecidableEq

/-- okvs_utility.hpp:205-210 `count_leading_zeros64` = `__builtin_clzll`, undefined at 0. -/
def clz64 (v : BitVec 64) : Option Nat :=
  if v = 0#64 then none else some (63 - Nat.log2 v.toNat)

/-- okvs_utility.hpp:79-81 `divide_mullhi_u64`. -/
def mullhi (x y : BitVec 64) : BitVec 64 :=
  (((x.setWidth 128) * (y.setWidth 128)) >>> 64).setWidth 64

/-- okvs_utility.hpp:242 the `divq` instruction: quotient and remainder of `hi·2^64+lo`, a fault if the quotient
does not fit 64 bits (in particular for a zero divisor). -/
def divq (hi lo den : BitVec 64) : Option (BitVec 64 × BitVec 64) :=
  if hi.toNat < den.toNat then
    some (BitVec.ofNat 64 ((hi.toNat * 2 ^ 64 + lo.toNat) / den.toNat),
          BitVec.ofNat 64 ((hi.toNat * 2 ^ 64 + lo.toNat) % den.toNat))
  else none

/-- okvs_utility.hpp:330-397 `gen_divider`. -/
def genDivider (d : BitVec 64) : Outcome :=
  if d = 0#64 then .thrown
  else match clz64 d with
  | none => .fault
  | some z =>
    let fl := 63 - z
    if d &&& (d - 1#64) = 0#64 then .ok ⟨0#64, BitVec.ofNat 8 fl⟩
    else match divq (1#64 <<< fl) 0#64 d with
    | none => .fault
    | some (m, rem) =>
      -- line 361 `assert(rem > 0 && rem < d)`
      if ¬ (0#64 < rem ∧ rem < d) then .fault
      else
        let e := d - rem
        if e < 1#64 <<< fl then .ok ⟨1#64 + m, BitVec.ofNat 8 fl⟩
        else
          let m := m + m
          let tw := rem + rem
          let m := if d ≤ tw ∨ tw < rem then m + 1#64 else m
          .ok ⟨1#64 + m, BitVec.ofNat 8 fl ||| 0x40#8⟩

/-- A C++ shift of a 64-bit word; undefined for a count of 64 or more. -/
def shr (x : BitVec 64) (s : Nat) : Option (BitVec 64) := if s < 64 then some (x >>> s) else none

/-- okvs_utility.hpp:125-150 `divide_u64_do`. -/
def divideU64 (numer : BitVec 64) (dv : Divider) : Option (BitVec 64) :=
  if dv.magic = 0#64 then shr numer dv.more.toNat
  else
    let q := mullhi dv.magic numer
    if dv.more &&& 0x40#8 ≠ 0#8 then
      shr (((numer - q) >>> 1) + q) (dv.more &&& 0x3F#8).toNat
    else shr q dv.more.toNat

/-- One 64-bit lane of `_mm256_mul_epu32`: product of the low halves. -/
def mulEpu32 (x y : BitVec 64) : BitVec 64 :=
  ((x.setWidth 32).setWidth 64) * ((y.setWidth 32).setWidth 64)

/-- One 64-bit lane of `_mm256_shuffle_epi32(x, _MM_SHUFFLE(3,3,1,1))`: the high half copied to both halves. -/
def shufHi (x : BitVec 64) : BitVec 64 := x.extractLsb' 32 32 ++ x.extractLsb' 32 32

/-- One 64-bit lane of `_mm256_srli_epi64`: counts above 63 give 0 (`BitVec` shift does the same). -/
def srli (x : BitVec 64) (s : Nat) : BitVec 64 := x >>> s

/-- okvs_utility.hpp:102-123 one lane of `divide_mullhi_uint64_t_vec256`. -/
def mullhiLane (x y : BitVec 64) : BitVec 64 :=
  let x0y0 := mulEpu32 x y
  let x0y0_hi := srli x0y0 32
  let x1 := shufHi x
  let y1 := shufHi y
  let x0y1 := mulEpu32 x y1
  let x1y0 := mulEpu32 x1 y
  let x1y1 := mulEpu32 x1 y1
  let mask := 0xFFFFFFFF#64
  let temp := x1y0 + x0y0_hi
  let temp_lo := temp &&& mask
  let temp_hi := srli temp 32
  let temp_lo := srli (temp_lo + x0y1) 32
  let temp_hi := x1y1 + temp_hi
  temp_lo + temp_hi

/-- okvs_utility.hpp:152-176 one lane of `divide_u64_do_vec256` (all intrinsics used are lane-wise). -/
def divideLane (numer : BitVec 64) (dv : Divider) : BitVec 64 :=
  if dv.magic = 0#64 then srli numer dv.more.toNat
  else
    let q := mullhiLane numer dv.magic
    if dv.more &&& 0x40#8 ≠ 0#8 then
      srli (srli (numer - q) 1 + q) (dv.more &&& 0x3F#8).toNat
    else srli q dv.more.toNat

/-- A 256-bit register seen as four 64-bit lanes. -/
structure V256 where
  a : BitVec 64
  b : BitVec 64
  c : BitVec 64
  d : BitVec 64

/-- okvs_utility.hpp:152-176 `divide_u64_do_vec256`. -/
def divideVec (v : V256) (dv : Divider) : V256 :=
  ⟨divideLane v.a dv, divideLane v.b dv, divideLane v.c dv, divideLane v.d dv⟩

/-- okvs_utility.hpp:401-463 `doMod32`, `n` groups of four (the code has eight): load four values, divide them in one
register, subtract quotient times `modVal`. Reading past the end of the array is undefined. The registers are all loaded
before the first store; the groups do not overlap, so the group-by-group order of the model is equivalent. -/
def doModGroups : Nat → List (BitVec 64) → Divider → BitVec 64 → Option (List (BitVec 64))
  | 0, vals, _, _ => some vals
  | n + 1, x0 :: x1 :: x2 :: x3 :: rest, dv, modVal =>
    let t := divideVec ⟨x0, x1, x2, x3⟩ dv
    match doModGroups n rest dv modVal with
    | none => none
    | some r => some ((x0 - t.a * modVal) :: (x1 - t.b * modVal) :: (x2 - t.c * modVal) :: (x3 - t.d * modVal) :: r)
  | _ + 1, _, _, _ => none

/-- okvs_utility.hpp:401-463 `doMod32`. -/
def doMod32 (vals : List (BitVec 64)) (dv : Divider) (modVal : BitVec 64) : Option (List (BitVec 64)) :=
  doModGroups 8 vals dv modVal

/-! ### Lemmas -/

theorem toNat_mullhi (x y : BitVec 64) : (mullhi x y).toNat = x.toNat * y.toNat / 2 ^ 64 := by
  unfold mullhi
  have hx := x.isLt
  have hy := y.isLt
  have h : x.toNat * y.toNat < 2 ^ 128 := by
    calc x.toNat * y.toNat < 2 ^ 64 * 2 ^ 64 := Nat.mul_lt_mul'' hx hy
      _ = 2 ^ 128 := by norm_num
  simp only [BitVec.toNat_setWidth, BitVec.toNat_ushiftRight, BitVec.toNat_mul, Nat.shiftRight_eq_div_pow]
  rw [Nat.mod_eq_of_lt (show x.toNat < 2 ^ 128 by omega), Nat.mod_eq_of_lt (show y.toNat < 2 ^ 128 by omega),
    Nat.mod_eq_of_lt h, Nat.mod_eq_of_lt]
  omega

theorem toNat_mulEpu32 (x y : BitVec 64) :
    (mulEpu32 x y).toNat = (x.toNat % 2 ^ 32) * (y.toNat % 2 ^ 32) := by
  unfold mulEpu32
  simp only [BitVec.toNat_mul, BitVec.toNat_setWidth]
  have h1 : x.toNat % 2 ^ 32 < 2 ^ 32 := Nat.mod_lt _ (by norm_num)
  have h2 : y.toNat % 2 ^ 32 < 2 ^ 32 := Nat.mod_lt _ (by norm_num)
  have := Nat.mul_lt_mul'' h1 h2
  rw [Nat.mod_eq_of_lt (show x.toNat % 2 ^ 32 < 2 ^ 64 by omega), Nat.mod_eq_of_lt (show y.toNat % 2 ^ 32 < 2 ^ 64 by omega),
    Nat.mod_eq_of_lt]
  omega

theorem toNat_shufHi (x : BitVec 64) : (shufHi x).toNat % 2 ^ 32 = x.toNat / 2 ^ 32 := by
  unfold shufHi
  rw [BitVec.toNat_append]
  have hx := x.isLt
  simp only [BitVec.extractLsb'_toNat, Nat.shiftRight_eq_div_pow]
  rw [← Nat.shiftLeft_add_eq_or_of_lt (Nat.mod_lt _ (by norm_num)), Nat.shiftLeft_eq]
  omega

/-- Schoolbook high product, the arithmetic core. -/
theorem schoolbook (x0 x1 y0 y1 : Nat) (B : Nat) (hB : 0 < B) (h0 : x0 < B) (g0 : y0 < B) :
    ((x1 * B + x0) * (y1 * B + y0)) / (B * B) =
      ((x1 * y0 + x0 * y0 / B) % B + x0 * y1) / B + (x1 * y1 + (x1 * y0 + x0 * y0 / B) / B) := by
  have e : (x1 * B + x0) * (y1 * B + y0) = x0 * y0 + B * (x1 * y0 + x0 * y1 + B * (x1 * y1)) := by ring
  rw [e, ← Nat.div_div_eq_div_mul, Nat.add_mul_div_left _ _ hB]
  have e2 : x0 * y0 / B + (x1 * y0 + x0 * y1 + B * (x1 * y1)) =
      ((x1 * y0 + x0 * y0 / B) + x0 * y1) + B * (x1 * y1) := by ring
  rw [e2, Nat.add_mul_div_left _ _ hB]
  generalize x1 * y0 + x0 * y0 / B = t
  have e3 : t + x0 * y1 = (t % B + x0 * y1) + B * (t / B) := by
    have := Nat.mod_add_div t B
    omega
  rw [e3, Nat.add_mul_div_left _ _ hB]
  ring

theorem mullhiLane_eq (x y : BitVec 64) : mullhiLane x y = mullhi y x := by
  apply BitVec.eq_of_toNat_eq
  rw [toNat_mullhi, Nat.mul_comm]
  have hx := x.isLt
  have hy := y.isLt
  unfold mullhiLane srli
  have hm : ∀ v : BitVec 64, (v &&& 0xFFFFFFFF#64).toNat = v.toNat % 2 ^ 32 := by
    intro v
    rw [BitVec.toNat_and]
    exact Nat.and_two_pow_sub_one_eq_mod v.toNat 32
  simp only [BitVec.toNat_add, BitVec.toNat_ushiftRight, hm, toNat_mulEpu32, toNat_shufHi, Nat.shiftRight_eq_div_pow]
  generalize hx0 : x.toNat % 2 ^ 32 = x0
  generalize hx1 : x.toNat / 2 ^ 32 = x1
  generalize hy0 : y.toNat % 2 ^ 32 = y0
  generalize hy1 : y.toNat / 2 ^ 32 = y1
  have b0 : x0 < 2 ^ 32 := by omega
  have b1 : x1 < 2 ^ 32 := by omega
  have b2 : y0 < 2 ^ 32 := by omega
  have b3 : y1 < 2 ^ 32 := by omega
  have ex : x.toNat = x1 * 2 ^ 32 + x0 := by omega
  have ey : y.toNat = y1 * 2 ^ 32 + y0 := by omega
  have S := schoolbook x0 x1 y0 y1 (2 ^ 32) (by norm_num) b0 b2
  have hlt : x.toNat * y.toNat / (2 ^ 32 * 2 ^ 32) < 2 ^ 64 := by
    have := Nat.mul_lt_mul'' hx hy
    omega
  rw [ex, ey] at *
  have p : (2 : Nat) ^ 64 = 2 ^ 32 * 2 ^ 32 := by norm_num
  have m1 : x1 * y0 ≤ (2 ^ 32 - 1) * (2 ^ 32 - 1) := Nat.mul_le_mul (by omega) (by omega)
  have m2 : x0 * y0 ≤ (2 ^ 32 - 1) * (2 ^ 32 - 1) := Nat.mul_le_mul (by omega) (by omega)
  have m3 : x0 * y1 ≤ (2 ^ 32 - 1) * (2 ^ 32 - 1) := Nat.mul_le_mul (by omega) (by omega)
  have m4 : x1 * y1 ≤ (2 ^ 32 - 1) * (2 ^ 32 - 1) := Nat.mul_le_mul (by omega) (by omega)
  rw [p] at hlt ⊢
  rw [S] at hlt ⊢
  generalize x1 * y0 = a at *
  generalize x0 * y0 = b at *
  generalize x0 * y1 = c at *
  generalize x1 * y1 = d at *
  clear S ex ey hx hy hx0 hx1 hy0 hy1
  omega

/-- The vector division agrees with the scalar one whenever the scalar shift counts are defined. -/
theorem divideLane_eq (n : BitVec 64) (dv : Divider) (q : BitVec 64) (h : divideU64 n dv = some q) :
    divideLane n dv = q := by
  unfold divideU64 at h
  unfold divideLane
  simp only [mullhiLane_eq, srli]
  unfold shr at h
  split
  · rename_i hm
    rw [if_pos hm] at h
    split at h <;> simp_all
  · rename_i hm
    rw [if_neg hm] at h
    simp only at h
    split at h
    · rename_i h4
      rw [if_pos h4]
      split at h <;> simp_all
    · rename_i h4
      rw [if_neg h4]
      split at h <;> simp_all

/-- Round-up multiplication divides exactly: the arithmetic core (any `k`). -/
theorem roundUp (n d m e k : Nat) (hd : 0 < d) (hm : m * d = 2 ^ k + e) (he : e * n < 2 ^ k) :
    n * m / 2 ^ k = n / d := by
  have hp : 0 < 2 ^ k := Nat.two_pow_pos k
  have hq := Nat.div_add_mod n d
  have hr := Nat.mod_lt n hd
  generalize n / d = q at *
  generalize n % d = r at *
  generalize 2 ^ k = P at *
  have key : n * m * d = n * P + e * n := by
    calc n * m * d = n * (m * d) := by ring
      _ = _ := by rw [hm]; ring
  apply Nat.div_eq_of_lt_le
  · -- q * P ≤ n * m
    apply Nat.le_of_mul_le_mul_right _ hd
    rw [key]
    calc q * P * d = (d * q) * P := by ring
      _ ≤ n * P := Nat.mul_le_mul_right _ (by omega)
      _ ≤ _ := Nat.le_add_right _ _
  · apply Nat.lt_of_mul_lt_mul_right (a := d)
    rw [key]
    calc n * P + e * n < n * P + P := by omega
      _ = (n + 1) * P := by ring
      _ ≤ (d * q + d) * P := Nat.mul_le_mul_right _ (by omega)
      _ = (q + 1) * P * d := by ring

theorem log2_bounds (d : Nat) (h : d ≠ 0) : 2 ^ Nat.log2 d ≤ d ∧ d < 2 ^ (Nat.log2 d + 1) :=
  ⟨Nat.log2_self_le h, Nat.lt_log2_self⟩

/-- The power-of-two test. -/
theorem and_pred (d : Nat) (h : d ≠ 0) : d &&& (d - 1) = 0 ↔ d = 2 ^ Nat.log2 d := by
  constructor
  · intro hz
    by_contra hne
    have ⟨h1, h2⟩ := log2_bounds d h
    have h3 : 2 ^ Nat.log2 d ≤ d - 1 := by omega
    have t1 : d.testBit (Nat.log2 d) = true := by
      rw [Nat.testBit_eq_decide_div_mod_eq]
      have : d / 2 ^ Nat.log2 d = 1 := by
        apply Nat.div_eq_of_lt_le <;> rw [Nat.pow_succ] at * <;> omega
      simp [this]
    have t2 : (d - 1).testBit (Nat.log2 d) = true := by
      rw [Nat.testBit_eq_decide_div_mod_eq]
      have : (d - 1) / 2 ^ Nat.log2 d = 1 := by
        apply Nat.div_eq_of_lt_le <;> rw [Nat.pow_succ] at * <;> omega
      simp [this]
    have : (d &&& (d - 1)).testBit (Nat.log2 d) = true := by simp [Nat.testBit_and, t1, t2]
    rw [hz] at this
    simp at this
  · intro he
    rw [he, Nat.and_two_pow_sub_one_eq_mod]
    simp

end Kunlun.FastDiv
