import Verif.Model.BaxosSizes
import Verif.Model.Baxos
/-!
Model of the size formulas in the constructors of `OKVS` (paxos.hpp:584-624 `calculate_sparse_size`) and `Baxos` (baxos.hpp:53-94). The
`double` computations are taken as exact real numbers.
-/

namespace Kunlun.OKVS
open Kunlun Kunlun.Baxos

/-- paxos.hpp:600-606, baxos.hpp:75-81 `ee`. -/
noncomputable def sizeEE (w : Nat) : ℝ := if w = 3 then 1.223 else if w = 4 then 1.293 else 0.1485 * w + 0.6845

/-- The part of `logLambdaVsE` (paxos.hpp:609) that depends on `logW`. -/
noncomputable def sizePoly (x : ℝ) : ℝ := 0.093 * x ^ 3 - 1.01 * x ^ 2 + 2.925 * x - 0.133

/-- paxos.hpp:608-610 `lambdaVsE`. -/
noncomputable def sizeLambda (w n : Nat) : ℝ := (2 : ℝ) ^ (0.555 * Real.logb 2 n + sizePoly (Real.logb 2 w))

/-- paxos.hpp:612-613 `e`. -/
noncomputable def sizeE (w ssp n : Nat) : ℝ := (ssp - (-9.2 - sizeLambda w n * sizeEE w)) / sizeLambda w n

/-- paxos.hpp:597, 615, baxos.hpp:70, 89 `sparse_size` for weight `w ≥ 2`; the conversion to an integer cuts off. -/
noncomputable def sparseSize (w ssp n : Nat) : Nat := if w = 2 then 2 * n else ⌊(n : ℝ) * sizeE w ssp n⌋₊

/-- paxos.hpp:593-596, 614 `g_limit` before the conversion to an unsigned type, which is undefined for negative numbers. -/
noncomputable def gLimit (w ssp n : Nat) : ℤ :=
  if w = 2 then ⌈(ssp : ℝ) / (7.529 / (Real.logb 2 n - 2.556) + 0.61) + 1.9⌉
  else ⌊(ssp : ℝ) / ((w - 2) * Real.logb 2 (sizeE w ssp n * n))⌋

/-- baxos.hpp:49-94, the constructor of `Baxos<gf_128>` with weight 3: number of bins, items per bin, sparse size, `g_limit`. -/
noncomputable def baxosSizes (ssp items bin : Nat) : Option (Nat × Nat × Nat × ℤ) :=
  let B := (items + bin - 1) / bin
  (binSize B items).map fun n => (B, n, sparseSize 3 ssp n, gLimit 3 ssp n)

/-- vole_oprf.hpp:75-82 `Setup`: the bin size. -/
def voleBinSize (k : Nat) : Nat := if 2 ^ k / 2 ^ 7 > 2 ^ 15 then 2 ^ k / 2 ^ 7 else 2 ^ 15

/-! ### Bounds -/

theorem sizeLambda_pos (w n : Nat) : 0 < sizeLambda w n := Real.rpow_pos_of_pos (by norm_num) _

theorem sizeE_eq (w ssp n : Nat) : sizeE w ssp n = sizeEE w + (ssp + 9.2) / sizeLambda w n := by
  have := (sizeLambda_pos w n).ne'
  unfold sizeE
  field_simp
  ring

theorem one_le_sizeEE {w : Nat} (h : 3 ≤ w) : 1.223 ≤ sizeEE w := by
  unfold sizeEE
  split
  · norm_num
  split
  · norm_num
  · have : (5 : ℝ) ≤ w := by exact_mod_cast (by omega : 5 ≤ w)
    linarith

/-- A power of two with a fraction as exponent, bounded by a comparison of natural numbers. -/
theorem rpow_le_of {p q a b : Nat} (hq : 0 < q) (hb : 0 < b) (h : 2 ^ p * b ^ q ≤ a ^ q) : (2 : ℝ) ^ ((p : ℝ) / q) ≤ (a : ℝ) / b := by
  have hb' : (0 : ℝ) < b := by exact_mod_cast hb
  have hq' : (q : ℝ) ≠ 0 := by exact_mod_cast hq.ne'
  have h' : (2 : ℝ) ^ p * (b : ℝ) ^ q ≤ (a : ℝ) ^ q := by exact_mod_cast h
  have : ((2 : ℝ) ^ ((p : ℝ) / q)) ^ q ≤ ((a : ℝ) / b) ^ q := by
    rw [← Real.rpow_natCast, ← Real.rpow_mul (by norm_num), div_mul_cancel₀ _ hq', Real.rpow_natCast, div_pow, le_div_iff₀ (by positivity)]
    exact h'
  exact (pow_le_pow_iff_left₀ (by positivity) (by positivity) hq.ne').1 this

theorem le_rpow_of {p q a b : Nat} (hq : 0 < q) (hb : 0 < b) (h : a ^ q ≤ 2 ^ p * b ^ q) : (a : ℝ) / b ≤ (2 : ℝ) ^ ((p : ℝ) / q) := by
  have hb' : (0 : ℝ) < b := by exact_mod_cast hb
  have hq' : (q : ℝ) ≠ 0 := by exact_mod_cast hq.ne'
  have h' : (a : ℝ) ^ q ≤ (2 : ℝ) ^ p * (b : ℝ) ^ q := by exact_mod_cast h
  have : ((a : ℝ) / b) ^ q ≤ ((2 : ℝ) ^ ((p : ℝ) / q)) ^ q := by
    rw [← Real.rpow_natCast (_ ^ _), ← Real.rpow_mul (by norm_num), div_mul_cancel₀ _ hq', Real.rpow_natCast, div_pow, div_le_iff₀ (by positivity)]
    exact h'
  exact (pow_le_pow_iff_left₀ (by positivity) (by positivity) hq.ne').1 this

/-- `log2(3)` to five digits. -/
theorem logb_three : (1054 : ℝ) / 665 ≤ Real.logb 2 3 ∧ Real.logb 2 3 ≤ 485 / 306 := by
  constructor
  · rw [Real.le_logb_iff_rpow_le (by norm_num) (by norm_num)]
    have := rpow_le_of (p := 1054) (q := 665) (a := 3) (b := 1) (by norm_num) (by norm_num) (by decide +kernel)
    norm_num at this ⊢
    exact this
  · rw [Real.logb_le_iff_le_rpow (by norm_num) (by norm_num)]
    have := le_rpow_of (p := 485) (q := 306) (a := 3) (b := 1) (by norm_num) (by norm_num) (by decide +kernel)
    norm_num at this ⊢
    exact this

theorem sizePoly_three : 2.33606 ≤ sizePoly (Real.logb 2 (3 : Nat)) ∧ sizePoly (Real.logb 2 (3 : Nat)) ≤ 2.33609 := by
  obtain ⟨h1, h2⟩ := logb_three
  rw [show ((3 : Nat) : ℝ) = 3 by norm_num]
  generalize Real.logb 2 3 = x at h1 h2 ⊢
  obtain ⟨d, rfl⟩ : ∃ d, x = 1054 / 665 + d := ⟨x - 1054 / 665, by ring⟩
  have d0 : 0 ≤ d := by linarith
  have d1 : d ≤ 0.00001 := by norm_num at h2 ⊢; linarith
  have d2 : d ^ 2 ≤ 0.00001 * d := by nlinarith
  have d3 : 0 ≤ d ^ 3 := by positivity
  have d4 : d ^ 3 ≤ 0.00001 * d := by nlinarith
  have d5 : 0 ≤ d ^ 2 := by positivity
  unfold sizePoly
  constructor <;> ring_nf <;> nlinarith

end Kunlun.OKVS
