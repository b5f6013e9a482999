import Verif.Model.OkvsSizes
import Verif.Props.Baxos
import Verif.Props.RrPkeMore
/-!
C105: the sizes the OKVS constructors compute.
-/

namespace Kunlun.OKVS
open Kunlun Kunlun.Baxos Kunlun.FastDiv

/-! ### Bounds -/

theorem sizeE_gt (w ssp n : Nat) : sizeEE w < sizeE w ssp n := by
  rw [sizeE_eq]
  have := sizeLambda_pos w n
  have : (0 : ℝ) < (ssp + 9.2) / sizeLambda w n := by positivity
  linarith

/-- **C105** Every computed size has room: at least as many sparse columns as items, and at least a fifth more up to rounding, for every weight and
security parameter. -/
theorem okvs_size_room (w ssp n : Nat) (hw : 2 ≤ w) : n ≤ sparseSize w ssp n ∧ 6 * n ≤ 5 * (sparseSize w ssp n + 1) := by
  unfold sparseSize
  split
  · omega
  · have h1 := one_le_sizeEE (show 3 ≤ w by omega)
    have h2 := sizeE_gt w ssp n
    have h3 : (0 : ℝ) ≤ n := by positivity
    refine ⟨Nat.le_floor (by nlinarith), ?_⟩
    have h4 : (6 : ℝ) * n ≤ 5 * ((⌊(n : ℝ) * sizeE w ssp n⌋₊ : ℝ) + 1) := by
      have := Nat.lt_floor_add_one ((n : ℝ) * sizeE w ssp n)
      nlinarith
    exact_mod_cast h4

/-- For weight 3 the size is 1.223 times the number of items, and a rest. -/
theorem size3_bounds {ssp n : Nat} (h0 : 1 ≤ n) (hs : ssp ≤ 40) (hn : n ≤ 52000) :
    (1.223 : ℝ) * n < n * sizeE 3 ssp n ∧ n * sizeE 3 ssp n ≤ 1.223 * n + 1575 := by
  have hn0 : (1 : ℝ) ≤ n := by exact_mod_cast h0
  have hE : sizeEE 3 = 1.223 := by unfold sizeEE; rw [if_pos rfl]
  have h1 := sizeE_gt 3 ssp n
  rw [hE] at h1
  refine ⟨by nlinarith, ?_⟩
  have hl : Real.logb 2 n ≤ 15.7 := by
    rw [Real.logb_le_iff_le_rpow (by norm_num) (by linarith)]
    have h2 : (n : ℝ) ≤ 52000 := by exact_mod_cast hn
    have := le_rpow_of (p := 157) (q := 10) (a := 52000) (b := 1) (by norm_num) (by norm_num) (by decide +kernel)
    norm_num at this ⊢
    linarith
  obtain ⟨p1, -⟩ := sizePoly_three
  have hL := sizeLambda_pos 3 n
  have hdiv : (n : ℝ) / sizeLambda 3 n ≤ 32 := by
    have hn2 : (n : ℝ) = (2 : ℝ) ^ Real.logb 2 n := (Real.rpow_logb (by norm_num) (by norm_num) (by linarith)).symm
    have : (n : ℝ) / sizeLambda 3 n = (2 : ℝ) ^ (Real.logb 2 n - (0.555 * Real.logb 2 n + sizePoly (Real.logb 2 (3 : Nat)))) := by
      rw [Real.rpow_sub (by norm_num), ← hn2]
      rfl
    rw [this]
    refine (Real.rpow_le_rpow_of_exponent_le (by norm_num) (show _ ≤ (5 : ℝ) by linarith)).trans ?_
    norm_num
  have hs' : (ssp : ℝ) ≤ 40 := by exact_mod_cast hs
  rw [sizeE_eq, hE]
  have : (n : ℝ) * (1.223 + (ssp + 9.2) / sizeLambda 3 n) = 1.223 * n + (ssp + 9.2) * (n / sizeLambda 3 n) := by ring
  rw [this]
  have h0' : (0 : ℝ) ≤ n / sizeLambda 3 n := by positivity
  have hsp : (0 : ℝ) ≤ ssp := by positivity
  nlinarith

/-- At least three columns, however few items there are. -/
theorem size3_ge {ssp n : Nat} (h0 : 1 ≤ n) (hs : 10 ≤ ssp) : 3 ≤ sparseSize 3 ssp n := by
  by_cases h3 : 3 ≤ n
  · exact h3.trans (okvs_size_room 3 ssp n (by norm_num)).1
  · unfold sparseSize
    rw [if_neg (by norm_num)]
    refine Nat.le_floor ?_
    have hn0 : (1 : ℝ) ≤ n := by exact_mod_cast h0
    have hl : Real.logb 2 n ≤ 1 := by
      rw [Real.logb_le_iff_le_rpow (by norm_num) (by linarith)]
      have : n ≤ 2 := by omega
      norm_num
      exact this
    obtain ⟨-, p2⟩ := sizePoly_three
    have hL := sizeLambda_pos 3 n
    have hle : sizeLambda 3 n ≤ 8 := by
      unfold sizeLambda
      refine (Real.rpow_le_rpow_of_exponent_le (by norm_num) (show _ ≤ (3 : ℝ) by linarith)).trans ?_
      norm_num
    have hs' : (10 : ℝ) ≤ ssp := by exact_mod_cast hs
    have h1 : (19.2 : ℝ) / 8 ≤ (ssp + 9.2) / sizeLambda 3 n := by
      rw [div_le_div_iff₀ (by norm_num) hL]
      nlinarith
    rw [sizeE_eq]
    have hE : sizeEE 3 = 1.223 := by unfold sizeEE; rw [if_pos rfl]
    rw [hE]
    norm_num at h1 ⊢
    nlinarith

/-- **C105** For weight 3 and a security parameter from 10 to 40 the index type that is chosen can hold the computed size, and the rows are
computed without overflow (the hypothesis `Fits` of C55 to C57), for 1 to 25000 items per bin and from 54000 items on. Missing are the sizes
in between. -/
theorem okvs_size_fits_partial {ssp n : Nat} (h0 : 1 ≤ n) (hs : 10 ≤ ssp) (hs' : ssp ≤ 40) (hn : n ≤ 25000 ∨ 54000 ≤ n ∧ n ≤ 2 ^ 32) :
    Fits (idxFor (sparseSize 3 ssp n)) 3 (sparseSize 3 ssp n) := by
  have h3 := size3_ge h0 hs
  have key : sparseSize 3 ssp n ≤ 2 ^ 15 ∨ 2 ^ 16 ≤ sparseSize 3 ssp n ∧ sparseSize 3 ssp n < 2 ^ 64 := by
    rcases hn with hn | ⟨hn, hn'⟩
    · left
      obtain ⟨-, b⟩ := size3_bounds h0 hs' (by omega)
      unfold sparseSize
      rw [if_neg (by norm_num)]
      have h2 : (n : ℝ) ≤ 25000 := by exact_mod_cast hn
      have hle : (n : ℝ) * sizeE 3 ssp n ≤ ((2 ^ 15 : Nat) : ℝ) := by norm_num; linarith
      exact Nat.floor_le_of_le hle
    · right
      have hE : sizeEE 3 = 1.223 := by unfold sizeEE; rw [if_pos rfl]
      have hn0 : (54000 : ℝ) ≤ n := by exact_mod_cast hn
      have h1 := sizeE_gt 3 ssp n
      rw [hE] at h1
      unfold sparseSize
      rw [if_neg (by norm_num)]
      constructor
      · refine Nat.le_floor ?_
        norm_num
        nlinarith
      · have hL : 1 ≤ sizeLambda 3 n := by
          unfold sizeLambda
          refine Real.one_le_rpow (by norm_num) ?_
          have : 0 ≤ Real.logb 2 n := Real.logb_nonneg (by norm_num) (by linarith)
          have := sizePoly_three.1
          linarith
        have hss : (ssp : ℝ) ≤ 40 := by exact_mod_cast hs'
        have hd : (ssp + 9.2) / sizeLambda 3 n ≤ 49.2 := by
          rw [div_le_iff₀ (by linarith)]
          nlinarith
        have hn2 : (n : ℝ) ≤ 2 ^ 32 := by exact_mod_cast hn'
        rw [sizeE_eq, hE]
        rw [Nat.floor_lt (by positivity)]
        push_cast
        have h3 : (n : ℝ) * (1.223 + (ssp + 9.2) / sizeLambda 3 n) ≤ 2 ^ 32 * 51 := by
          refine mul_le_mul hn2 (by linarith) ?_ (by norm_num)
          have : (0 : ℝ) ≤ (ssp + 9.2) / sizeLambda 3 n := by positivity
          linarith
        refine lt_of_le_of_lt h3 (by norm_num)
  have hlt : sparseSize 3 ssp n < 2 ^ 64 := by rcases key with h | h <;> omega
  generalize sparseSize 3 ssp n = s at *
  refine ⟨h3, ?_, fun ht _ => ?_⟩
  · unfold idxFor
    split_ifs <;> simp only [Idx.bits] <;> omega
  · unfold idxFor at ht
    split_ifs at ht
    rcases key with h | h
    · exact h
    · omega

example : Fits (idxFor (sparseSize 3 40 16384)) 3 (sparseSize 3 40 16384) :=
  okvs_size_fits_partial (by norm_num) (by norm_num) (by norm_num) (by norm_num)

/-- The chosen type is the 16-bit one, with more than 2^15 columns. -/
theorem size3_u16 {ssp n : Nat} (hs : ssp ≤ 40) (h1 : 27000 ≤ n) (h2 : n ≤ 52000) :
    2 ^ 15 < sparseSize 3 ssp n ∧ sparseSize 3 ssp n < 2 ^ 16 ∧ idxFor (sparseSize 3 ssp n) = .u16 := by
  obtain ⟨b1, b2⟩ := size3_bounds (by omega : 1 ≤ n) hs h2
  have e1 : (27000 : ℝ) ≤ n := by exact_mod_cast h1
  have e2 : (n : ℝ) ≤ 52000 := by exact_mod_cast h2
  have hs1 : 33000 ≤ sparseSize 3 ssp n := by
    unfold sparseSize
    rw [if_neg (by norm_num)]
    refine Nat.le_floor ?_
    norm_num
    linarith
  have hs2 : sparseSize 3 ssp n ≤ 65200 := by
    unfold sparseSize
    rw [if_neg (by norm_num)]
    have hle : (n : ℝ) * sizeE 3 ssp n ≤ ((65200 : Nat) : ℝ) := by norm_num; linarith
    exact Nat.floor_le_of_le hle
  refine ⟨by omega, by omega, ?_⟩
  unfold idxFor
  rw [if_neg (by omega), if_pos (by omega)]

/-- **C105, the violation** With 27000 to 52000 items per bin the constructors choose a size and an index type for which `set_sparse_1`
overflows a signed product for some hash values. -/
theorem okvs_size_overflow {ssp n : Nat} (hs : ssp ≤ 40) (h1 : 27000 ≤ n) (h2 : n ≤ 52000) :
    ∃ dvs d, mkDividers 3 (sparseSize 3 ssp n) = some dvs ∧ sparse1 (idxFor (sparseSize 3 ssp n)) 3 (sparseSize 3 ssp n) dvs d = none := by
  obtain ⟨a, b, c⟩ := size3_u16 hs h1 h2
  rw [c]
  exact okvs_row_u16_overflow _ a b

/-! ### The set-up of the VOLE OPRF -/

/-- `hashtable_bin_size` where both arguments are powers of two: a table entry. -/
theorem binSize_pow {i j : Nat} (hi : 1 ≤ i) (hij : i ≤ j) (hi' : i < sizes.length) (hj' : j < (sizes.getD i []).length) (hj : j < 64) :
    binSize (2 ^ i) (2 ^ j) = some ⌈(2 : ℝ) ^ sizeAt i j⌉₊ := by
  have l2 : ∀ k, 1 ≤ k → k < 64 → 2 ≤ 2 ^ k ∧ 2 ^ k < 2 ^ 64 := by
    intro k h1 h2
    exact ⟨by simpa using Nat.pow_le_pow_right (show 0 < 2 by norm_num) h1, Nat.pow_lt_pow_right (by norm_num) h2⟩
  have lg : ∀ k, Nat.log2 (2 ^ k) = k := fun k => Nat.log2_two_pow
  have lg' : ∀ k, 1 ≤ k → Nat.log2 (2 ^ k - 1) = k - 1 := by
    intro k hk
    obtain ⟨k, rfl⟩ := Nat.exists_eq_add_of_le' hk
    have := Nat.two_pow_pos k
    rw [pow_succ, Nat.add_sub_cancel]
    exact (Nat.log2_eq_iff (by omega)).2 ⟨by omega, by rw [pow_succ]; omega⟩
  obtain ⟨i1, i2⟩ := l2 i hi (by omega)
  obtain ⟨j1, j2⟩ := l2 j (by omega) hj
  have hb : ∀ k : Nat, Real.logb 2 ((2 ^ k : Nat) : ℝ) = k := by
    intro k
    push_cast
    rw [← Real.rpow_natCast]
    exact Real.logb_rpow (by norm_num) (by norm_num)
  unfold binSize
  rw [if_neg (by omega), clz64_ofNat _ (by omega) (by omega), clz64_ofNat _ (by omega) (by omega), clz64_ofNat _ (by omega) (by omega),
    clz64_ofNat _ (by omega) (by omega), lg, lg, lg' i hi, lg' j (by omega)]
  simp only [hb]
  have e1 : 64 - (63 - i) - 1 = i := by omega
  have e2 : 64 - (63 - (i - 1)) = i := by omega
  have e3 : 64 - (63 - j) - 1 = j := by omega
  have e4 : 64 - (63 - (j - 1)) = j := by omega
  rw [e1, e2, e3, e4, if_pos ⟨hi', hj'⟩]
  simp

/-- The bins of the default set-ups have 2^15 to 35000 places. -/
theorem vole_bins {k : Nat} (h1 : 15 ≤ k) (h2 : k ≤ 22) :
    ∃ n, binSize ((2 ^ k + voleBinSize k - 1) / voleBinSize k) (2 ^ k) = some n ∧ 32768 ≤ n ∧ n ≤ 35000 := by
  have hv : voleBinSize k = 2 ^ 15 := by
    have : 2 ^ k / 2 ^ 7 ≤ 2 ^ 15 := by
      rw [Nat.pow_div (by omega) (by norm_num)]
      exact Nat.pow_le_pow_right (by norm_num) (by omega)
    unfold voleBinSize
    rw [if_neg (by omega)]
  have hB : (2 ^ k + 2 ^ 15 - 1) / 2 ^ 15 = 2 ^ (k - 15) := by
    obtain ⟨j, rfl⟩ := Nat.exists_eq_add_of_le h1
    rw [Nat.add_sub_cancel_left, pow_add, Nat.add_sub_assoc (by norm_num), Nat.mul_add_div (by norm_num)]
    norm_num
  rw [hv, hB]
  by_cases hk : k = 15
  · subst hk
    refine ⟨2 ^ 15, ?_, by norm_num, by norm_num⟩
    unfold binSize
    rw [if_pos (by norm_num)]
  have main : ∀ x : Nat, (sizes.getD (k - 15) []).getD k 0 = x → 15000000000 ≤ x → x ≤ 15090000000 →
      32768 ≤ ⌈(2 : ℝ) ^ sizeAt (k - 15) k⌉₊ ∧ ⌈(2 : ℝ) ^ sizeAt (k - 15) k⌉₊ ≤ 35000 := by
    intro x hx hx1 hx2
    have hx1' : (15000000000 : ℝ) ≤ x := by exact_mod_cast hx1
    have hx2' : (x : ℝ) ≤ 15090000000 := by exact_mod_cast hx2
    have s1 : 15 ≤ sizeAt (k - 15) k := by
      unfold sizeAt; rw [hx]; rw [le_div_iff₀ (by norm_num)]; linarith
    have s2 : sizeAt (k - 15) k ≤ 15.09 := by
      unfold sizeAt; rw [hx]; rw [div_le_iff₀ (by norm_num)]; linarith
    constructor
    · have : (32768 : ℝ) ≤ (2 : ℝ) ^ sizeAt (k - 15) k := by
        refine le_trans ?_ (Real.rpow_le_rpow_of_exponent_le (by norm_num) s1)
        norm_num
      have := this.trans (Nat.le_ceil _)
      exact_mod_cast this
    · refine Nat.ceil_le.2 ((Real.rpow_le_rpow_of_exponent_le (by norm_num) s2).trans ?_)
      have := rpow_le_of (p := 1509) (q := 100) (a := 35000) (b := 1) (by norm_num) (by norm_num) (by decide +kernel)
      norm_num at this ⊢
      exact this
  refine ⟨_, binSize_pow (by omega) (by omega) ?_ ?_ (by omega), ?_⟩
  · have : 8 ≤ sizes.length := by decide +kernel
    omega
  · have : ∀ i < 8, (sizes.getD i []).length = 31 := by decide +kernel
    have := this (k - 15) (by omega)
    omega
  · have : ∀ i < 8, 1 ≤ i → 15000000000 ≤ (sizes.getD i []).getD (i + 15) 0 ∧ (sizes.getD i []).getD (i + 15) 0 ≤ 15090000000 := by decide +kernel
    have := this (k - 15) (by omega) (by omega)
    rw [Nat.sub_add_cancel h1] at this
    exact main _ rfl this.1 this.2

/-- **C105, the violation** The VOLE OPRF is set up this way for every number of items from 2^15 to 2^22 (default security parameter):
16-bit indices for more than 2^15 columns. -/
theorem vole_oprf_setup_overflow {k : Nat} (h1 : 15 ≤ k) (h2 : k ≤ 22) :
    ∃ B n s g, baxosSizes 40 (2 ^ k) (voleBinSize k) = some (B, n, s, g) ∧ idxFor s = .u16 ∧ 2 ^ 15 < s ∧
      ∃ dvs d, mkDividers 3 s = some dvs ∧ sparse1 (idxFor s) 3 s dvs d = none := by
  obtain ⟨n, hb, n1, n2⟩ := vole_bins h1 h2
  obtain ⟨a, -, c⟩ := size3_u16 (ssp := 40) (n := n) (by norm_num) (by omega) (by omega)
  refine ⟨(2 ^ k + voleBinSize k - 1) / voleBinSize k, n, sparseSize 3 40 n, gLimit 3 40 n, ?_, c, a,
    okvs_size_overflow (by norm_num) (by omega) (by omega)⟩
  unfold baxosSizes
  simp only [hb]
  rfl

/-- 2^15 items: 41070 sparse columns. -/
theorem size_2_15 : sparseSize 3 40 (2 ^ 15) = 41070 := by
  have hlog : Real.logb 2 ((2 ^ 15 : Nat) : ℝ) = 15 := by
    rw [show ((2 ^ 15 : Nat) : ℝ) = (2 : ℝ) ^ (15 : ℝ) by norm_num]
    exact Real.logb_rpow (by norm_num) (by norm_num)
  obtain ⟨p1, p2⟩ := sizePoly_three
  have l1 : (16191 : ℝ) / 10 ≤ sizeLambda 3 (2 ^ 15) := by
    refine (le_rpow_of (p := 10661) (q := 1000) (a := 16191) (b := 10) (by norm_num) (by norm_num) (by decide +kernel)).trans ?_
    unfold sizeLambda
    refine Real.rpow_le_rpow_of_exponent_le (by norm_num) ?_
    rw [hlog]
    norm_num at p1 ⊢
    linarith
  have l2 : sizeLambda 3 (2 ^ 15) ≤ 16194 / 10 := by
    refine le_trans ?_ (rpow_le_of (p := 26653) (q := 2500) (a := 16194) (b := 10) (by norm_num) (by norm_num) (by decide +kernel))
    unfold sizeLambda
    refine Real.rpow_le_rpow_of_exponent_le (by norm_num) ?_
    rw [hlog]
    norm_num at p2 ⊢
    linarith
  have hL := sizeLambda_pos 3 (2 ^ 15)
  have hE : sizeEE 3 = 1.223 := by unfold sizeEE; rw [if_pos rfl]
  unfold sparseSize
  rw [if_neg (by norm_num), sizeE_eq, hE]
  generalize sizeLambda 3 (2 ^ 15) = L at *
  have d1 : (0.030381 : ℝ) ≤ 49.2 / L := by rw [le_div_iff₀ hL]; norm_num at l2 ⊢; linarith
  have d2 : 49.2 / L ≤ 0.0303873 := by rw [div_le_iff₀ hL]; norm_num at l1 ⊢; linarith
  rw [Nat.floor_eq_iff (by positivity)]
  have : ((40 : Nat) : ℝ) + 9.2 = 49.2 := by norm_num
  rw [this]
  generalize 49.2 / L = D at d1 d2 ⊢
  constructor
  · norm_num at d1 ⊢; linarith
  · norm_num at d2 ⊢; linarith

/-- The hash value of the key 6 under the seed every `Baxos` object has. -/
def hash6 : Block := AES.enc (PRG.setSeed RrPke.fixedSeed 0).key 6#128 ^^^ 6#128

theorem hash6_overflow : ∀ d, divideU64 (win hash6 0) d = some (win hash6 0 / BitVec.ofNat 64 41070) → modIdx .u16 (win hash6 0) d 41070 = none := by
  intro d hd
  unfold modIdx
  rw [hd]
  have h : hash6 = FastAES.enc (PRG.setSeed RrPke.fixedSeed 0).key 6#128 ^^^ 6#128 := by rw [FastAES.enc_eq]; rfl
  have : Idx.u16.mul ((win hash6 0 / BitVec.ofNat 64 41070).toNat % 2 ^ Idx.u16.bits) 41070 = none := by
    rw [h]
    decide +kernel
  simp only [this]

/-- **C105, the violation** In the VOLE OPRF for 2^15 items, decoding the key 6 (alone, or among a number of keys that is no multiple of 32,
after the last full group) is undefined. -/
theorem vole_oprf_2_15_key :
    ∃ n g, baxosSizes 40 (2 ^ 15) (voleBinSize 15) = some (1, n, 41070, g) ∧ ∀ dvs, mkDividers 3 41070 = some dvs →
      ∀ (c : Cfg), c.t = idxFor 41070 → c.w = 3 → c.s = 41070 → ∀ {V : Type} (o : ValOps V) (out : Nat → V), decode1 o c dvs out hash6 = none := by
  refine ⟨2 ^ 15, gLimit 3 40 (2 ^ 15), ?_, ?_⟩
  · unfold baxosSizes
    have hv : voleBinSize 15 = 2 ^ 15 := by decide
    have hB : (2 ^ 15 + 2 ^ 15 - 1) / 2 ^ 15 = 1 := by norm_num
    simp only [hv, hB]
    unfold binSize
    rw [if_pos (by norm_num), Option.map_some, size_2_15]
  · intro dvs h c ct cw cs V o out
    obtain ⟨hl, hg⟩ := dividers_get 3 41070 (by norm_num) dvs h
    match dvs, hl, hg with
    | [d0, d1, d2], _, hg =>
      have e := hg 0 (by simp)
      obtain ⟨dv, h', hq⟩ := fast_division_exact (BitVec.ofNat 64 41070) (ofNat_ne_zero _ (by norm_num) (by norm_num))
      simp only [List.getElem_cons_zero, Nat.sub_zero] at e
      rw [e] at h'
      cases h'
      have hi : idxFor 41070 = .u16 := by decide
      unfold decode1 sparse1
      rw [ct, cw, cs, hi, if_pos rfl]
      simp only [hash6_overflow d0 (hq _), Option.bind_none]

/-! ### Weight 2 -/

/-- **C105, the violation** With weight 2 and one to four items `g_limit` is computed as a negative number, whose conversion to an unsigned type is
undefined. -/
theorem okvs_weight_2_small {n : Nat} (h1 : 1 ≤ n) (h2 : n ≤ 4) : gLimit 2 40 n < 0 := by
  have hn : (1 : ℝ) ≤ n := by exact_mod_cast h1
  have l0 : 0 ≤ Real.logb 2 n := Real.logb_nonneg (by norm_num) hn
  have l2 : Real.logb 2 n ≤ 2 := by
    rw [Real.logb_le_iff_le_rpow (by norm_num) (by linarith)]
    have : (n : ℝ) ≤ 4 := by exact_mod_cast h2
    norm_num
    exact h2
  unfold gLimit
  rw [if_pos rfl]
  have a1 : 7.529 / (Real.logb 2 n - 2.556) + 0.61 < 0 := by
    have : 7.529 / (Real.logb 2 n - 2.556) ≤ -2 := by
      rw [div_le_iff_of_neg (by linarith)]
      linarith
    norm_num at this ⊢
    linarith
  have a2 : -13 ≤ 7.529 / (Real.logb 2 n - 2.556) + 0.61 := by
    have : -13.6 ≤ 7.529 / (Real.logb 2 n - 2.556) := by
      rw [le_div_iff_of_neg (by linarith)]
      norm_num at l2 ⊢
      linarith
    norm_num at this ⊢
    linarith
  have a3 : ((40 : Nat) : ℝ) / (7.529 / (Real.logb 2 n - 2.556) + 0.61) ≤ -3 := by
    rw [div_le_iff_of_neg a1]
    norm_num at a2 ⊢
    linarith
  refine lt_of_le_of_lt (Int.ceil_le.2 (show _ ≤ (((-1 : ℤ)) : ℝ) from ?_)) (by norm_num)
  norm_num at a3 ⊢
  linarith

/-! ### The sizes of C81 -/

/-- **C105** The sizes used by the witness of C81 are those the constructor computes for 256 items in bins of two, and for the slot of one of
eight threads. -/
theorem rrpke_sizes : baxosSizes 40 256 2 = some (128, RrPke.sizes8.perBin, RrPke.sizes8.s, (RrPke.sizes8.gLim : ℤ)) ∧
    binSize 128 32 = some RrPke.sizes8.cap := by
  have big : (20 : ℝ) < (2 : ℝ) ^ (4.321928095 : ℝ) := by
    have h := le_rpow_of (p := 423026) (q := 97879) (a := 20) (b := 1) (by norm_num) (by norm_num) (by decide +kernel)
    have h' : (2 : ℝ) ^ ((423026 : ℝ) / 97879) < (2 : ℝ) ^ (4.321928095 : ℝ) := Real.rpow_lt_rpow_of_exponent_lt (by norm_num) (by norm_num)
    refine lt_of_le_of_lt ?_ h'
    norm_num at h ⊢
    exact h
  have small : (2 : ℝ) ^ (4.321928095 : ℝ) ≤ 21 := by
    refine (Real.rpow_le_rpow_of_exponent_le (by norm_num) (show (4.321928095 : ℝ) ≤ ((433 : Nat) : ℝ) / ((100 : Nat) : ℝ) by norm_num)).trans ?_
    have h := rpow_le_of (p := 433) (q := 100) (a := 21) (b := 1) (by norm_num) (by norm_num) (by decide +kernel)
    norm_num at h ⊢
    exact h
  have half : (2 : ℝ) ^ (3.321928095 : ℝ) = (2 : ℝ) ^ (4.321928095 : ℝ) / 2 := by
    rw [show (3.321928095 : ℝ) = 4.321928095 - 1 by norm_num, Real.rpow_sub (by norm_num), Real.rpow_one]
  have e78 : binSize 128 256 = some 21 := by
    have := binSize_pow (i := 7) (j := 8) (by norm_num) (by norm_num) (by decide +kernel) (by decide +kernel) (by norm_num)
    norm_num at this
    rw [this]
    congr 1
    have hs : sizeAt 7 8 = 4.321928095 := by
      have : (sizes.getD 7 []).getD 8 0 = 4321928095 := by decide +kernel
      unfold sizeAt; rw [this]; norm_num
    rw [hs, Nat.ceil_eq_iff (by norm_num)]
    norm_num at big small ⊢
    exact ⟨big, small⟩
  have e75 : binSize 128 32 = some 11 := by
    have h75 : binSize 128 32 = some ⌈(2 : ℝ) ^ sizeAt 7 5⌉₊ := by
      have e1 : Nat.log2 32 = 5 := by decide
      have e2 : Nat.log2 (32 - 1) = 4 := by decide
      have e3 : Nat.log2 128 = 7 := by decide
      have e4 : Nat.log2 (128 - 1) = 6 := by decide
      have b1 : Real.logb 2 ((128 : Nat) : ℝ) = 7 := by
        rw [show ((128 : Nat) : ℝ) = (2 : ℝ) ^ (7 : ℝ) by norm_num]
        exact Real.logb_rpow (by norm_num) (by norm_num)
      have b2 : Real.logb 2 ((32 : Nat) : ℝ) = 5 := by
        rw [show ((32 : Nat) : ℝ) = (2 : ℝ) ^ (5 : ℝ) by norm_num]
        exact Real.logb_rpow (by norm_num) (by norm_num)
      unfold binSize
      rw [if_neg (by omega), clz64_ofNat 128 (by omega) (by omega), clz64_ofNat (128 - 1) (by omega) (by omega),
        clz64_ofNat 32 (by omega) (by omega), clz64_ofNat (32 - 1) (by omega) (by omega), e1, e2, e3, e4]
      simp only
      rw [if_pos (by decide), b1, b2]
      norm_num
    rw [h75]
    congr 1
    have hs : sizeAt 7 5 = 3.321928095 := by
      have : (sizes.getD 7 []).getD 5 0 = 3321928095 := by decide +kernel
      unfold sizeAt; rw [this]; norm_num
    rw [hs, half, Nat.ceil_eq_iff (by norm_num)]
    norm_num at big small ⊢
    constructor <;> linarith
  refine ⟨?_, e75⟩
  unfold baxosSizes
  simp only [show (256 + 2 - 1) / 2 = 128 from rfl]
  rw [e78, Option.map_some]
  have g1 : (35 : ℝ) / 8 ≤ Real.logb 2 ((21 : Nat) : ℝ) := by
    rw [Real.le_logb_iff_rpow_le (by norm_num) (by norm_num)]
    have h := rpow_le_of (p := 35) (q := 8) (a := 21) (b := 1) (by norm_num) (by norm_num) (by decide +kernel)
    norm_num at h ⊢
    exact h
  have g2 : Real.logb 2 ((21 : Nat) : ℝ) ≤ 22 / 5 := by
    rw [Real.logb_le_iff_le_rpow (by norm_num) (by norm_num)]
    have h := le_rpow_of (p := 22) (q := 5) (a := 21) (b := 1) (by norm_num) (by norm_num) (by decide +kernel)
    norm_num at h ⊢
    exact h
  obtain ⟨p1, p2⟩ := sizePoly_three
  have l1 : (27 : ℝ) ≤ sizeLambda 3 21 := by
    have h := le_rpow_of (p := 476) (q := 100) (a := 27) (b := 1) (by norm_num) (by norm_num) (by decide +kernel)
    have h' : (2 : ℝ) ^ (((476 : Nat) : ℝ) / ((100 : Nat) : ℝ)) ≤ sizeLambda 3 21 := by
      unfold sizeLambda
      refine Real.rpow_le_rpow_of_exponent_le (by norm_num) ?_
      norm_num at p1 g1 ⊢
      linarith
    norm_num at h h' ⊢
    linarith
  have l2 : sizeLambda 3 21 ≤ 27.5 := by
    have h := rpow_le_of (p := 478) (q := 100) (a := 55) (b := 2) (by norm_num) (by norm_num) (by decide +kernel)
    have h' : sizeLambda 3 21 ≤ (2 : ℝ) ^ (((478 : Nat) : ℝ) / ((100 : Nat) : ℝ)) := by
      unfold sizeLambda
      refine Real.rpow_le_rpow_of_exponent_le (by norm_num) ?_
      norm_num at p2 g2 ⊢
      linarith
    norm_num at h h' ⊢
    linarith
  have hE : sizeEE 3 = 1.223 := by unfold sizeEE; rw [if_pos rfl]
  have hL := sizeLambda_pos 3 21
  have he : sizeE 3 40 21 = 1.223 + 49.2 / sizeLambda 3 21 := by
    rw [sizeE_eq, hE]; norm_num
  have d1 : (1.789 : ℝ) ≤ 49.2 / sizeLambda 3 21 := by rw [le_div_iff₀ hL]; norm_num at l2 ⊢; linarith
  have d2 : 49.2 / sizeLambda 3 21 ≤ 1.823 := by rw [div_le_iff₀ hL]; norm_num at l1 ⊢; linarith
  have n1 : (63 : ℝ) ≤ 21 * sizeE 3 40 21 := by rw [he]; norm_num at d1 ⊢; linarith
  have n2 : 21 * sizeE 3 40 21 < 64 := by rw [he]; norm_num at d2 ⊢; linarith
  have hs : sparseSize 3 40 21 = 63 := by
    unfold sparseSize
    rw [if_neg (by norm_num), Nat.floor_eq_iff (by push_cast; linarith)]
    norm_num
    exact ⟨n1, n2⟩
  have hg : gLimit 3 40 21 = 6 := by
    unfold gLimit
    rw [if_neg (by norm_num), Int.floor_eq_iff]
    have q1 : (5.8 : ℝ) ≤ Real.logb 2 (sizeE 3 40 21 * (21 : Nat)) := by
      rw [Real.le_logb_iff_rpow_le (by norm_num) (by push_cast; linarith)]
      have h := rpow_le_of (p := 58) (q := 10) (a := 63) (b := 1) (by norm_num) (by norm_num) (by decide +kernel)
      norm_num at h ⊢
      linarith
    have q2 : Real.logb 2 (sizeE 3 40 21 * (21 : Nat)) ≤ 6 := by
      rw [Real.logb_le_iff_le_rpow (by norm_num) (by push_cast; linarith)]
      norm_num
      linarith
    generalize Real.logb 2 (sizeE 3 40 21 * (21 : Nat)) = q at q1 q2 ⊢
    have hq : 0 < q := by norm_num at q1; linarith
    push_cast
    constructor
    · rw [le_div_iff₀ (by norm_num; exact hq)]
      norm_num
      linarith
    · rw [div_lt_iff₀ (by norm_num; exact hq)]
      norm_num at q1 ⊢
      linarith
  rw [hs, hg]
  rfl

end Kunlun.OKVS
