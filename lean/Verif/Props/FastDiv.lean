import Verif.Model.FastDiv
import Mathlib.Data.Nat.Prime.Pow
/-!
C19: the precomputed division is exact for every divisor and every numerator.
-/

namespace Kunlun.FastDiv

/-- What `gen_divider` establishes for a divisor with `L = ⌊log₂ d⌋`. -/
inductive Good (d : Nat) (L : Nat) (dv : Divider) : Prop where
  | pow (hd : d = 2 ^ L) (hm : dv.magic = 0#64) (hs : dv.more.toNat = L)
  | short (e : Nat) (hm : dv.magic.toNat * d = 2 ^ (64 + L) + e) (he : e < 2 ^ L) (h0 : dv.magic ≠ 0#64)
      (hs : dv.more = BitVec.ofNat 8 L)
  | long (e : Nat) (hm : (dv.magic.toNat + 2 ^ 64) * d = 2 ^ (65 + L) + e) (he : e < 2 ^ (L + 1))
      (h0 : dv.magic ≠ 0#64) (hs : dv.more = BitVec.ofNat 8 L ||| 0x40#8)

theorem genDivider_good (d : BitVec 64) (h : d ≠ 0#64) :
    ∃ dv, genDivider d = .ok dv ∧ Nat.log2 d.toNat < 64 ∧ Good d.toNat (Nat.log2 d.toNat) dv := by
  have hn : d.toNat ≠ 0 := by
    intro e; apply h; apply BitVec.eq_of_toNat_eq; simpa using e
  have ⟨hlo, hhi⟩ := log2_bounds d.toNat hn
  have hd := d.isLt
  have hL : Nat.log2 d.toNat < 64 := (Nat.log2_lt hn).2 hd
  unfold genDivider
  rw [if_neg h]
  simp only [clz64, if_neg h]
  have hfl : 63 - (63 - Nat.log2 d.toNat) = Nat.log2 d.toNat := by omega
  rw [hfl]
  have hpred : (d &&& (d - 1#64) = 0#64) ↔ d.toNat = 2 ^ Nat.log2 d.toNat := by
    rw [← and_pred _ hn]
    have : (d - 1#64).toNat = d.toNat - 1 := by
      rw [BitVec.toNat_sub_of_le]
      · rfl
      · simp only [BitVec.le_def, BitVec.toNat_ofNat]; omega
    rw [← this, ← BitVec.toNat_and]
    constructor
    · intro e; rw [e]; rfl
    · intro e; apply BitVec.eq_of_toNat_eq; simpa using e
  generalize Nat.log2 d.toNat = L at *
  have hoL : (BitVec.ofNat 8 L).toNat = L := by
    rw [BitVec.toNat_ofNat]; omega
  by_cases hp : d &&& (d - 1#64) = 0#64
  · rw [if_pos hp]
    exact ⟨_, rfl, hL, .pow (hpred.1 hp) rfl hoL⟩
  · rw [if_neg hp]
    have hne : d.toNat ≠ 2 ^ L := fun e => hp (hpred.2 e)
    have hlt : 2 ^ L < d.toNat := by omega
    have hsh : (1#64 <<< L).toNat = 2 ^ L := by
      rw [BitVec.toNat_shiftLeft, Nat.shiftLeft_eq]
      simp only [BitVec.toNat_ofNat]
      have : 2 ^ L < 2 ^ 64 := by omega
      norm_num
      omega
    have hdq : divq (1#64 <<< L) 0#64 d =
        some (BitVec.ofNat 64 (2 ^ (64 + L) / d.toNat), BitVec.ofNat 64 (2 ^ (64 + L) % d.toNat)) := by
      unfold divq
      rw [hsh, if_pos hlt]
      have : 2 ^ L * 2 ^ 64 + (0#64).toNat = 2 ^ (64 + L) := by
        rw [Nat.pow_add]; simp [Nat.mul_comm]
      rw [this]
    rw [hdq]
    simp only []
    -- facts over Nat
    have hdpos : 0 < d.toNat := by omega
    have hdm := Nat.div_add_mod (2 ^ (64 + L)) d.toNat
    have hrlt := Nat.mod_lt (2 ^ (64 + L)) hdpos
    have hrpos : 2 ^ (64 + L) % d.toNat ≠ 0 := by
      intro hz
      have hdvd : d.toNat ∣ 2 ^ (64 + L) := Nat.dvd_of_mod_eq_zero hz
      obtain ⟨j, _, hj⟩ := (Nat.dvd_prime_pow Nat.prime_two).1 hdvd
      rw [hj] at hlo hhi hne
      have h1 : L ≤ j := (Nat.pow_le_pow_iff_right (by norm_num)).1 hlo
      have h2 : j < L + 1 := (Nat.pow_lt_pow_iff_right (by norm_num)).1 hhi
      exact hne (by congr 1; omega)
    have hp64 : 2 ^ (64 + L) = 2 ^ 64 * 2 ^ L := Nat.pow_add ..
    have hp65 : 2 ^ (65 + L) = 2 * (2 ^ 64 * 2 ^ L) := by rw [Nat.pow_add]; ring
    have hpL : 2 ^ (L + 1) = 2 * 2 ^ L := by ring
    have hPL : 2 ^ L ≤ 2 ^ 63 := Nat.pow_le_pow_right (by norm_num) (by omega)
    rw [hp64] at hdm hrlt hrpos ⊢
    generalize hm0 : 2 ^ 64 * 2 ^ L / d.toNat = m0 at *
    generalize hr : 2 ^ 64 * 2 ^ L % d.toNat = r at *
    generalize hP : 2 ^ L = P at *
    -- bound on the quotient: (m0 + 1) < 2^64
    have hm0lt : m0 + 1 < 2 ^ 64 := by
      by_contra hc
      have hc : 2 ^ 64 - 1 ≤ m0 := by omega
      have h1 : (P + 1) * (2 ^ 64 - 1) ≤ d.toNat * m0 := Nat.mul_le_mul (by omega) hc
      have h2 : (P + 1) * (2 ^ 64 - 1) = 2 ^ 64 * P + (2 ^ 64 - 1 - P) := by
        have : P ≤ 2 ^ 64 - 1 := by omega
        zify [this, show 1 ≤ 2 ^ 64 by norm_num]
        ring
      omega
    have hrn : (BitVec.ofNat 64 r).toNat = r := by rw [BitVec.toNat_ofNat]; omega
    have hmn : (BitVec.ofNat 64 m0).toNat = m0 := by rw [BitVec.toNat_ofNat]; omega
    have hassert : 0#64 < BitVec.ofNat 64 r ∧ BitVec.ofNat 64 r < d := by
      constructor
      · simp only [BitVec.lt_def, hrn]
        simp only [BitVec.toNat_ofNat]
        omega
      · simp only [BitVec.lt_def, hrn]; omega
    rw [if_neg (not_not.2 hassert)]
    have he : (d - BitVec.ofNat 64 r).toNat = d.toNat - r := by
      rw [BitVec.toNat_sub_of_le, hrn]
      simp only [BitVec.le_def, hrn]; omega
    by_cases hc : d - BitVec.ofNat 64 r < 1#64 <<< L
    · rw [if_pos hc]
      rw [BitVec.lt_def, he, hsh] at hc
      have hmag : (1#64 + BitVec.ofNat 64 m0).toNat = m0 + 1 := by
        rw [BitVec.toNat_add, hmn]
        simp only [BitVec.toNat_ofNat]
        omega
      refine ⟨_, rfl, hL, .short (d.toNat - r) ?_ ?_ ?_ rfl⟩
      · simp only []
        rw [hmag, hp64]
        have : (m0 + 1) * d.toNat = d.toNat * m0 + d.toNat := by ring
        omega
      · rw [hP]; exact hc
      · intro h0
        have := congrArg BitVec.toNat h0
        simp only [hmag] at this
        simp at this
    · rw [if_neg hc]
      rw [BitVec.lt_def, he, hsh] at hc
      -- the doubled quotient, before truncation to 64 bits
      have htw : (d ≤ BitVec.ofNat 64 r + BitVec.ofNat 64 r ∨
          BitVec.ofNat 64 r + BitVec.ofNat 64 r < BitVec.ofNat 64 r) ↔ d.toNat ≤ 2 * r := by
        simp only [BitVec.le_def, BitVec.lt_def, BitVec.toNat_add, hrn]
        omega
      refine ⟨_, rfl, hL, .long (if d.toNat ≤ 2 * r then 2 * d.toNat - 2 * r else d.toNat - 2 * r) ?_ ?_ ?_ rfl⟩
      · rw [hp65]
        have hge : 2 ^ 64 ≤ 2 * m0 := by
          by_contra hcc
          have h1 : d.toNat * m0 ≤ d.toNat * (2 ^ 63 - 1) := Nat.mul_le_mul_left _ (by omega)
          have h2 : d.toNat * (2 ^ 63 - 1) ≤ (2 * P) * (2 ^ 63 - 1) := Nat.mul_le_mul_right _ (by omega)
          omega
        have hmag : (1#64 + (if d ≤ BitVec.ofNat 64 r + BitVec.ofNat 64 r ∨
              BitVec.ofNat 64 r + BitVec.ofNat 64 r < BitVec.ofNat 64 r
            then BitVec.ofNat 64 m0 + BitVec.ofNat 64 m0 + 1#64
            else BitVec.ofNat 64 m0 + BitVec.ofNat 64 m0)).toNat + 2 ^ 64
            = 2 * m0 + 1 + (if d.toNat ≤ 2 * r then 1 else 0) := by
          simp only [htw]
          split
          · simp only [BitVec.toNat_add, hmn, BitVec.toNat_ofNat]; omega
          · simp only [BitVec.toNat_add, hmn, BitVec.toNat_ofNat]; omega
        simp only []
        rw [hmag]
        split
        · have : (2 * m0 + 1 + 1) * d.toNat = 2 * (d.toNat * m0) + 2 * d.toNat := by ring
          omega
        · have : (2 * m0 + 1 + 0) * d.toNat = 2 * (d.toNat * m0) + d.toNat := by ring
          omega
      · rw [hpL]
        split <;> omega
      · intro h0
        have := congrArg BitVec.toNat h0
        have hge : 2 ^ 64 ≤ 2 * m0 := by
          by_contra hcc
          have h1 : d.toNat * m0 ≤ d.toNat * (2 ^ 63 - 1) := Nat.mul_le_mul_left _ (by omega)
          have h2 : d.toNat * (2 ^ 63 - 1) ≤ (2 * P) * (2 ^ 63 - 1) := Nat.mul_le_mul_right _ (by omega)
          omega
        simp only [htw] at this
        split at this
        · simp only [BitVec.toNat_add, hmn, BitVec.toNat_ofNat] at this; omega
        · simp only [BitVec.toNat_add, hmn, BitVec.toNat_ofNat] at this; omega

/-- A good divider divides exactly. -/
theorem good_divides (n : BitVec 64) (d L : Nat) (dv : Divider) (hL : L < 64) (hd : 0 < d) (g : Good d L dv) :
    ∃ q, divideU64 n dv = some q ∧ q.toNat = n.toNat / d := by
  have hn := n.isLt
  unfold divideU64
  cases g with
  | pow hd hm hs =>
    rw [if_pos hm, hs]
    refine ⟨n >>> L, by simp [shr, hL], ?_⟩
    rw [BitVec.toNat_ushiftRight, Nat.shiftRight_eq_div_pow, hd]
  | short e hm he h0 hs =>
    rw [if_neg h0]
    have hb : dv.more &&& 0x40#8 = 0#8 := by
      rw [hs]
      have : ∀ l < 64, BitVec.ofNat 8 l &&& 0x40#8 = 0#8 := by decide
      exact this L hL
    have ht : dv.more.toNat = L := by rw [hs, BitVec.toNat_ofNat]; omega
    simp only [hb, ne_eq, not_true_eq_false, if_false, ht]
    refine ⟨_, by rw [shr, if_pos hL], ?_⟩
    rw [BitVec.toNat_ushiftRight, Nat.shiftRight_eq_div_pow, toNat_mullhi, Nat.div_div_eq_div_mul, ← Nat.pow_add,
      Nat.mul_comm]
    refine roundUp n.toNat d _ e (64 + L) hd hm ?_
    rw [Nat.pow_add, Nat.mul_comm]
    exact Nat.mul_lt_mul'' hn he
  | long e hm he h0 hs =>
    rw [if_neg h0]
    have hb : dv.more &&& 0x40#8 ≠ 0#8 := by
      rw [hs]
      have : ∀ l < 64, (BitVec.ofNat 8 l ||| 0x40#8) &&& 0x40#8 ≠ 0#8 := by decide
      exact this L hL
    have ht : (dv.more &&& 0x3F#8).toNat = L := by
      rw [hs]
      have : ∀ l < 64, ((BitVec.ofNat 8 l ||| 0x40#8) &&& 0x3F#8).toNat = l := by decide
      exact this L hL
    simp only [hb, ne_eq, not_false_eq_true, if_true, ht]
    refine ⟨_, by rw [shr, if_pos hL], ?_⟩
    have hmg := dv.magic.isLt
    have hq : (mullhi dv.magic n).toNat = dv.magic.toNat * n.toNat / 2 ^ 64 := toNat_mullhi _ _
    have hqn : (mullhi dv.magic n).toNat ≤ n.toNat := by
      rw [hq]
      have : dv.magic.toNat * n.toNat ≤ 2 ^ 64 * n.toNat := Nat.mul_le_mul_right _ (by omega)
      omega
    have hsum : n.toNat + (mullhi dv.magic n).toNat = n.toNat * (dv.magic.toNat + 2 ^ 64) / 2 ^ 64 := by
      rw [hq, Nat.mul_add, Nat.add_mul_div_right _ _ (by norm_num), Nat.mul_comm, Nat.add_comm]
    have hR := roundUp n.toNat d _ e (65 + L) hd hm (by
      rw [show 65 + L = 64 + (L + 1) by omega, Nat.pow_add, Nat.mul_comm]
      exact Nat.mul_lt_mul'' hn he)
    rw [BitVec.toNat_ushiftRight, Nat.shiftRight_eq_div_pow, BitVec.toNat_add, BitVec.toNat_ushiftRight,
      Nat.shiftRight_eq_div_pow, BitVec.toNat_sub_of_le (by rw [BitVec.le_def]; exact hqn)]
    have e1 : ((n.toNat - (mullhi dv.magic n).toNat) / 2 ^ 1 + (mullhi dv.magic n).toNat) % 2 ^ 64 =
        (n.toNat + (mullhi dv.magic n).toNat) / 2 := by omega
    rw [e1, hsum, Nat.div_div_eq_div_mul, Nat.div_div_eq_div_mul, ← hR]
    congr 1
    rw [Nat.pow_add]
    ring

/-- C19, main statement: for every divisor `d ≠ 0`, `gen_divider` returns a divider (no exception, no processor fault, no
failed assertion), and with it `divide_u64_do` computes `n / d` for every 64-bit `n` without undefined shifts. -/
theorem fast_division_exact (d : BitVec 64) (hd : d ≠ 0#64) :
    ∃ dv, genDivider d = .ok dv ∧ ∀ n : BitVec 64, divideU64 n dv = some (n / d) := by
  obtain ⟨dv, h, hL, g⟩ := genDivider_good d hd
  refine ⟨dv, h, fun n => ?_⟩
  have hp : 0 < d.toNat := by
    rcases Nat.eq_zero_or_pos d.toNat with h0 | h0
    · exact absurd (BitVec.eq_of_toNat_eq (by simpa using h0)) hd
    · exact h0
  obtain ⟨q, hq, hv⟩ := good_divides n d.toNat _ dv hL hp g
  rw [hq]
  congr 1
  apply BitVec.eq_of_toNat_eq
  rw [hv, BitVec.toNat_udiv]

/-- C19: `d = 0` is rejected with an exception, and only then. -/
theorem fast_division_zero_rejected (d : BitVec 64) : genDivider d = .thrown ↔ d = 0#64 := by
  constructor
  · intro h
    by_contra hd
    obtain ⟨dv, h', _⟩ := fast_division_exact d hd
    rw [h'] at h
    cases h
  · rintro rfl
    simp [genDivider]

/-- C19: each of the four lanes of the AVX2 variant computes the same quotient as the scalar routine. -/
theorem fast_division_lanes (d : BitVec 64) (hd : d ≠ 0#64) (dv : Divider) (h : genDivider d = .ok dv) (v : V256) :
    (divideVec v dv).a = v.a / d ∧ (divideVec v dv).b = v.b / d ∧
    (divideVec v dv).c = v.c / d ∧ (divideVec v dv).d = v.d / d := by
  obtain ⟨dv', h', hq⟩ := fast_division_exact d hd
  rw [h] at h'
  cases h'
  exact ⟨divideLane_eq _ _ _ (hq _), divideLane_eq _ _ _ (hq _), divideLane_eq _ _ _ (hq _), divideLane_eq _ _ _ (hq _)⟩

theorem sub_div_mul (n d : BitVec 64) : n - n / d * d = n % d := by
  apply BitVec.eq_of_toNat_eq
  have h1 : (n / d * d).toNat = n.toNat / d.toNat * d.toNat := by
    rw [BitVec.toNat_mul, BitVec.toNat_udiv, Nat.mod_eq_of_lt]
    have := Nat.div_mul_le_self n.toNat d.toNat
    have := n.isLt
    omega
  rw [BitVec.toNat_sub_of_le, h1, BitVec.toNat_umod]
  · have := Nat.div_add_mod n.toNat d.toNat
    rw [Nat.mul_comm] at this
    omega
  · rw [BitVec.le_def, h1]
    exact Nat.div_mul_le_self _ _

theorem doModGroups_spec (d : BitVec 64) (dv : Divider) (hq : ∀ n, divideLane n dv = n / d) :
    ∀ (k : Nat) (vals : List (BitVec 64)), 4 * k ≤ vals.length →
      doModGroups k vals dv d = some ((vals.take (4 * k)).map (· % d) ++ vals.drop (4 * k))
  | 0, vals, _ => by simp [doModGroups]
  | k + 1, x0 :: x1 :: x2 :: x3 :: rest, h => by
    have hr : 4 * k ≤ rest.length := by simp at h; omega
    have ih := doModGroups_spec d dv hq k rest hr
    rw [doModGroups, ih]
    simp only [divideVec, hq, sub_div_mul, show 4 * (k + 1) = 4 * k + 1 + 1 + 1 + 1 by ring]
    simp
  | k + 1, [], h => by simp at h
  | k + 1, [_], h => by simp at h; omega
  | k + 1, [_, _], h => by simp at h; omega
  | k + 1, [_, _, _], h => by simp at h; omega

/-- C19: `doMod32` with the divider generated for `d` replaces each of the first 32 values by its remainder modulo `d`
and leaves the rest of the array alone. -/
theorem doMod32_exact (d : BitVec 64) (hd : d ≠ 0#64) (dv : Divider) (h : genDivider d = .ok dv)
    (vals : List (BitVec 64)) (hlen : 32 ≤ vals.length) :
    doMod32 vals dv d = some ((vals.take 32).map (· % d) ++ vals.drop 32) := by
  obtain ⟨dv', h', hq⟩ := fast_division_exact d hd
  rw [h] at h'
  cases h'
  exact doModGroups_spec d dv (fun n => divideLane_eq _ _ _ (hq n)) 8 vals hlen

/-- Hypotheses are met by a divisor that needs the 65-bit magic number (7), one that does not (10) and a power of two. -/
example : (7#64 ≠ 0#64) ∧ genDivider 7#64 = .ok ⟨0x2492492492492493#64, 0x42#8⟩ ∧
    genDivider 10#64 = .ok ⟨0xCCCCCCCCCCCCCCCD#64, 3#8⟩ ∧ genDivider 8#64 = .ok ⟨0#64, 3#8⟩ := by decide +kernel

example : divideU64 0xFFFFFFFFFFFFFFFF#64 ⟨0x2492492492492493#64, 0x42#8⟩ = some (0xFFFFFFFFFFFFFFFF#64 / 7#64) := by
  decide +kernel

end Kunlun.FastDiv
