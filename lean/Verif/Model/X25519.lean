import Verif.Model.X25519Primes
import Verif.Model.Montgomery
import Verif.Base.Bytes
import Mathlib.FieldTheory.IsAlgClosed.AlgebraicClosure
import Mathlib.FieldTheory.Finite.Basic
/-!
`x25519_scalar_mulx` (declared in crypto/ec_25519.hpp:13-16, called in `EC25519Point::Mul`, ec_25519.hpp:83-87, and in
mpc/psi/cwprf_psi.hpp).  The function is part of OpenSSL, not of the repository: what is modelled is the function of RFC 7748 in the
order of steps of OpenSSL's `curve25519.c`, with field elements as numbers below `p`.
-/

namespace Kunlun.X25519

/-- `e[0] &= 0xf8; e[31] &= 0x7f; e[31] |= 0x40` on a copy of the scalar; shorter arrays are read out of bounds, here a zero. -/
def clamp (k : Bytes) : List UInt8 :=
  (List.range 32).map fun i => let b := k.getD i 0
    let b := if i = 0 then b &&& 0xf8 else b
    if i = 31 then (b &&& 0x7f) ||| 0x40 else b

/-- `1 & (e[pos / 8] >> (pos & 7))` -/
def bit (e : List UInt8) (pos : ℕ) : Bool := (e.getD (pos / 8) 0).toNat.testBit (pos % 8)

/-- `fe64_frombytes`: the highest bit is ignored; the value may be `p` or more, the arithmetic reduces it. -/
def fromBytes (b : Bytes) : ℕ := ofLE (b.take 32) % 2 ^ 255 % p

/-- Field operations on numbers below `p`. -/
def fadd (a b : ℕ) : ℕ := (a + b) % p
/-- Subtraction. -/
def fsub (a b : ℕ) : ℕ := (a + (p - b)) % p
/-- Multiplication. -/
def fmul (a b : ℕ) : ℕ := a * b % p

/-- The four field elements of the loop. -/
structure St where
  x2 : ℕ
  z2 : ℕ
  x3 : ℕ
  z3 : ℕ

/-- `fe64_cswap` of both coordinates. -/
def St.cswap (c : Bool) (s : St) : St := if c then ⟨s.x3, s.z3, s.x2, s.z2⟩ else s

/-- The body of the loop after the swap. -/
def St.step (x1 : ℕ) (s : St) : St :=
  let tmp0 := fsub s.x3 s.z3
  let tmp1 := fsub s.x2 s.z2
  let x2 := fadd s.x2 s.z2
  let z2 := fadd s.x3 s.z3
  let z3 := fmul x2 tmp0
  let z2 := fmul z2 tmp1
  let tmp0 := fmul tmp1 tmp1
  let tmp1 := fmul x2 x2
  let x3 := fadd z3 z2
  let z2 := fsub z3 z2
  let x2 := fmul tmp1 tmp0
  let tmp1 := fsub tmp1 tmp0
  let z2 := fmul z2 z2
  let z3 := fmul tmp1 121666
  let x3 := fmul x3 x3
  let tmp0 := fadd tmp0 z3
  let z3 := fmul x1 z2
  let z2 := fmul tmp1 tmp0
  ⟨x2, z2, x3, z3⟩

/-- The loop over the bits, highest first, with the pending swap. -/
def loop (x1 : ℕ) : List Bool → Bool → St → St
  | [], sw, s => s.cswap sw
  | b :: bs, sw, s => loop x1 bs b ((s.cswap (sw ^^ b)).step x1)

/-- The bits 254 to 0. -/
def bits (e : List UInt8) : List Bool := (List.range 255).map fun i => bit e (254 - i)

/-- The first coordinate computed by the loop, after `fe64_invert` and the last multiplication. -/
def ladder (bs : List Bool) (x1 : ℕ) : ℕ :=
  let s := loop x1 bs false ⟨1, 0, x1, 1⟩
  fmul s.x2 (P256.powMod p 256 s.z2 (p - 2))

/-- `x25519_scalar_mulx(out, scalar, point)`. -/
def mulx (scalar point : Bytes) : Bytes := leBytes 32 (ladder (bits (clamp scalar)) (fromBytes point))

/-! ### What the loop computes -/

open Mont

variable {K : Type*} [Field K] [CharP K p]

theorem p_val : p = 57896044618658097711785492504343953926634992332820282019728792003956564819949 := by unfold p; norm_num

theorem cast_mod (a : ℕ) : ((a % p : ℕ) : K) = a := (CharP.natCast_eq_natCast_mod K p a).symm

theorem cast_fadd (a b : ℕ) : ((fadd a b : ℕ) : K) = a + b := by rw [fadd, cast_mod]; push_cast; rfl

theorem cast_fsub (a b : ℕ) (hb : b < p) : ((fsub a b : ℕ) : K) = a - b := by
  rw [fsub, cast_mod]
  push_cast [Nat.cast_sub hb.le]
  rw [CharP.cast_eq_zero K p]
  ring

theorem cast_fmul (a b : ℕ) : ((fmul a b : ℕ) : K) = a * b := by rw [fmul, cast_mod]; push_cast; rfl

theorem fadd_lt (a b : ℕ) : fadd a b < p := Nat.mod_lt _ p_prime.pos
theorem fsub_lt (a b : ℕ) : fsub a b < p := Nat.mod_lt _ p_prime.pos
theorem fmul_lt (a b : ℕ) : fmul a b < p := Nat.mod_lt _ p_prime.pos

theorem cast_ne_zero (n : ℕ) (h0 : n ≠ 0) (h : n < p) : (n : K) ≠ 0 := by
  rw [Ne, CharP.cast_eq_zero_iff K p]
  exact fun hd => absurd (Nat.le_of_dvd (Nat.pos_of_ne_zero h0) hd) (by omega)

theorem cast_inj {x y : ℕ} (hx : x < p) (hy : y < p) (h : (x : K) = y) : x = y := by
  have := (CharP.natCast_eq_natCast K p).1 h
  unfold Nat.ModEq at this
  rwa [Nat.mod_eq_of_lt hx, Nat.mod_eq_of_lt hy] at this

variable (K) in
/-- The coefficient of the curve. -/
def A : K := 486662

theorem two_ne : (2 : K) ≠ 0 := by
  have := cast_ne_zero (K := K) 2 (by norm_num) (by rw [p_val]; norm_num)
  exact_mod_cast this

theorem A_sq : A K ^ 2 ≠ 4 := by
  intro h
  apply cast_ne_zero (K := K) (486662 ^ 2 - 4) (by norm_num) (by rw [p_val]; norm_num)
  have : ((486662 ^ 2 - 4 : ℕ) : K) = A K ^ 2 - 4 := by
    rw [Nat.cast_sub (by norm_num)]
    unfold A
    push_cast
    norm_num
  rw [this, h, sub_self]

/-- All four numbers are below `p`. -/
def St.Lt (s : St) : Prop := s.x2 < p ∧ s.z2 < p ∧ s.x3 < p ∧ s.z3 < p

theorem St.lt_cswap {s : St} (h : s.Lt) (c : Bool) : (s.cswap c).Lt := by
  unfold St.cswap
  split
  · exact ⟨h.2.2.1, h.2.2.2, h.1, h.2.1⟩
  · exact h

theorem St.lt_step (x1 : ℕ) (s : St) : (s.step x1).Lt := ⟨fmul_lt _ _, fmul_lt _ _, fmul_lt _ _, fmul_lt _ _⟩

theorem St.step_cast (x1 : ℕ) (s : St) (h : s.Lt) :
    ((s.step x1).x2 : K) = ((s.x2 : K) ^ 2 - (s.z2 : K) ^ 2) ^ 2 ∧
    ((s.step x1).z2 : K) = 4 * s.x2 * s.z2 * ((s.x2 : K) ^ 2 + A K * s.x2 * s.z2 + (s.z2 : K) ^ 2) ∧
    ((s.step x1).x3 : K) = 4 * ((s.x2 : K) * s.x3 - s.z2 * s.z3) ^ 2 ∧
    ((s.step x1).z3 : K) = 4 * x1 * ((s.x2 : K) * s.z3 - s.z2 * s.x3) ^ 2 := by
  obtain ⟨h1, h2, h3, h4⟩ := h
  unfold A
  refine ⟨?_, ?_, ?_, ?_⟩ <;>
  · simp only [St.step, cast_fmul, cast_fadd, cast_fsub _ _ h2, cast_fsub _ _ h4, cast_fsub _ _ (fmul_lt _ _)]
    push_cast
    ring

variable [DecidableEq K]

/-- The invariant of the loop. -/
def Inv (P : (E (A K)).Point) (m : ℕ) (s : St) : Prop :=
  s.Lt ∧ Rep (m • P) (s.x2 : K) s.z2 ∧ Rep ((m + 1) • P) (s.x3 : K) s.z3

theorem inv_step (P : (E (A K)).Point) (hP : P ≠ 0) (x1 : ℕ) (hx : xc P = x1) (h0 : (x1 : K) ≠ 0) (m : ℕ) (t : St) (b : Bool)
    (h : Inv P m t) : Inv P (2 * m + b.toNat) (((t.cswap b).step x1).cswap b) := by
  obtain ⟨hlt, hQ, hR⟩ := h
  refine ⟨St.lt_cswap (St.lt_step _ _) _, ?_⟩
  cases b with
  | false =>
    obtain ⟨e1, e2, e3, e4⟩ := St.step_cast (K := K) x1 t hlt
    simp only [St.cswap, Bool.false_eq_true, if_false, Bool.toNat_false, add_zero]
    rw [e1, e2, e3, e4]
    constructor
    · have := rep_dbl two_ne A_sq _ _ _ hQ
      rwa [← two_smul ℕ, smul_smul] at this
    · have hd : (m + 1) • P - m • P = P := by rw [add_smul, one_smul, add_sub_cancel_left]
      have := rep_add two_ne (m • P) ((m + 1) • P) (x1 : K) _ _ _ _ h0 (by rwa [hd]) (by rwa [hd]) hQ hR
      rwa [← add_smul, show m + (m + 1) = 2 * m + 1 by omega] at this
  | true =>
    obtain ⟨e1, e2, e3, e4⟩ := St.step_cast (K := K) x1 _ (St.lt_cswap hlt true)
    simp only [St.cswap, if_true, Bool.toNat_true] at e1 e2 e3 e4 ⊢
    rw [e1, e2, e3, e4]
    constructor
    · have hd : m • P - (m + 1) • P = -P := by rw [add_smul, one_smul]; abel
      have := rep_add two_ne ((m + 1) • P) (m • P) (x1 : K) _ _ _ _ h0 (by rw [hd]; exact neg_ne_zero.2 hP) (by rw [hd, xc_neg]; exact hx) hR hQ
      rwa [← add_smul, show m + 1 + m = 2 * m + 1 by omega] at this
    · have := rep_dbl two_ne A_sq _ _ _ hR
      rwa [← add_smul, show m + 1 + (m + 1) = 2 * m + 1 + 1 by omega] at this

theorem cswap_cswap (s : St) (a b : Bool) : (s.cswap a).cswap b = s.cswap (a ^^ b) := by
  cases a <;> cases b <;> rfl

/-- The number whose binary digits after those of `k` are the given ones. -/
def valFrom (k : ℕ) (bs : List Bool) : ℕ := bs.foldl (fun k b => 2 * k + b.toNat) k

theorem inv_loop (P : (E (A K)).Point) (hP : P ≠ 0) (x1 : ℕ) (hx : xc P = x1) (h0 : (x1 : K) ≠ 0) (bs : List Bool) (sw : Bool)
    (m : ℕ) (s : St) (h : Inv P m (s.cswap sw)) : Inv P (valFrom m bs) (loop x1 bs sw s) := by
  induction bs generalizing sw m s with
  | nil => exact h
  | cons b bs ih =>
    unfold loop
    apply ih
    rw [← cswap_cswap]
    exact inv_step P hP x1 hx h0 m _ b h

instance : Fact p.Prime := ⟨p_prime⟩

/-- The first coordinate zero is kept by the loop. -/
theorem loop_zero (bs : List Bool) (sw : Bool) (s : St) (hlt : s.Lt) (h : s.x2 * s.z2 = 0 ∧ s.x3 * s.z3 = 0) :
    (loop 0 bs sw s).x2 * (loop 0 bs sw s).z2 = 0 := by
  induction bs generalizing sw s with
  | nil => unfold loop St.cswap; split; exacts [h.2, h.1]
  | cons b bs ih =>
    unfold loop
    have hs : (s.cswap (sw ^^ b)).x2 * (s.cswap (sw ^^ b)).z2 = 0 := by unfold St.cswap; split; exacts [h.2, h.1]
    have hlt' := St.lt_cswap hlt (sw ^^ b)
    generalize s.cswap (sw ^^ b) = t at hs hlt'
    obtain ⟨-, e2, -, e4⟩ := St.step_cast (K := ZMod p) 0 t hlt'
    have hz : ((t.x2 : ZMod p)) * t.z2 = 0 := by exact_mod_cast congrArg (Nat.cast (R := ZMod p)) hs
    have l := St.lt_step 0 t
    refine ih _ _ l ⟨?_, ?_⟩
    · have : (t.step 0).z2 = 0 := cast_inj (K := ZMod p) l.2.1 p_prime.pos (by
        rw [e2]; push_cast; linear_combination (4 * ((t.x2 : ZMod p) ^ 2 + A (ZMod p) * t.x2 * t.z2 + (t.z2 : ZMod p) ^ 2)) * hz)
      rw [this, mul_zero]
    · have : (t.step 0).z3 = 0 := cast_inj (K := ZMod p) l.2.2.2 p_prime.pos (by rw [e4]; push_cast; ring)
      rw [this, mul_zero]

omit [DecidableEq K] in
theorem cast_pow_p (z : ℕ) : (z : K) ^ p = z := by
  have h : ((z ^ p : ℕ) : ZMod p) = (z : ℕ) := by push_cast; exact ZMod.pow_card _
  have := (CharP.natCast_eq_natCast K p).2 ((ZMod.natCast_eq_natCast_iff _ _ _).1 h)
  exact_mod_cast this

omit [DecidableEq K] in
theorem cast_inv (z : ℕ) : ((P256.powMod p 256 z (p - 2) : ℕ) : K) = (z : K)⁻¹ := by
  have hlt : p - 2 < 2 ^ 256 := by rw [p_val]; norm_num
  have h2 : 2 < p := by rw [p_val]; norm_num
  rw [P256.powMod_eq _ _ _ _ hlt, cast_mod]
  push_cast
  by_cases hd : (z : K) = 0
  · rw [hd, inv_zero, zero_pow (by omega)]
  · apply eq_inv_of_mul_eq_one_left
    have := cast_pow_p (K := K) z
    rw [show p = p - 2 + 1 + 1 by omega, pow_succ] at this
    rw [← pow_succ]
    exact mul_right_cancel₀ hd (by rw [this, one_mul])

theorem xc_smul_zero (P : (E (A K)).Point) (h : xc P = 0) (n : ℕ) : xc (n • P) = 0 := by
  cases P with
  | zero => rw [← WeierstrassCurve.Affine.Point.zero_def, smul_zero]; rfl
  | some x y hn =>
    rw [xc_some] at h
    subst h
    have he := (equation_iff _ _).1 hn.1
    have hy : y = 0 := by
      have : y ^ 2 = 0 := by rw [he]; ring
      exact pow_eq_zero_iff (by norm_num) |>.1 this
    subst hy
    have h2 : (.some 0 0 hn + .some 0 0 hn : (E (A K)).Point) = 0 :=
      WeierstrassCurve.Affine.Point.add_of_Y_eq rfl (by rw [negY_eq, neg_zero])
    induction n using Nat.twoStepInduction with
    | zero => rw [zero_smul]; rfl
    | one => rw [one_smul]; rfl
    | more n ih _ => rw [show n + 2 = n + 1 + 1 from rfl, add_smul, add_smul, one_smul, add_assoc, h2, add_zero]; exact ih

/-- The loop computes the first coordinate of the multiple. -/
theorem ladder_spec (bs : List Bool) (x1 : ℕ) (h1 : x1 < p) (P : (E (A K)).Point) (hx : xc P = x1) :
    ((ladder bs x1 : ℕ) : K) = xc (valFrom 0 bs • P) := by
  have hp1 : 1 < p := p_prime.one_lt
  by_cases h0 : (x1 : K) = 0
  · have hz : x1 = 0 := cast_inj (K := K) h1 p_prime.pos (by rw [h0, Nat.cast_zero])
    subst hz
    rw [xc_smul_zero P (by rw [hx, h0])]
    have := loop_zero bs false ⟨1, 0, 0, 1⟩ ⟨hp1, p_prime.pos, p_prime.pos, hp1⟩ ⟨rfl, rfl⟩
    unfold ladder
    rw [cast_fmul, cast_inv]
    have hc : (((loop 0 bs false ⟨1, 0, 0, 1⟩).x2 : K)) * (loop 0 bs false ⟨1, 0, 0, 1⟩).z2 = 0 := by exact_mod_cast congrArg (Nat.cast (R := K)) this
    rcases mul_eq_zero.1 hc with h | h
    · rw [h, zero_mul]
    · rw [h, inv_zero, mul_zero]
  · have hP : P ≠ 0 := by
      rintro rfl
      exact h0 (by rw [← hx]; rfl)
    have hinv : Inv P 0 (St.cswap false ⟨1, 0, x1, 1⟩) := by
      refine ⟨⟨hp1, p_prime.pos, h1, hp1⟩, ?_, ?_⟩
      · simp [St.cswap, zero_smul, rep_zero]
      · simp only [St.cswap, Bool.false_eq_true, if_false, zero_add, one_smul]
        cases P with
        | zero => exact absurd rfl hP
        | some x y hn => rw [rep_some]; rw [xc_some] at hx; simp [hx]
    have := (inv_loop P hP x1 hx h0 bs false 0 _ hinv).2.1
    unfold ladder
    rw [cast_fmul, cast_inv, rep_xc _ _ _ this]

theorem ladder_lt (bs : List Bool) (x1 : ℕ) : ladder bs x1 < p := fmul_lt _ _

/-! ### The closure of the field, in which every number is a first coordinate -/

/-- An algebraic closure of the field. -/
abbrev Cl := AlgebraicClosure (ZMod p)

noncomputable instance : DecidableEq Cl := Classical.decEq _

theorem exists_point (x : Cl) : ∃ P : (E (A Cl)).Point, xc P = x := by
  obtain ⟨y, hy⟩ := IsAlgClosed.exists_pow_nat_eq (x ^ 3 + A Cl * x ^ 2 + x) (n := 2) (by norm_num)
  exact ⟨.some x y ((nonsingular_iff two_ne A_sq x y).2 hy), rfl⟩

/-- Multiplications commute, for all numbers as first coordinates (those of the twisted curve included). -/
theorem ladder_comm (bs cs : List Bool) (x : ℕ) (hx : x < p) : ladder bs (ladder cs x) = ladder cs (ladder bs x) := by
  obtain ⟨P, hP⟩ := exists_point (x : Cl)
  have e1 := ladder_spec bs x hx P hP
  have e2 := ladder_spec cs x hx P hP
  apply cast_inj (K := Cl) (ladder_lt _ _) (ladder_lt _ _)
  rw [ladder_spec bs _ (ladder_lt _ _) _ e2.symm, ladder_spec cs _ (ladder_lt _ _) _ e1.symm, smul_comm]

/-! ### Bytes -/

theorem ofLE_bit (e : List UInt8) (i : ℕ) : (ofLE e).testBit i = bit e i := by
  induction e generalizing i with
  | nil => simp [ofLE, bit]
  | cons b e ih =>
    have hb := b.toNat_lt
    have h : ofLE (b :: e) = 2 ^ 8 * ofLE e + b.toNat := by simp only [ofLE]; omega
    rw [h, Nat.testBit_two_pow_mul_add _ (by simpa using hb)]
    unfold bit
    split
    · next hi => rw [Nat.div_eq_of_lt hi, Nat.mod_eq_of_lt hi]; rfl
    · next hi =>
      rw [ih, bit, show i / 8 = (i - 8) / 8 + 1 by omega, show i % 8 = (i - 8) % 8 by omega]
      rfl

theorem valFrom_testBit (n m k : ℕ) : valFrom k ((List.range m).map fun i => n.testBit (m - 1 - i)) = k * 2 ^ m + n % 2 ^ m := by
  induction m generalizing k with
  | zero => simp [valFrom, Nat.mod_one]
  | succ m ih =>
    have e : (List.range (m + 1)).map (fun i => n.testBit (m + 1 - 1 - i)) =
        n.testBit m :: (List.range m).map fun i => n.testBit (m - 1 - i) := by
      rw [List.range_succ_eq_map, List.map_cons, List.map_map]
      congr 1
      apply List.map_congr_left
      intro i _
      simp only [Function.comp, Nat.add_sub_cancel]
      congr 1
      omega
    rw [e]
    unfold valFrom at ih ⊢
    rw [List.foldl_cons, ih, Nat.mod_pow_succ]
    have hb : (n.testBit m).toNat = n / 2 ^ m % 2 := by
      rw [Nat.testBit_eq_decide_div_mod_eq]
      have := Nat.mod_lt (n / 2 ^ m) (show 2 > 0 by norm_num)
      by_cases h : n / 2 ^ m % 2 = 1
      · simp [h]
      · rw [decide_eq_false h, Bool.toNat_false]; omega
    rw [hb, pow_succ]
    ring

/-- The number a scalar stands for. -/
def num (k : Bytes) : ℕ := ofLE (clamp k)

theorem bits_val (e : List UInt8) : valFrom 0 (bits e) = ofLE e % 2 ^ 255 := by
  have := valFrom_testBit (ofLE e) 255 0
  rw [zero_mul, zero_add] at this
  rw [← this]
  unfold bits
  congr 1
  apply List.map_congr_left
  intro i _
  rw [ofLE_bit]

theorem bit_clamp (k : Bytes) (i : ℕ) : bit (clamp k) i = (if i < 256 then if i < 3 then false else if i = 254 then true else if i = 255 then false else
    bit k i else false) := by
  unfold bit clamp
  by_cases hi : i < 256
  · rw [if_pos hi, List.getD_eq_getElem?_getD, List.getElem?_map, List.getElem?_range (by omega), Option.map_some, Option.getD_some]
    simp only
    generalize k.getD (i / 8) 0 = b
    have hb := b.toNat_lt
    have hbt : ∀ j, 8 ≤ j → b.toNat.testBit j = false := fun j hj =>
      Nat.testBit_lt_two_pow (lt_of_lt_of_le hb (by exact Nat.pow_le_pow_right (by norm_num) hj))
    by_cases h0 : i / 8 = 0
    · have h8 : i < 8 := by omega
      rw [if_pos h0, if_neg (by omega)]
      simp only [UInt8.toNat_and, Nat.testBit_and]
      interval_cases i <;> simp <;> intros <;> decide
    · rw [if_neg h0, if_neg (show ¬ i < 3 by omega)]
      by_cases h31 : i / 8 = 31
      · rw [if_pos h31]
        obtain ⟨j, rfl⟩ : ∃ j, i = 248 + j := ⟨i - 248, by omega⟩
        have hj : j < 8 := by omega
        simp only [UInt8.toNat_or, UInt8.toNat_and, Nat.testBit_or, Nat.testBit_and]
        have f1 : ∀ j < 8, Nat.testBit 127 j = decide (j < 7) := by decide
        have f2 : ∀ j < 8, Nat.testBit 64 j = decide (j = 6) := by decide
        rw [show (248 + j) % 8 = j by omega, show (127 : UInt8).toNat = 127 from rfl, show (64 : UInt8).toNat = 64 from rfl, f1 j hj, f2 j hj]
        interval_cases j <;> simp
      · rw [if_neg h31, if_neg (by omega), if_neg (by omega)]
  · rw [if_neg hi, List.getD_eq_getElem?_getD, List.getElem?_eq_none (by simp; omega)]
    simp

theorem num_bit (k : Bytes) (i : ℕ) : (num k).testBit i = (if i < 256 then if i < 3 then false else if i = 254 then true else
    if i = 255 then false else bit k i else false) := by rw [num, ofLE_bit, bit_clamp]

theorem num_lt (k : Bytes) : num k < 2 ^ 255 := by
  apply Nat.lt_pow_two_of_testBit
  intro i hi
  rw [num_bit]
  split
  · rw [if_neg (by omega), if_neg (by omega), if_pos (by omega)]
  · rfl

theorem num_ge (k : Bytes) : 2 ^ 254 ≤ num k := by
  apply Nat.ge_two_pow_of_testBit
  rw [num_bit]
  rfl

theorem num_dvd (k : Bytes) : 8 ∣ num k := by
  apply Nat.dvd_of_mod_eq_zero
  apply Nat.eq_of_testBit_eq
  intro i
  rw [show 8 = 2 ^ 3 from rfl, Nat.testBit_mod_two_pow, num_bit, Nat.zero_testBit]
  by_cases h : i < 3
  · rw [if_pos (by omega), if_pos h, Bool.and_false]
  · rw [decide_eq_false h, Bool.false_and]

theorem bits_num (k : Bytes) : valFrom 0 (bits (clamp k)) = num k := by rw [bits_val, ← num, Nat.mod_eq_of_lt (num_lt k)]

theorem fromBytes_lt (b : Bytes) : fromBytes b < p := Nat.mod_lt _ p_prime.pos

theorem fromBytes_leBytes (v : ℕ) (h : v < p) : fromBytes (leBytes 32 v) = v := by
  have h1 : v < 2 ^ 255 := lt_trans h (by rw [p_val]; norm_num)
  rw [fromBytes, List.take_of_length_le (by simp), ofLE_leBytes _ _ (lt_trans h1 (by norm_num)), Nat.mod_eq_of_lt h1, Nat.mod_eq_of_lt h]

end Kunlun.X25519
