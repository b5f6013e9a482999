import Verif.Model.BigInt
import Mathlib.Algebra.Module.ZMod
import Mathlib.Data.ZMod.Basic
import Mathlib.Algebra.Field.ZMod
import Mathlib.Tactic.Module
import Mathlib.Tactic.NormNum.Prime
/-!
The elliptic-curve group of `crypto/ec_group.hpp` / `crypto/ec_point.hpp`.

The group of curve points is an arbitrary additive commutative group of prime exponent; OpenSSL's point arithmetic is the
trusted part.  `A * x` of the code is `x • A` (integer scalar; OpenSSL accepts any integer), `A + B`, `A - B`, `Invert`,
`==` are the group operations, the default constructor is `0` (point at infinity).
-/

namespace Kunlun

/-- ec_group.hpp:20-75 the global `group`, `generator`, `order` (a prime for every curve the library offers: cofactor 1), with
`toBytes` = ec_point.hpp:223-230 `ECPoint::ToByteString`. -/
structure Curve (G : Type) [AddCommGroup G] where
  order : ℕ
  prime : order.Prime
  smul_order : ∀ P : G, order • P = 0
  gen : G
  gen_ne : gen ≠ 0
  toBytes : G → Bytes

namespace Curve

variable {G : Type} [AddCommGroup G] (cv : Curve G)

theorem order_pos : 0 < cv.order := cv.prime.pos

theorem order_ne : (cv.order : ℤ) ≠ 0 := by exact_mod_cast cv.prime.ne_zero

/-- The points form a vector space over `Z_q` (proof device only). -/
@[reducible] def toModule : Module (ZMod cv.order) G := AddCommGroup.zmodModule cv.smul_order

theorem cast_smul (x : ℤ) (P : G) :
    letI := cv.toModule
    x • P = (x : ZMod cv.order) • P := by
  letI := cv.toModule
  exact (Int.cast_smul_eq_zsmul (ZMod cv.order) x P).symm

theorem fact : Fact cv.order.Prime := ⟨cv.prime⟩

theorem smul_eq_zero_iff (x : ℤ) (P : G) (hP : P ≠ 0) : x • P = 0 ↔ (cv.order : ℤ) ∣ x := by
  letI := cv.toModule
  haveI := cv.fact
  rw [cv.cast_smul, ← ZMod.intCast_zmod_eq_zero_iff_dvd]
  constructor
  · intro h
    by_contra hx
    apply hP
    calc P = (((x : ZMod cv.order))⁻¹ * (x : ZMod cv.order)) • P := by rw [inv_mul_cancel₀ hx, one_smul]
      _ = 0 := by rw [mul_smul, h, smul_zero]
  · intro h
    rw [h, zero_smul]

theorem smul_eq_iff (x y : ℤ) (P : G) (hP : P ≠ 0) : x • P = y • P ↔ (cv.order : ℤ) ∣ x - y := by
  rw [← cv.smul_eq_zero_iff _ P hP, sub_smul, sub_eq_zero]

theorem emod_smul (x : ℤ) (P : G) : (x % (cv.order : ℤ)) • P = x • P := by
  letI := cv.toModule
  rw [cv.cast_smul, cv.cast_smul, ZMod.intCast_mod]

theorem cast_mod (x : ℤ) : ((BigInt.mod x cv.order : ℤ) : ZMod cv.order) = (x : ZMod cv.order) := by
  unfold BigInt.mod BigInt.bnNNMod BigInt.checked
  rw [if_neg cv.order_ne]
  simp

theorem mod_eq (x : ℤ) : BigInt.mod x cv.order = x % cv.order := by
  unfold BigInt.mod BigInt.bnNNMod BigInt.checked
  rw [if_neg cv.order_ne]
  rfl

theorem mod_smul (x : ℤ) (P : G) : BigInt.mod x cv.order • P = x • P := by
  rw [mod_eq, emod_smul]

theorem mod_range (x : ℤ) : 0 ≤ BigInt.mod x cv.order ∧ BigInt.mod x cv.order < cv.order := by
  rw [mod_eq]
  exact ⟨Int.emod_nonneg _ cv.order_ne, Int.emod_lt_of_pos _ (by exact_mod_cast cv.order_pos)⟩

theorem cast_modInverse (x : ℤ) : ((BigInt.modInverse x cv.order : ℤ) : ZMod cv.order) = (x : ZMod cv.order)⁻¹ := by
  haveI := cv.fact
  unfold BigInt.modInverse BigInt.bnModInverse BigInt.checked
  by_cases h : Int.gcd x cv.order = 1
  · rw [if_neg (by simp [h, cv.prime.ne_zero])]
    simp only [Option.getD_some, ZMod.intCast_mod]
    have hb := Int.gcd_eq_gcd_ab x cv.order
    rw [h] at hb
    have hb' : ((1 : ℤ) : ZMod cv.order) =
        ((x * Int.gcdA x cv.order + cv.order * Int.gcdB x cv.order : ℤ) : ZMod cv.order) := by
      rw [← hb]; rfl
    push_cast at hb'
    rw [ZMod.natCast_self, zero_mul, add_zero] at hb'
    exact (eq_inv_of_mul_eq_one_right hb'.symm)
  · rw [if_pos (Or.inr h)]
    have hz : (x : ZMod cv.order) = 0 := by
      rw [ZMod.intCast_zmod_eq_zero_iff_dvd]
      by_contra hd
      apply h
      rw [Int.gcd_comm, Int.gcd_eq_natAbs_gcd_natAbs, Int.natAbs_natCast]
      exact (Nat.Prime.coprime_iff_not_dvd cv.prime).2 (fun hh => hd (Int.natCast_dvd.2 hh))
    simp [hz]

theorem cast_ne_zero {x : ℤ} (h : ¬ (cv.order : ℤ) ∣ x) : (x : ZMod cv.order) ≠ 0 := by
  rwa [Ne, ZMod.intCast_zmod_eq_zero_iff_dvd]

end Curve

/-- `EC_POINTs_mul`: the sum of the products. -/
def msm {G : Type} [AddCommGroup G] (A : List G) (a : List ℤ) : G := (List.zipWith (fun P x => x • P) A a).sum

/-- ec_point.hpp:365-376 `ECPointVectorMul`; `none` is the `exit(EXIT_FAILURE)` on different sizes. -/
def vecMul {G : Type} [AddCommGroup G] (A : List G) (a : List ℤ) : Option G :=
  if A.length ≠ a.length then none else some (msm A a)

theorem msm_two {G : Type} [AddCommGroup G] (P Q : G) (x y : ℤ) : msm [P, Q] [x, y] = x • P + y • Q := by
  simp [msm]

theorem msm_cons {G : Type} [AddCommGroup G] (P : G) (A : List G) (x : ℤ) (a : List ℤ) :
    msm (P :: A) (x :: a) = x • P + msm A a := by
  simp [msm]

theorem msm_nil {G : Type} [AddCommGroup G] (a : List ℤ) : msm ([] : List G) a = 0 := by
  simp [msm]

theorem msm_nil' {G : Type} [AddCommGroup G] (A : List G) : msm A [] = 0 := by
  simp [msm]

theorem msm_append {G : Type} [AddCommGroup G] (A B : List G) (a b : List ℤ) (h : A.length = a.length) :
    msm (A ++ B) (a ++ b) = msm A a + msm B b := by
  induction A generalizing a with
  | nil => cases a <;> simp_all [msm]
  | cons P A ih =>
    cases a with
    | nil => simp at h
    | cons x a =>
      simp only [List.cons_append, msm_cons, ih a (by simpa using h)]
      abel

/-- A small concrete curve for the examples: the additive group `Z_7` with generator 1, one-byte encoding. -/
def toyCurve : Curve (ZMod 7) where
  order := 7
  prime := by norm_num
  smul_order := by decide
  gen := 1
  gen_ne := by decide
  toBytes P := [UInt8.ofNat P.val]

end Kunlun
