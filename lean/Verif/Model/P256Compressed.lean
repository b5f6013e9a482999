import Verif.Model.P256Codec
import Mathlib.NumberTheory.LegendreSymbol.Basic
/-!
The point encoding of streams and sockets in builds with `ECPOINT_COMPRESSED` (ec_group.hpp:17; ec_point.hpp:277-306, stream_channel.hpp:279-373).
`EC_POINT_point2oct` and `EC_POINT_oct2point` are modelled from their documentation (SEC 1, section 2.3).
-/

namespace Kunlun.P256

open Kunlun

/-- `EC_POINT_point2oct` with `POINT_CONVERSION_COMPRESSED`. -/
def encC : Pt → Bytes
  | .zero => [0]
  | .some x y _ => UInt8.ofNat (2 + y.val % 2) :: beBytes bnLen x.val

/-- The right-hand side of the equation of the curve. -/
def rhs (x : F) : F := x ^ 3 - 3 * x + b

/-- The candidate for the second coordinate (`BN_mod_sqrt`), with the wanted parity. -/
def rootC (x : F) (odd : ℕ) : F :=
  let r := rhs x ^ ((p + 1) / 4)
  if r.val % 2 = odd then r else -r

/-- `EC_POINT_oct2point` on a string of `POINT_COMPRESSED_BYTE_LEN` bytes: first byte 2 or 3, a coordinate below `p` for which the equation has a
solution. -/
def decC : Bytes → Option Pt
  | [] => none
  | t :: bs =>
    if bs.length = bnLen ∧ (t = 2 ∨ t = 3) then
      let x := ofBE bs
      if h : x < p ∧ rootC x (t.toNat - 2) ^ 2 = (x : F) ^ 3 - 3 * x + b then some (mk x (rootC x (t.toNat - 2)) h.2) else none
    else none

theorem p_mod_four' : p % 4 = 3 := by unfold p; decide +kernel

theorem root_sq {x y : F} (h : y ^ 2 = rhs x) : (rhs x ^ ((p + 1) / 4)) ^ 2 = rhs x := by
  have h4 := p_mod_four'
  rw [← pow_mul]
  by_cases hz : rhs x = 0
  · rw [hz, zero_pow (by omega)]
  · have := (ZMod.euler_criterion p hz).1 ⟨y, by rw [← h, pow_two]⟩
    rw [show (p + 1) / 4 * 2 = p / 2 + 1 by omega, pow_succ, this, one_mul]

/-- The root that is taken is the second coordinate. -/
theorem rootC_eq {x y : F} (h : E.Nonsingular x y) : rootC x (y.val % 2) = y := by
  have hy := (nonsingular_iff x y).1 h
  have hy0 := y_ne_zero h.1
  have hs := root_sq (x := x) (y := y) hy
  unfold rootC
  generalize rhs x ^ ((p + 1) / 4) = r at hs
  have : r ^ 2 = y ^ 2 := hs.trans hy.symm
  rcases sq_eq_sq_iff_eq_or_eq_neg.1 this with e | e
  · rw [e]; simp
  · have hp := parity_neg y hy0
    rw [e]
    dsimp only
    rw [if_neg hp, neg_neg]

theorem decC_enc (x y : F) (h) : decC (encC (.some x y h)) = some (.some x y h) := by
  have hx : ((x.val : ℕ) : F) = x := ZMod.natCast_zmod_val x
  have ht : (UInt8.ofNat (2 + y.val % 2)).toNat - 2 = y.val % 2 := by
    rcases Nat.mod_two_eq_zero_or_one y.val with h2 | h2 <;> rw [h2] <;> rfl
  have ht' : UInt8.ofNat (2 + y.val % 2) = 2 ∨ UInt8.ofNat (2 + y.val % 2) = 3 := by
    rcases Nat.mod_two_eq_zero_or_one y.val with h2 | h2 <;> rw [h2]
    · exact .inl rfl
    · exact .inr rfl
  simp only [encC, decC]
  rw [if_pos ⟨beBytes_length _ _, ht'⟩]
  have e : rootC ((ofBE (beBytes bnLen x.val) : ℕ) : F) ((UInt8.ofNat (2 + y.val % 2)).toNat - 2) = y := by
    rw [ofBE_beBytes _ _ (val_lt_pow x), ht, hx, rootC_eq h]
  rw [dif_pos ⟨by rw [ofBE_beBytes _ _ (val_lt_pow x)]; exact ZMod.val_lt x, by
    rw [e, ofBE_beBytes _ _ (val_lt_pow x), hx]; exact (nonsingular_iff x y).1 h⟩]
  simp only [mk, ofBE_beBytes _ _ (val_lt_pow x), ht, hx, rootC_eq h]

/-- The point encoding of streams and sockets in a compressed build. -/
def codecC : Ser.PointCodec Pt where
  byteLen := bnLen + 1
  enc := encC
  dec := decC
  inf := 0
  enc_len := by
    rintro (_ | ⟨x, y, h⟩) hP
    · exact absurd rfl hP
    · simp only [encC, List.length_cons, beBytes_length]
  dec_enc := by
    rintro (_ | ⟨x, y, h⟩) hP
    · exact absurd rfl hP
    · exact decC_enc x y h
  enc_inf := rfl
  byteLen_pos := by decide
  dec_zero := by
    intro t _
    simp only [decC]
    rw [if_neg]
    rintro ⟨-, h | h⟩ <;> exact absurd h (by decide)

end Kunlun.P256
