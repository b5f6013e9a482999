import Verif.Model.P256
import Verif.Model.Group
import Verif.Model.Serialization
import Verif.Model.HashToCurve
/-!
The byte strings of the points of the curve (crypto/ec_point.hpp) and the objects of the other models on this curve: `Curve`, `PointCodec`,
`Weier`.  `EC_POINT_point2oct`, `EC_POINT_oct2point` and `BN_mod_sqrt` are modelled from their documentation (SEC 1, section 2.3).
-/

namespace Kunlun.P256

open Kunlun

/-- `BN_BYTE_LEN` (ec_group.hpp:72). -/
def bnLen : ℕ := 256 / 8 + 256 % 8

/-- ec_point.hpp:223-230 `ToByteString`: the compressed form in a string of 33 characters `'0'`; for the point at infinity one byte is
written. -/
def toBytes : Pt → Bytes
  | .zero => 0 :: List.replicate bnLen 48
  | .some x y _ => UInt8.ofNat (2 + y.val % 2) :: beBytes bnLen x.val

/-- `EC_POINT_point2oct` with `POINT_CONVERSION_UNCOMPRESSED`, ec_point.hpp:277-290. -/
def enc : Pt → Bytes
  | .zero => [0]
  | .some x y _ => 4 :: (beBytes bnLen x.val ++ beBytes bnLen y.val)

/-- The point with coordinates `x`, `y` if these are in range and on the curve. -/
def ofCoords (x y : ℕ) : Option Pt :=
  if h : x < p ∧ y < p ∧ (y : F) ^ 2 = (x : F) ^ 3 - 3 * x + b then some (mk x y h.2.2) else none

/-- `EC_POINT_oct2point` on a string of `POINT_BYTE_LEN` bytes, ec_point.hpp:292-306: the uncompressed form (first byte 4) and the hybrid form
(6, or 7 for an odd second coordinate); the coordinates have to be below `p` and on the curve. -/
def dec : Bytes → Option Pt
  | [] => none
  | t :: bs =>
    if bs.length = 2 * bnLen then
      let x := ofBE (bs.take bnLen)
      let y := ofBE (bs.drop bnLen)
      if t = 4 ∨ t.toNat = 6 + y % 2 then ofCoords x y else none
    else none

theorem mk_ne_zero (x y : F) (h) : mk x y h ≠ 0 := WeierstrassCurve.Affine.Point.some_ne_zero _

theorem val_lt_pow (x : F) : x.val < 256 ^ bnLen := by
  have h : p < 256 ^ bnLen := by unfold p; decide +kernel
  exact (ZMod.val_lt x).trans h

theorem beBytes_length (n v : ℕ) : (beBytes n v).length = n := by simp [beBytes]

theorem enc_some (x y : F) (h) : dec (enc (.some x y h)) = some (.some x y h) := by
  have e1 : (beBytes bnLen x.val ++ beBytes bnLen y.val).take bnLen = beBytes bnLen x.val := by
    rw [List.take_append_of_le_length (by rw [beBytes_length]), List.take_of_length_le (by rw [beBytes_length])]
  have e2 : (beBytes bnLen x.val ++ beBytes bnLen y.val).drop bnLen = beBytes bnLen y.val := by
    rw [List.drop_append_of_le_length (by rw [beBytes_length]), List.drop_of_length_le (by rw [beBytes_length]), List.nil_append]
  simp only [enc, dec]
  rw [if_pos (by rw [List.length_append, beBytes_length, beBytes_length]; omega), if_pos (.inl trivial), e1, e2,
    ofBE_beBytes _ _ (val_lt_pow x), ofBE_beBytes _ _ (val_lt_pow y)]
  have hx : ((x.val : ℕ) : F) = x := ZMod.natCast_zmod_val x
  have hy : ((y.val : ℕ) : F) = y := ZMod.natCast_zmod_val y
  unfold ofCoords
  rw [dif_pos ⟨ZMod.val_lt x, ZMod.val_lt y, by rw [hx, hy]; exact (nonsingular_iff x y).1 h⟩]
  simp only [mk, hx, hy]

/-- The curve as the models of the protocols use it. -/
def curve : Curve Pt where
  order := n
  prime := n_prime
  smul_order := n_smul
  gen := G
  gen_ne := G_ne
  toBytes := toBytes

/-- The point encoding of streams and sockets. -/
def codec : Ser.PointCodec Pt where
  byteLen := bnLen * 2 + 1
  enc := enc
  dec := dec
  inf := 0
  enc_len := by
    rintro (_ | ⟨x, y, h⟩) hP
    · exact absurd rfl hP
    · simp only [enc, List.length_cons, List.length_append, beBytes_length]
      omega
  dec_enc := by
    rintro (_ | ⟨x, y, h⟩) hP
    · exact absurd rfl hP
    · exact enc_some x y h
  enc_inf := rfl
  byteLen_pos := by decide
  dec_zero := by
    intro t _
    simp only [dec]
    split
    · rw [if_neg]
      rintro (h | h)
      · exact absurd h (by decide)
      · simp at h; omega
    · rfl

/-- ec_point.hpp:342-347 `GenRandomGenerator`, also `GenRandomECPoint`; `rnd` is the value drawn by `BN_rand_range`. -/
def genRandomGenerator (rnd : ℤ) : Pt := BigInt.randomBetween 1 n rnd • G

/-- The coefficients as the hashes to the curve use them (`a = p - 3`). -/
def weier : Hash.Weier := ⟨p, p - 3, b⟩

/-- `BN_mod_sqrt` for a prime that is 3 modulo 4: `s^((p+1)/4)`. -/
def sqrt (s : ℤ) : ℤ := BigInt.modExp s ((p + 1) / 4 : ℕ) p

end Kunlun.P256
