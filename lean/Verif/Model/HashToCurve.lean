import Verif.Model.Hash
import Verif.Model.BigInt
/-!
Model of the hashes to the curve: `Hash::StringToECPoint` (crypto/hash.hpp:102-127), which computes the second generator `h` of twisted
exponential ElGamal and of the range proofs, and the coordinates behind `Hash::BlockToECPoint` (hash.hpp:226-245).

`BasicHash` and `BN_mod_sqrt` are parameters.  A `while (true)` loop is run for a number of attempts: the outer `none` is a loop that has not
ended yet.
-/

namespace Kunlun.Hash

open Kunlun

/-- ec_group.hpp:53-59: the coefficients of `y² = x³ + ax + b` over the integers modulo `p`. -/
structure Weier where
  p : ℕ
  a : ℕ
  b : ℕ

namespace Weier

variable (W : Weier)

/-- hash.hpp:113. -/
def rhs (x : ℤ) : ℤ := BigInt.mod (x ^ 3 + W.a * x + W.b) W.p

/-- ec_point.hpp:357-359 `IsSquare`; `curve_params_q` is `p` shifted right by one (ec_group.hpp:58-59). -/
def isSquare (s : ℤ) : Bool := BigInt.modExp s (W.p >>> 1 : ℕ) W.p == 1

/-- ec_point.hpp:332-340 `CreateECPoint` with 120-124 and 183-194: coordinates are taken modulo `p`; a pair off the curve ends the process. -/
def create (x y : ℤ) : Option (ℤ × ℤ) :=
  if (y ^ 2 - (x ^ 3 + W.a * x + W.b)) % W.p = 0 then some (x % W.p, y % W.p) else none

/-- hash.hpp:111-124: the loop from the candidate `x` on.  Inner `none`: the process has ended. -/
def stringLoop (H : Bytes → Bytes) (sqrt : ℤ → ℤ) : ℕ → ℤ → Option (Option (ℤ × ℤ))
  | 0, _ => none
  | fuel + 1, x =>
    if W.isSquare (W.rhs x) then
      let y := sqrt (W.rhs x)
      some (if y % 2 = 1 then (W.create x (BigInt.modNegate y W.p)).bind fun _ => W.create x y else W.create x y)
    else stringLoop H sqrt fuel (BigInt.bin2bn (H (BigInt.toByteString x)))

/-- hash.hpp:102-127 `StringToECPoint`. -/
def stringToPoint (H : Bytes → Bytes) (sqrt : ℤ → ℤ) (fuel : ℕ) (s : Bytes) : Option (Option (ℤ × ℤ)) :=
  W.stringLoop H sqrt fuel (BigInt.mod (BigInt.bin2bn (H s)) W.p)

end Weier

end Kunlun.Hash
