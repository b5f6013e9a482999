import Verif.Base.Bytes
import Mathlib.Data.Int.GCD
/-!
Model of `crypto/bigint.hpp` over the integers.

A `BigInt` is a Lean `Int`.  The OpenSSL routines it wraps are modelled by the arithmetic they document; `CRYPTO_CHECK`
(crypto/setup.hpp) only prints, so when the wrapped routine fails the freshly allocated result (zero) is returned.
Not modelled: primality testing and generation, hexadecimal and decimal printing, `ModSquareRoot`.
-/

namespace Kunlun.BigInt

open Kunlun

/-! ### The wrapped library routines -/

/-- `BN_nnmod(r, a, m)`: the non-negative remainder by `|m|`; fails for `m = 0`. -/
def bnNNMod (a m : Int) : Option Int := if m = 0 then none else some (a % m)

/-- `BN_mod_exp(r, a, p, m)`: left-to-right square and multiply over the bits of `|p|` (the sign of `p` is ignored); fails for
`m = 0`. The fuel `k` is the number of bits processed. -/
def powLoop (a m : Int) (p : Nat) : Nat → Int
  | 0 => 1 % m
  | k + 1 =>
    let r := powLoop a m p k
    let r := r * r % m
    if p.testBit (p.log2 - k) then r * a % m else r

/-- see `powLoop`. -/
def bnModExp (a p m : Int) : Option Int :=
  if m = 0 then none else some (if p = 0 then 1 % m else powLoop a m p.natAbs (p.natAbs.log2 + 1))

/-- `BN_mod_inverse(r, a, m)` by the extended Euclidean algorithm; fails when `gcd(a, m) ≠ 1`. -/
def bnModInverse (a m : Int) : Option Int :=
  if m = 0 ∨ Int.gcd a m ≠ 1 then none else some (Int.gcdA a m % m)

/-- `BN_bn2binpad(a, buf, len)`: big-endian `|a|` padded to `len` bytes; when it does not fit, −1 is returned and the buffer is
left as it was. -/
def bn2binpad (a : Int) (buf : Bytes) : Bytes :=
  if a.natAbs < 256 ^ buf.length then beBytes buf.length a.natAbs else buf

/-- `BN_num_bytes`. -/
def numBytes (a : Int) : Nat := if a = 0 then 0 else a.natAbs.log2 / 8 + 1

/-- `BN_bin2bn`. -/
def bin2bn (b : Bytes) : Int := (ofBE b : Int)

/-- Result of a `CRYPTO_CHECK`ed call writing into a fresh BigInt. -/
def checked (r : Option Int) : Int := r.getD 0

/-! ### The class -/

/-- bigint.hpp:401-406 `Mod` and `operator%`. -/
def mod (a m : Int) : Int := checked (bnNNMod a m)
/-- bigint.hpp:410-415 `ModAdd`. -/
def modAdd (a b m : Int) : Int := checked (bnNNMod (a + b) m)
/-- bigint.hpp:419-424 `ModSub`. -/
def modSub (a b m : Int) : Int := checked (bnNNMod (a - b) m)
/-- bigint.hpp:427-432 `ModMul`. -/
def modMul (a b m : Int) : Int := checked (bnNNMod (a * b) m)
/-- bigint.hpp:436-444 `ModExp` (a negative exponent is only reported). -/
def modExp (a p m : Int) : Int := checked (bnModExp a p m)
/-- bigint.hpp:448-453 `ModSquare`. -/
def modSquare (a m : Int) : Int := checked (bnNNMod (a * a) m)
/-- bigint.hpp:457-462 `ModInverse`. -/
def modInverse (a m : Int) : Int := checked (bnModInverse a m)
/-- bigint.hpp:475-480 `ModNegate`. -/
def modNegate (a m : Int) : Int := if a = 0 then a else m - mod a m

/-- bigint.hpp:369-375 `DivAndTruncate` (and the value returned by `Div`): truncated division; division by zero fails. -/
def divTrunc (a b : Int) : Int := checked (if b = 0 then none else some (a.tdiv b))

/-- bigint.hpp:491-495 `Rshift`: truncated shift of the magnitude. -/
def rshift (a : Int) (n : Nat) : Int := a.sign * ((a.natAbs >>> n : Nat) : Int)

/-- bigint.hpp:195-199 `GetLastNBits`: `BN_mask_bits`, which leaves shorter numbers unchanged. -/
def lastNBits (a : Int) (n : Nat) : Int := a.sign * ((a.natAbs % 2 ^ n : Nat) : Int)

/-- bigint.hpp:616-625 `GetTheNthBit`. -/
def nthBit (a : Int) (j : Nat) : Nat := if lastNBits (rshift a j) 1 = 1 then 1 else 0

/-- bigint.hpp:536-541 `GenRandomBigIntBetween`; `rnd` is the value drawn by `BN_rand_range`. -/
def randomBetween (start _end rnd : Int) : Int := rnd + start

/-! ### Serialization -/

/-- bigint.hpp:628-634 `operator<<`: the buffer is an uninitialised local array, `garbage` is its content. -/
def put (garbage : Bytes) (a : Int) : Bytes := bn2binpad a garbage
/-- bigint.hpp:636-642 `operator>>` on the `BN_BYTE_LEN` bytes read. -/
def get (b : Bytes) : Int := bin2bn b
/-- bigint.hpp:312-317 `ToByteVector(LEN)` (the vector is first filled with the character '0'). -/
def toByteVector (len : Nat) (a : Int) : Bytes := bn2binpad a (List.replicate len 48)
/-- bigint.hpp:307-310 `FromByteVector`, 272-281 `FromByteString`. -/
def fromByteVector (b : Bytes) : Int := bin2bn b
/-- bigint.hpp:289-297 `ToByteString()`: minimal-length big-endian magnitude. -/
def toByteString (a : Int) : Bytes := beBytes (numBytes a) a.natAbs

/-! ### Vectors: `none` is the `exit(EXIT_FAILURE)` on different lengths. -/

/-- bigint.hpp:671-684 `BigIntVectorModAdd`. -/
def vecModAdd (a b : List Int) (m : Int) : Option (List Int) :=
  if a.length ≠ b.length then none else some (List.zipWith (fun x y => mod (x + y) m) a b)
/-- bigint.hpp:687-700 `BigIntVectorModSub`. -/
def vecModSub (a b : List Int) (m : Int) : Option (List Int) :=
  if a.length ≠ b.length then none else some (List.zipWith (fun x y => mod (x - y) m) a b)
/-- bigint.hpp:703-716 `BigIntVectorModProduct`. -/
def vecModProduct (a b : List Int) (m : Int) : Option (List Int) :=
  if a.length ≠ b.length then none else some (List.zipWith (fun x y => mod (x * y) m) a b)
/-- bigint.hpp:720-733 `BigIntVectorProduct`. -/
def vecProduct (a b : List Int) : Option (List Int) :=
  if a.length ≠ b.length then none else some (List.zipWith (fun x y => x * y) a b)
/-- bigint.hpp:737-747 `BigIntVectorModInverse`. -/
def vecModInverse (a : List Int) (m : Int) : List Int := a.map (fun x => modInverse x m)
/-- bigint.hpp:751-760 `BigIntVectorModScalar`. -/
def vecModScalar (a : List Int) (c m : Int) : List Int := a.map (fun x => mod (x * c) m)
/-- bigint.hpp:763-772 `BigIntVectorScalar`. -/
def vecScalar (a : List Int) (c : Int) : List Int := a.map (fun x => x * c)
/-- bigint.hpp:775-784 `BigIntVectorModNegate`. -/
def vecModNegate (a : List Int) (m : Int) : List Int := a.map (fun x => modNegate x m)
/-- The accumulation loop of bigint.hpp:797-799 / 814-816. -/
def dotLoop : List Int → List Int → Int → Int
  | x :: a, y :: b, acc => dotLoop a b (acc + x * y)
  | _, _, acc => acc
/-- bigint.hpp:788-802 `BigIntVectorModInnerProduct` (and 805-818, the same code). -/
def vecModInnerProduct (a b : List Int) (m : Int) : Option Int :=
  if a.length ≠ b.length then none else some (mod (dotLoop a b 0) m)

end Kunlun.BigInt
