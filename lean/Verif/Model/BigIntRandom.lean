import Verif.Model.BigInt
import Mathlib.Data.Nat.Prime.Defs
/-!
The functions of `crypto/bigint.hpp` that draw numbers or test for primes, and the random vectors of `utility/routines.hpp`.

`BN_rand_range(r, max)` draws a number in `[0, max)` and fails without touching `r` for `max ≤ 0`; the number drawn is a parameter.
`CRYPTO_CHECK` only prints. `BN_is_prime_ex` is a parameter as well. `rand()` after `srand(t)` is a function of `t` and the number of earlier calls.
-/

namespace Kunlun.BigInt

/-- bigint.hpp:520-533 `GenRandomBigIntLessThan`; `draw` is the number drawn if `max` is positive. -/
def randLess (max draw : Int) : Int := if 0 < max then draw else 0

/-- bigint.hpp:536-541 `GenRandomBigIntBetween`; the check only prints. -/
def randBetween (start stop draw : Int) : Int := randLess (stop - start) draw + start

/-- bigint.hpp:554-560 `GenCoPrimeLessThan` with the list of the numbers that will be drawn; `none`: still in the loop when they are used up. -/
def genCoPrime (num : Int) : List Int → Option Int
  | [] => none
  | draw :: rest => if 1 < Int.gcd (randLess num draw) num then genCoPrime num rest else some (randLess num draw)

/-- bigint.hpp:356-365 `Div`: the result, and whether the advice to use `DivAndTruncate` is printed. `BN_div` by zero fails and leaves both results zero. -/
def div (a b : Int) : Int × Bool := if b = 0 then (0, true) else (a.tdiv b, a.tmod b = 0)

/-- bigint.hpp:515-517 `IsSafePrime` (`operator/` is `Div`). -/
def isSafePrime (isPrime : Int → Bool) (a : Int) : Bool := isPrime a && isPrime (div (a - 1) 2).1

/-- routines.hpp:46-55 `GenRandomNaturalIntegerVectorLessThan` in second `t`. `none`: division by zero. -/
def randVector (rand : Nat → Nat → Nat) (t len : Nat) (max : Int) : Option (List Int) :=
  if max = 0 ∧ 0 < len then none else some ((List.range len).map fun i => (rand t i : Int).tmod max)

/-- routines.hpp:58-66 `GenRandomIntegerVectorAbsoluteLessThan`. `none`: division by zero or overflow of `2*MAX`. -/
def randVectorAbs (rand : Nat → Nat → Nat) (t len : Nat) (max : Int) : Option (List Int) :=
  if 2 * max < -2 ^ 63 ∨ 2 ^ 63 ≤ 2 * max then none else (randVector rand t len (2 * max)).map fun v => v.map (· - max)

end Kunlun.BigInt
