import Verif.Model.OtExt
/-!
`mpc/vole/exconvcode.hpp`: the expand-convolute code.

`accumulate`/`expand` work on one vector of blocks, `accumulate2`/`expand2` do the same steps on two vectors of one length. Both are modelled by
one function over entries of any type with an addition: blocks with XOR, or pairs of blocks with XOR of both components. The two functions
compute the bound `main` differently; that difference is kept. All sizes are `uint32_t`.
-/

namespace Kunlun.VOLE

open Kunlun Kunlun.AES

/-- exconvcode.hpp:59-74 `GenRandomMod`: `len` 32-bit words of the generator, each reduced. A zero modulus divides by zero if there is a word. -/
def genRandomMod (mmod len : Nat) (seed : PRG.Seed) : Option (List Nat) :=
  (PRG.genRandomBlocks OTE.uninit seed (len % 2 ^ 32 / 4 + 1)).bind fun r =>
  (List.range (len % 2 ^ 32)).mapM fun i => (load (PRG.bytesOf r.1) (4 * i) 4).bind fun w =>
    if mmod % 2 ^ 32 = 0 then none else some (ofLE w % (mmod % 2 ^ 32))

section
variable {V : Type} (add : V → V → V)

/-- `x[j] ^= x[i]`. -/
def addAt (x : List V) (j i : Nat) : Option (List V) := (x[j]?).bind fun a => (x[i]?).map fun b => x.set j (add a b)

/-- exconvcode.hpp:135-139, 149-153: `n` rounds, reading `*rrnd`, from `j` on. The random bytes are those from `rrnd` on. -/
def accBits (i : Nat) : Nat → Nat → List V → Bytes → Option (List V × Bytes)
  | 0, _, x, rnd => some (x, rnd)
  | n + 1, j, x, rnd => (rnd[0]?).bind fun b =>
    if b = 1 then (addAt add x j i).bind fun x => accBits i n (j + 1) x (rnd.drop 1) else accBits i n (j + 1) x (rnd.drop 1)

/-- exconvcode.hpp:133-144: the main loop, `n` rounds from `i` on. -/
def accMain : Nat → Nat → List V → Bytes → Option (List V × Bytes)
  | 0, _, x, rnd => some (x, rnd)
  | n + 1, i, x, rnd => (accBits add i 23 (i + 1) x rnd).bind fun s =>
    (addAt add s.1 (i + 24) i).bind fun x => accMain n (i + 1) x s.2

/-- exconvcode.hpp:146-155: the last rounds, `n` of them from `i` on. -/
def accTail (size : Nat) : Nat → Nat → List V → Bytes → Option (List V × Bytes)
  | 0, _, x, rnd => some (x, rnd)
  | n + 1, i, x, rnd => (accBits add i (size - (i + 1)) (i + 1) x rnd).bind fun s => accTail size n (i + 1) s.1 s.2

/-- exconvcode.hpp:124-156 `accumulate`, 158-196 `accumulate2`: the bytes drawn are given. -/
def accWith (size main : Nat) (x : List V) (rnd : Bytes) : Option (List V) :=
  (accMain add main 0 x rnd).bind fun s => (accTail add size (size - main) main s.1 s.2).map (·.1)

/-- exconvcode.hpp:200-217 `expand`, 220-243 `expand2`: entry `i` of the result. -/
def expandOne (e : List V) (pos : List Nat) (i : Nat) : Option V :=
  (pos[21 * i]?).bind fun p => (e[p]?).bind fun v =>
  (List.range 20).foldlM (fun v jj => (pos[21 * i + 1 + jj]?).bind fun p => (e[p]?).map fun y => add v y) v

/-- exconvcode.hpp:87-103 `dualEncode`, 105-122 `dualEncode2`; `main` is the bound of the main loop. `R = 2`,
weight 21, accumulator 24 (line 42). `expand` is given a copy of the seed, advanced by `accumulate`. -/
def encodeWith (main : Nat) (seed : PRG.Seed) (x : List V) : Option (List V) :=
  (PRG.genRandomBits OTE.uninit seed (x.length * 24 % 2 ^ 32)).bind fun r =>
  (accWith add x.length main x r.1).bind fun d =>
  (genRandomMod x.length (x.length / 2 * 21) r.2).bind fun pos =>
  (List.range (x.length / 2)).mapM (expandOne add d pos)

end

/-- exconvcode.hpp:130: the difference is taken in 32 bits and read as a signed number. -/
def main1 (size : Nat) : Nat := if size < 24 ∨ 2 ^ 31 ≤ size - 24 then 0 else size - 24

/-- exconvcode.hpp:166: the difference is taken in 32 bits and is never negative. -/
def main2 (size : Nat) : Nat := (2 ^ 32 + size - 24) % 2 ^ 32

/-- vole.hpp:163-166, 275-277: the seed for the code; the counter is zero. -/
def codeSeed (key : Block) : PRG.Seed := ⟨0, genEncKey key⟩

/-- exconvcode.hpp:87-103 `dualEncode`. Vectors of `2^32` entries or more are not modelled further (the size is truncated). -/
def dualEncode (seed : PRG.Seed) (x : List Block) : Option (List Block) :=
  if 2 ^ 32 ≤ x.length then none else encodeWith (· ^^^ ·) (main1 x.length) seed x

/-- XOR of both components. -/
def pairXor (a b : Block × Block) : Block × Block := (a.1 ^^^ b.1, a.2 ^^^ b.2)

/-- exconvcode.hpp:105-122 `dualEncode2`; both vectors must have one length (line 106). -/
def dualEncode2 (seed : PRG.Seed) (x0 x1 : List Block) : Option (List Block × List Block) :=
  if x0.length ≠ x1.length ∨ 2 ^ 32 ≤ x0.length then none else
  (encodeWith pairXor (main2 x0.length) seed (x0.zip x1)).map List.unzip

end Kunlun.VOLE
