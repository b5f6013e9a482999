import Verif.Model.Gf128
/-!
Model of the two in-place matrix inversions of `mpc/okvs/okvs_utility.hpp`: `check_invert_gf128` (562-619) and
`check_invert` (663-704).

A matrix is a vector of rows; every access is bounds-checked and `none` is an access outside a vector.  Both functions
return the Boolean result together with the matrix left in the caller's variable (on failure the half-reduced matrix).
-/

namespace Kunlun.MatInv

open Kunlun

variable {α : Type}

/-- Rows of a matrix under reduction and of the matrix that collects the inverse. -/
abbrev State (α : Type) := List (List α) × List (List α)

/-- A counted loop `for (j = 0; j < n; j++) body`. -/
def loopN {S : Type} (body : Nat → S → Option S) : Nat → S → Option S
  | 0, s => some s
  | n + 1, s => (loopN body n s).bind (body n)

/-- `v[a].swap(v[b])` -/
def swapRows (m : List (List α)) (a b : Nat) : Option (List (List α)) := do
  let ra ← m[a]?
  let rb ← m[b]?
  some ((m.set a rb).set b ra)

/-- The search for a row below `i` with a usable entry in column `i`: rows `i+1 .. n-1`. -/
def findPivot (usable : α → Bool) (m : List (List α)) (i : Nat) : List Nat → Option (Option Nat)
  | [] => some none
  | j :: js => do
    let row ← m[j]?
    let x ← row[i]?
    if usable x then some (some j) else findPivot usable m i js

/-- The block `if (mat[i][i] is zero) { search, swap }`, common to both functions (okvs_utility.hpp:573-584 and 674-684).
The caller tests `mat[i][i]` again afterwards. -/
def pivot (isZero usable : α → Bool) (n i : Nat) (s : State α) : Option (State α) := do
  let row ← s.1[i]?
  let x ← row[i]?
  if isZero x then
    match ← findPivot usable s.1 i (List.range' (i + 1) (n - (i + 1))) with
    | none => some s
    | some j => do
      let a ← swapRows s.1 i j
      let b ← swapRows s.2 i j
      some (a, b)
  else some s

/-- `for (k = 0; k < n; k++) row[k] = f(k, row[k], other[k])`; entries beyond `n` keep their value. -/
def rowLoop (f : Nat → α → α → α) (n : Nat) (row other : List α) : Option (List α) := do
  let new ← (List.range n).mapM fun k => do
    let x ← row[k]?
    let y ← other[k]?
    some (f k x y)
  some (new ++ row.drop n)

/-- Identity matrix: `Inv` before the loop. -/
def identity (zero one : α) (n : Nat) : List (List α) :=
  (List.range n).map fun i => (List.range n).map fun j => if i = j then one else zero

/-! ### check_invert -/

/-- One pass over row `j` of the elimination loop (okvs_utility.hpp:690-699). -/
def elim2 (n i j : Nat) (s : State UInt8) : Option (State UInt8) := do
  let rj ← s.1[j]?
  let x ← rj[i]?
  if j ≠ i ∧ x ≠ 0 then do
    let ri ← s.1[i]?
    let a ← rowLoop (fun _ p q => p ^^^ q) n rj ri
    let bj ← s.2[j]?
    let bi ← s.2[i]?
    let b ← rowLoop (fun _ p q => p ^^^ q) n bj bi
    some (s.1.set j a, s.2.set j b)
  else some s

/-- okvs_utility.hpp:670-700: columns `i, i+1, ...`; `fuel = n - i`. -/
def main2 (n : Nat) : Nat → Nat → State UInt8 → Option (Bool × List (List UInt8))
  | 0, _, s => some (true, s.2)
  | fuel + 1, i, s => do
    let s ← pivot (· == 0) (· == 1) n i s
    let row ← s.1[i]?
    let x ← row[i]?
    if x = 0 then some (false, s.1)
    else do
      let s ← loopN (elim2 n i) n s
      main2 n fuel (i + 1) s

/-- okvs_utility.hpp:663-704 -/
def checkInvert (m : List (List UInt8)) : Option (Bool × List (List UInt8)) :=
  main2 m.length m.length 0 (m, identity 0 1 m.length)

/-! ### check_invert_gf128 -/

def oneBlock : Block := Block.makeBlock 0#64 1#64

/-- One pass over row `j` of the elimination loop (okvs_utility.hpp:602-613). -/
def elimG (n i j : Nat) (s : State Block) : Option (State Block) :=
  if j ≠ i then do
    let rj ← s.1[j]?
    let x ← rj[i]?
    let ri ← s.1[i]?
    let a ← rowLoop (fun _ p q => p ^^^ GF.mul q x) n rj ri
    let bj ← s.2[j]?
    let bi ← s.2[i]?
    let b ← rowLoop (fun _ p q => p ^^^ GF.mul q x) n bj bi
    some (s.1.set j a, s.2.set j b)
  else some s

/-- The scaling of row `i` (okvs_utility.hpp:589-600). -/
def scaleG (n i : Nat) (c : Block) (s : State Block) : Option (State Block) := do
  let ri ← s.1[i]?
  let bi ← s.2[i]?
  let a ← rowLoop (fun k p _ => if i = k then oneBlock else GF.mul p c) n ri ri
  let b ← rowLoop (fun _ p _ => GF.mul p c) n bi bi
  some (s.1.set i a, s.2.set i b)

/-- okvs_utility.hpp:570-614: columns `i, i+1, ...`; `fuel = n - i`. -/
def mainG (n : Nat) : Nat → Nat → State Block → Option (Bool × List (List Block))
  | 0, _, s => some (true, s.2)
  | fuel + 1, i, s => do
    let s ← pivot (Block.compare · 0#128) (Block.compare · oneBlock) n i s
    let row ← s.1[i]?
    let x ← row[i]?
    if Block.compare x 0#128 then some (false, s.1)
    else do
      let s ← scaleG n i (GF.inv x) s
      let s ← loopN (elimG n i) n s
      mainG n fuel (i + 1) s

/-- okvs_utility.hpp:562-619 -/
def checkInvertGF (m : List (List Block)) : Option (Bool × List (List Block)) :=
  mainG m.length m.length 0 (m, identity 0#128 oneBlock m.length)

end Kunlun.MatInv
