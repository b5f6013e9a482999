import Verif.Model.Dlog
import Verif.Base.Bytes
import Mathlib.Data.Nat.Digits.Lemmas
/-!
The files that hold the tables of the discrete-logarithm search: `ToHexString` of `utility/routines.hpp`, the name of a file
(`pke/calculate_dlog.hpp: GetTableFileName`) and `Initialize` of the two exponential ElGamal schemes on a disk.

Characters are their codes (bytes). `H` is `Hash::ECPointToString` (hash.hpp:136-148), any function. A disk maps file names to the table
files `BuildSaveTable` writes; files of other programs are not modelled.
-/

namespace Kunlun.Dlog

open Kunlun

/-- One digit, upper case. -/
def digitChar (n : Nat) : UInt8 := if n < 10 then UInt8.ofNat (48 + n) else UInt8.ofNat (55 + n)

/-- A number without leading zeros: `ss << std::hex << i` followed by `toupper` for `base = 16`, `std::to_string` for `base = 10`. -/
def numeral (base n : Nat) : Bytes := if n = 0 then [48] else ((Nat.digits base n).reverse).map digitChar

/-- routines.hpp:30 `int(item)`: `char` is signed (x86-64), and the stream prints the 32 bits of a negative number. -/
def charInt (b : UInt8) : Nat := if b.toNat < 128 then b.toNat else 2 ^ 32 - 256 + b.toNat

/-- routines.hpp:24-37 `ToHexString`. -/
def toHexString (s : Bytes) : Bytes := s.flatMap fun b => numeral 16 (charInt b)

section
variable {G : Type}

/-- calculate_dlog.hpp:64-80 `GetTableFileName`, for parameters `CheckDlogParameters` lets through (the differences do not wrap).
91 `[`, 50 `2`, 94 `^`, 44 `,`, 93 `]`, then `.table`. -/
def tableFileName (H : G → Bytes) (g : G) (L T : Nat) : Bytes :=
  (toHexString (H g)).take 16 ++ [91] ++ (numeral 10 2 ++ [94] ++ numeral 10 L) ++ [44] ++
    (numeral 10 2 ++ [94] ++ numeral 10 (L / 2 + T)) ++ [44] ++
    (numeral 10 2 ++ [94] ++ numeral 10 (L / 2 - T - Nat.log2 searchTaskNum)) ++ [93, 46, 116, 97, 98, 108, 101]

/-- The table files in the working directory. -/
abbrev Disk (G : Type) := Bytes → Option (TableFile G)

/-- A disk with one more file. -/
def Disk.write (d : Disk G) (name : Bytes) (f : TableFile G) : Disk G := fun n => if n = name then some f else d n

variable [AddCommGroup G] [DecidableEq G]

/-- exponential_elgamal.hpp:154-170 and twisted_exponential_elgamal.hpp:160-176 `Initialize` on a disk: the file is built unless a file of
that name exists (which also sets the global points), then loaded; `LoadTable` exits if the size of the file is not the one computed from
the parameters (calculate_dlog.hpp:210-224). `none` is an `exit`. -/
def initDisk (H : G → Bytes) (key : G → BitVec 64) (d : Disk G) (gl : Globals G) (g : G) (L T : Nat) : Option (Disk G × Globals G) :=
  if checkParams L T then
    let name := tableFileName H g L T
    let f := buildTable key g L T
    let d' := if (d name).isNone then d.write name f else d
    let gl' := if (d name).isNone then { gl with giant := f.giant, anchors := f.anchors } else gl
    (d' name).bind fun f => if f.keys.length ≠ babyNum L T then none else some (d', loadTable gl' f)
  else none

/-- A sequence of programs, each of which initialises one scheme; globals start anew in each program. The last globals are returned. -/
def programs (H : G → Bytes) (key : G → BitVec 64) : Disk G → List (G × Nat × Nat) → Option (Disk G)
  | d, [] => some d
  | d, (g, L, T) :: rest => (initDisk H key d Globals.init g L T).bind fun r => programs H key r.1 rest

end

end Kunlun.Dlog
