import Verif.Model.Proto
import Verif.Model.Group
/-!
Model of `mpc/ot/naor_pinkas_ot.hpp`: Naor-Pinkas oblivious transfer.

Drawn scalars are parameters (`d`, `r i`, `sk i`), as is the hash `kdf` of points (`Hash::ECPointToBlock`). The parallel loops touch
only their own index, so they are maps. Size checks only print, so a vector that is too short is read out of range (`fail`).
-/

namespace Kunlun.NPOT

open Kunlun Kunlun.Proto

variable {G : Type} [AddCommGroup G]

/-- naor_pinkas_ot.hpp:103-108, 124-129: session keys of position `i`. -/
def key0 (r : Nat → ℤ) (pk0 : List G) (i : Nat) : G := r i • pk0.getD i 0

def key1 (C : G) (r : Nat → ℤ) (pk0 : List G) (i : Nat) : G := r i • C - key0 r pk0 i

/-- naor_pinkas_ot.hpp:85-147 `Send`. -/
def send (net : Net G) (kdf : G → Block) (g : G) (d : ℤ) (r : Nat → ℤ) (m0 m1 : List Block) (len : Nat) : Proc Unit :=
  let C := d • g
  sendPoints net [C] <| sendPoints net ((List.range len).map fun i => r i • g) <| recvPoints net len fun pk0 =>
  if m0.length < len ∨ m1.length < len then .fail else
  sendBlocks net ((List.range len).map fun i => kdf (key0 r pk0 i) ^^^ m0.getD i 0) <|
  sendBlocks net ((List.range len).map fun i => kdf (key1 C r pk0 i) ^^^ m1.getD i 0) <| .done ()

/-- naor_pinkas_ot.hpp:167-173: the public key sent for position `i`. -/
def pk0 (g C : G) (sk : Nat → ℤ) (sel : Bytes) (i : Nat) : G := if sel.getD i 0 = 1 then C - sk i • g else sk i • g

/-- naor_pinkas_ot.hpp:149-210 `Receive`. -/
def receive (net : Net G) (kdf : G → Block) (g : G) (sk : Nat → ℤ) (sel : Bytes) (len : Nat) : Proc (List Block) :=
  recvPoints net 1 fun Cs => recvPoints net len fun X =>
  if sel.length < len then .fail else
  sendPoints net ((List.range len).map (pk0 g (Cs.getD 0 0) sk sel)) <|
  recvBlocks net len fun Y0 => recvBlocks net len fun Y1 =>
  .done ((List.range len).map fun i => (if sel.getD i 0 = 0 then Y0.getD i 0 else Y1.getD i 0) ^^^ kdf (sk i • X.getD i 0))

end Kunlun.NPOT
