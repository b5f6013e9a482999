import Verif.Model.Vole
import Verif.Model.Baxos
/-!
Model of `mpc/oprf/vole_oprf.hpp`: the oblivious pseudorandom function from VOLE and the binned OKVS.

The sizes that `Setup` (lines 70-95) computes are those of the `Baxos<gf_128>` object, an arbitrary `BCfg` here (the floating point formulas are
not modelled); `thread_num` is 1 (line 92). `Client1`, `Server1` and `Evaluate1` (lines 247-375) are copies of `Client`, `Server` and `Evaluate`
without the conversion of the result to bytes. Printing and timing are left out.
-/

namespace Kunlun.VOLEOPRF

open Kunlun Kunlun.Proto Kunlun.OKVS Kunlun.Baxos Kunlun.VOLE

variable {G : Type} [AddCommGroup G]

/-- vole_oprf.hpp:8-15 `BlockToV8`. -/
def blockToV8 (l : List Block) : List Bytes := l.map Block.toBytes

/-- vole_oprf.hpp:25-32 `BlockToByte`. -/
def blockToByte (l : List Block) : Bytes := (l.map Block.toBytes).flatten

/-- vole_oprf.hpp:34-41 `ByteToBlock`: an incomplete last block is dropped. -/
def byteToBlock (b : Bytes) : List Block := (List.range (b.length / 16)).map fun i => Block.ofBytes ((b.drop (i * 16)).take 16)

/-- vole_oprf.hpp:86 `okvs_output_size`. -/
def size (c : BCfg) : Nat := c.bins * c.total

/-- vole_oprf.hpp:103-105, 183-184: the hash values of the keys, under the hash key made from the block `r`. -/
def hashes (r : Block) (X : List Block) : List Block := setDense (PRG.setSeed r 0).key X

/-- vole_oprf.hpp:100, 103: `seed_r`. -/
def drawR (salt : Block) : Option Block := (PRG.genRandomBlocks OTE.uninit (PRG.setSeed salt 0) 1).bind fun p => p.1[0]?

/-- vole_oprf.hpp:170-174: `Delta`. -/
def drawDelta (salt : Block) : Option Block := (PRG.genRandomBlocks OTE.uninit (PRG.setSeed salt 0) 2).bind fun p => p.1[1]?

/-- vole_oprf.hpp:125-140, 198-214: the positions the unrolled loops visit: eight at a time, then the rest one by one. -/
def steps (n : Nat) : Nat → Nat → List Nat
  | 0, _ => []
  | fuel + 1, i =>
    if i + 8 ≤ n then i :: (i + 1) :: (i + 2) :: (i + 3) :: (i + 4) :: (i + 5) :: (i + 6) :: (i + 7) :: steps n fuel (i + 8)
    else if i < n then i :: steps n fuel (i + 1) else []

/-- A loop over these positions that changes entry `i` with `f i`. -/
def loop8 (n : Nat) (f : Nat → Block → Option Block) (l : List Block) : Option (List Block) :=
  (steps n (n + 1) 0).foldlM (fun l i => (l[i]?).bind fun x => (f i x).map fun y => l.set i y) l

/-- vole_oprf.hpp:125-140: `P[i] ^= A[i]`. -/
def mask (n : Nat) (A P : List Block) : Option (List Block) := loop8 n (fun i x => (A[i]?).map fun a => x ^^^ a) P

/-- vole_oprf.hpp:198-214: `K[i] ^= gf128_mul(Delta, A[i])`. -/
def unmask (n : Nat) (delta : Block) (A K : List Block) : Option (List Block) := loop8 n (fun i x => (A[i]?).map fun a => x ^^^ GF.mul delta a) K

/-- vole_oprf.hpp:149-150, 231-233: `decode` into a new vector of `num` blocks. The vector must have all the positions of the OKVS (the
accesses are not checked). -/
def dec (c : BCfg) (r : Block) (vec Y : List Block) (num : Nat) : Option (List Block) :=
  if num < Y.length ∨ vec.length < size c then none
  else (decodeAll blockOps c 1 (fun i => vec.getD i 0) (fun _ => 0) (hashes r Y)).map (· ++ List.replicate (num - Y.length) 0)

/-- vole_oprf.hpp:107-114: the system with right-hand side zero, solved into a vector of zeros. -/
def encode0 (c : BCfg) (junk : Nat → Nat → OKVS.Node) (r : Block) (X : List Block) (num : Nat) : Option (List Block) :=
  (solve blockOps c 1 junk (fun _ => none) (hashes r X) (List.replicate num 0) fun _ => 0).map fun P => (List.range (size c)).map P

/-- vole_oprf.hpp:96-146, the messages of `Client`; `fin` is what is done afterwards with the hash key and the vector `C`. `salt` is drawn by
`SetSeed()`, `a` inside `VOLE_A`; `junk` is what `new` leaves in the nodes of the OKVS. -/
def clientThen {α : Type} (e : OTE.Env G) (c : BCfg) (junk : Nat → Nat → OKVS.Node) (salt : Block) (a : ACoins) (X : List Block) (num : Nat)
    (fin : Block → List Block → Option α) : Proc α :=
  match drawR salt with
  | none => .fail
  | some r =>
    match encode0 c junk r X num with
    | none => .fail
    | some P => (voleA e a (size c) 128).bind fun AC => sendBlocks e.net [r] <|
      match mask (size c) AC.1 P with
      | none => .fail
      | some PA => sendBlocks e.net PA <| Proc.ofOption (fin r AC.2)

/-- vole_oprf.hpp:96-161 `Client`: at the end `C` is decoded at the items (lines 149-150, 160). -/
def client (e : OTE.Env G) (c : BCfg) (junk : Nat → Nat → OKVS.Node) (salt : Block) (a : ACoins) (X : List Block) (num : Nat) : Proc (List Bytes) :=
  clientThen e c junk salt a X num fun r C => (dec c r C X num).map blockToV8

/-- vole_oprf.hpp:163-221 `Server`. The result is the hash key that is left in `pp.okvs.seed` and the key returned. -/
def server (e : OTE.Env G) (c : BCfg) (salt : Block) (b : BCoins) : Proc (Block × Bytes) :=
  match drawDelta salt with
  | none => .fail
  | some delta => (voleB e b (size c) 128 delta).bind fun K => recvBlocks e.net 1 fun rs => recvBlocks e.net (size c) fun A =>
    Proc.ofOption ((rs[0]?).bind fun r => (unmask (size c) delta A K).map fun K' => (r, blockToByte K'))

/-- vole_oprf.hpp:223-243 `Evaluate`, with the hash key `r` in `pp.okvs.seed`. -/
def evaluate (c : BCfg) (r : Block) (key : Bytes) (Y : List Block) (num : Nat) : Option (List Bytes) :=
  (dec c r (byteToBlock key) Y num).map blockToV8

/-- vole_oprf.hpp:247-306 `Client1` (for test_voleoprf.cpp): the same, and the blocks are returned. `Server1` (308-361) is `Server` without the
printing of the time. -/
def client1 (e : OTE.Env G) (c : BCfg) (junk : Nat → Nat → OKVS.Node) (salt : Block) (a : ACoins) (X : List Block) (num : Nat) : Proc (List Block) :=
  clientThen e c junk salt a X num fun r C => dec c r C X num

/-- vole_oprf.hpp:364-373 `Evaluate1`. -/
def evaluate1 (c : BCfg) (r : Block) (key : Bytes) (Y : List Block) (num : Nat) : Option (List Block) := dec c r (byteToBlock key) Y num

end Kunlun.VOLEOPRF
