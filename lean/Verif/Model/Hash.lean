import Verif.Model.Prg
/-!
Model of the AES-based part of `crypto/hash.hpp`.  SHA-256 / SM3 (`BasicHash`) and the functions built on them remain parameters
wherever they are used.  The fixed key is the one `AES_Initialize` sets (aes.hpp:217-223).
-/

namespace Kunlun.Hash

open Kunlun Kunlun.AES

/-- aes.hpp:217-222: the key schedule of the all-zero key. -/
def fixedEncKey : Key := genEncKey 0

/-- hash.hpp:39-59 `CBCAES`.  Line 52 loads the blocks from `input`, not from the zero-padded copy `buffer`, so an input whose length is
not a multiple of 16 is read past its end; no input at all means an index `-1`. -/
def cbcAes (input : Bytes) : Option Block := do
  let n := (input.length + 15) / 16
  let data ← (List.range n).mapM fun i => (load input (i * 16) 16).map Block.ofBytes
  let out ← cbcEnc fixedEncKey data
  out.getLast?

/-- hash.hpp:62-73 `Dedicated_CBCAES` on a buffer of 32 bytes. -/
def dedicatedCbcAes (input : Bytes) : Option Bytes := do
  let a ← load input 0 16
  let b ← load input 16 16
  let out ← cbcEnc fixedEncKey [Block.ofBytes a, Block.ofBytes b]
  return PRG.bytesOf out

/-- hash.hpp:183-190 `FastBlocksToBlock`; an empty vector is read at index `-1`. -/
def fastBlocksToBlock (v : List Block) : Option Block := (cbcEnc fixedEncKey v).bind List.getLast?

/-- hash.hpp:210-223 `BlockToBytes(var, output, 32)`. -/
def blockToBytes (v : Block) : Option Bytes := dedicatedCbcAes (Block.toBytes v ++ List.replicate 16 0)

/-- hash.hpp:226-245 `BlockToECPoint`: candidates are tried until one is the x-coordinate of a point.  `decode x yBit` is
`EC_POINT_set_compressed_coordinates`; `fuel` bounds the number of attempts (`none` = none of them succeeded). -/
def blockToPointLoop {G : Type} (decode : Nat → Bool → Option G) (yBit : Bool) : Nat → Bytes → Option G
  | 0, _ => none
  | fuel + 1, buf => (dedicatedCbcAes buf).bind fun buf =>
    match decode (ofBE buf) yBit with
    | some p => some p
    | none => blockToPointLoop decode yBit fuel buf

/-- hash.hpp:226-245, see `blockToPointLoop`. -/
def blockToPoint {G : Type} (decode : Nat → Bool → Option G) (fuel : Nat) (v : Block) : Option G :=
  (blockToBytes v).bind fun buf => blockToPointLoop decode ((buf.getD 0 0).toNat % 2 == 1) fuel buf

end Kunlun.Hash
