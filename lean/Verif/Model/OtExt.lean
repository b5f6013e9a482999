import Verif.Model.NaorPinkas
import Verif.Model.Prg
import Verif.Model.Transpose
/-!
Model of the OT extensions `mpc/ot/iknp_ote.hpp` and `mpc/ot/alsz_ote.hpp`.

The salts of `PRG::SetSeed(nullptr, 0)` and the scalars of the base OT are parameters, as are the hash functions (`kdf` for points, `H`
for block vectors: `Hash::FastBlocksToBlock`). The generator is the concrete one of `Verif/Model/Prg.lean`; its uninitialised local
array, which has no influence (C13), is filled with zeros. After `CheckParameters` all row and column counts are multiples of 128, so the
`memcpy` calls that place column `j` at block offset `j*ROW_NUM/128` build the concatenation of the columns.
-/

namespace Kunlun.OTE

open Kunlun Kunlun.Proto

variable {G : Type} [AddCommGroup G] {α : Type}

/-- The uninitialised array of prg.hpp:95. -/
def uninit : List Block := List.replicate 8 0

/-- `ReSeed(seed, &key, 0)` then `GenRandomBlocks(seed, n)`. -/
def pad (key : Block) (n : Nat) : Option (List Block) := (PRG.genRandomBlocks uninit (PRG.setSeed key 0) n).map (·.1)

/-- Memory of a block vector read back as blocks. -/
def blocksOf (b : Bytes) : List Block := (Chan.rows 16 (b.length / 16) b).map Block.ofBytes

/-- `BitMatrixTranspose` between two block vectors; the destination is zero-initialised with `outLen` blocks. -/
def transposeBlocks (stale : Nat → BitVec 8) (m : List Block) (R C outLen : Nat) : Option (List Block) :=
  (Transpose.bitMatrixTranspose stale (PRG.bytesOf m) R C (List.replicate (16 * outLen) 0)).map blocksOf

/-- Row `i` of a transposed matrix with `w` blocks per row. -/
def row (m : List Block) (w i : Nat) : List Block := (m.drop (i * w)).take w

/-- iknp_ote.hpp:152-168, alsz_ote.hpp:148-179: transpose, then the two keys of each position. -/
def senderKeys (H : List Block → Block) (stale : Nat → BitVec 8) (Q : List Block) (sel : Bytes) (cols rows : Nat) :
    Option (List Block × List Block) := do
  let Qt ← transposeBlocks stale Q cols rows (rows / 128 * cols)
  let s ← Block.fromSparseBytes sel (cols / 128)
  let K1 ← (List.range rows).mapM fun i => (Block.xorVec (row Qt (cols / 128) i) s).map H
  return ((List.range rows).map fun i => H (row Qt (cols / 128) i), K1)

/-- iknp_ote.hpp:226-241, alsz_ote.hpp:240-258. -/
def receiverKeys (H : List Block → Block) (stale : Nat → BitVec 8) (T : List Block) (cols rows : Nat) : Option (List Block) := do
  let Tt ← transposeBlocks stale T cols rows (rows / 128 * cols)
  return (List.range rows).map fun i => H (row Tt (cols / 128) i)

/-- Randomness and environment of one party. -/
structure Env (G : Type) where
  net : Net G
  kdf : G → Block
  H : List Block → Block
  g : G
  stale : Nat → BitVec 8

/-- iknp_ote.hpp:16-22, alsz_ote.hpp:19-25 `CheckParameters`. -/
def checkParameters (rows cols : Nat) : Bool := rows % 128 = 0 ∧ cols % 128 = 0

/-- The selection bits the sender draws. -/
def senderBits (salt : Block) (cols : Nat) : Option Bytes := (PRG.genRandomBits uninit (PRG.setSeed salt 0) cols).map (·.1)

namespace IKNP

/-- iknp_ote.hpp:126-148: receive and decrypt column `j`, `n` columns to go. -/
def recvCols (net : Net G) (w : Nat) (K : List Block) (sel : Bytes) : Nat → Nat → List Block → (List Block → Proc α) → Proc α
  | 0, _, acc, k => k acc
  | n + 1, j, acc, k =>
    recvBlocks net w fun C0 => recvBlocks net w fun C1 =>
    match (pad (K.getD j 0) w).bind fun p => Block.xorVec (if sel.getD j 0 = 0 then C0 else C1) p with
    | none => .fail
    | some col => recvCols net w K sel n (j + 1) (acc ++ col) k

/-- iknp_ote.hpp:97-169 `RandomSend`. -/
def randomSend (e : Env G) (cols : Nat) (salt : Block) (sk : Nat → ℤ) (rows : Nat) : Proc (List Block × List Block) :=
  match senderBits salt cols with
  | none => .fail
  | some sel => (NPOT.receive e.net e.kdf e.g sk sel cols).bind fun K =>
    recvCols e.net (rows / 128) K sel cols 0 [] fun Q => Proc.ofOption (senderKeys e.H e.stale Q sel cols rows)

/-- iknp_ote.hpp:203-217: the two ciphertexts of column `j`. -/
def encCol (w : Nat) (T : List Block) (K0 K1 selBlock : List Block) (j : Nat) : Option (List Block × List Block) := do
  let m0 := row T w j
  let m1 ← Block.xorVec m0 selBlock
  let p0 ← pad (K0.getD j 0) w
  let C0 ← Block.xorVec m0 p0
  let p1 ← pad (K1.getD j 0) w
  let C1 ← Block.xorVec m1 p1
  return (C0, C1)

/-- iknp_ote.hpp:200-221: `n` columns to go from column `j`. -/
def sendCols (net : Net G) (w : Nat) (T K0 K1 selBlock : List Block) : Nat → Nat → Proc α → Proc α
  | 0, _, k => k
  | n + 1, j, k =>
    match encCol w T K0 K1 selBlock j with
    | none => .fail
    | some (C0, C1) => sendBlocks net C0 <| sendBlocks net C1 <| sendCols net w T K0 K1 selBlock n (j + 1) k

/-- iknp_ote.hpp:174-182: matrix and seeds drawn by the receiver. -/
def receiverDraws (salt : Block) (rows cols : Nat) : Option (List Block × List Block × List Block) := do
  let (T, s1) ← PRG.genRandomBitMatrix uninit (PRG.setSeed salt 0) rows cols
  let (K0, s2) ← PRG.genRandomBlocks uninit s1 cols
  let (K1, _) ← PRG.genRandomBlocks uninit s2 cols
  return (T, K0, K1)

/-- iknp_ote.hpp:171-242 `RandomReceive`. -/
def randomReceive (e : Env G) (cols : Nat) (salt : Block) (d : ℤ) (r : Nat → ℤ) (sel : Bytes) (rows : Nat) : Proc (List Block) :=
  match receiverDraws salt rows cols with
  | none => .fail
  | some (T, K0, K1) => (NPOT.send e.net e.kdf e.g d r K0 K1 cols).bind fun _ =>
    match Block.fromSparseBytes sel (rows / 128) with
    | none => .fail
    | some selBlock => sendCols e.net (rows / 128) T K0 K1 selBlock cols 0 <| Proc.ofOption (receiverKeys e.H e.stale T cols rows)

end IKNP

namespace ALSZ

/-- alsz_ote.hpp:127-134: matrix `Q` from the seeds. -/
def expand (w : Nat) (seeds : List Block) (cols : Nat) : Option (List Block) :=
  ((List.range cols).mapM fun j => pad (seeds.getD j 0) w).map List.flatten

/-- alsz_ote.hpp:140-146: `Q[j*ROW/128 + i] ^= P[j*ROW/128 + i]` where the bit is 1. -/
def adjust (w : Nat) (Q P : List Block) (sel : Bytes) : List Block :=
  Q.mapIdx fun k q => if sel.getD (k / w) 0 = 1 then q ^^^ P.getD k 0 else q

/-- alsz_ote.hpp:99-180 `RandomSend`. -/
def randomSend (e : Env G) (cols : Nat) (salt : Block) (sk : Nat → ℤ) (rows : Nat) : Proc (List Block × List Block) :=
  if !checkParameters rows cols then .fail else
  match senderBits salt cols with
  | none => .fail
  | some sel => (NPOT.receive e.net e.kdf e.g sk sel cols).bind fun seeds =>
    match expand (rows / 128) seeds cols with
    | none => .fail
    | some Q => recvBlocks e.net (rows / 128 * cols) fun P =>
      Proc.ofOption (senderKeys e.H e.stale (adjust (rows / 128) Q P sel) sel cols rows)

/-- alsz_ote.hpp:196-197: seeds drawn by the receiver. -/
def receiverDraws (salt : Block) (cols : Nat) : Option (List Block × List Block) := do
  let (T, s) ← PRG.genRandomBlocks uninit (PRG.setSeed salt 0) cols
  let (U, _) ← PRG.genRandomBlocks uninit s cols
  return (T, U)

/-- alsz_ote.hpp:217-233: column `j` of `T` and of the adjust matrix `P`. -/
def column (w : Nat) (ts us selBlock : List Block) (j : Nat) : Option (List Block × List Block) := do
  let T ← pad (ts.getD j 0) w
  let U ← pad (us.getD j 0) w
  let P ← Block.xorVec T U
  let P ← Block.xorVec P selBlock
  return (T, P)

/-- alsz_ote.hpp:184-259 `RandomReceive`. -/
def randomReceive (e : Env G) (cols : Nat) (salt : Block) (d : ℤ) (r : Nat → ℤ) (sel : Bytes) (rows : Nat) : Proc (List Block) :=
  if !checkParameters rows cols then .fail else
  match receiverDraws salt cols with
  | none => .fail
  | some (ts, us) => (NPOT.send e.net e.kdf e.g d r ts us cols).bind fun _ =>
    match (Block.fromSparseBytes sel (rows / 128)).bind fun selBlock => (List.range cols).mapM (column (rows / 128) ts us selBlock) with
    | none => .fail
    | some TP => sendBlocks e.net (TP.map (·.2)).flatten <| Proc.ofOption (receiverKeys e.H e.stale (TP.map (·.1)).flatten cols rows)

end ALSZ

/-! The payload phase is the same text in both files. `rs` and `rr` stand for `RandomSend` and `RandomReceive`. -/

/-- iknp_ote.hpp:244-288, alsz_ote.hpp:261-305 `Send`. -/
def send (net : Net G) (rs : Proc (List Block × List Block)) (cols : Nat) (m0 m1 : List Block) (len : Nat) : Proc Unit :=
  if !checkParameters len cols then .fail else
  rs.bind fun K =>
  if m0.length < len ∨ m1.length < len then .fail else
  sendBlocks net ((List.range len).map fun i => m0.getD i 0 ^^^ K.1.getD i 0) <|
  sendBlocks net ((List.range len).map fun i => m1.getD i 0 ^^^ K.2.getD i 0) <| .done ()

/-- iknp_ote.hpp:291-345, alsz_ote.hpp:308-362 `Receive`. -/
def receive (net : Net G) (rr : Proc (List Block)) (cols : Nat) (sel : Bytes) (len : Nat) : Proc (List Block) :=
  if !checkParameters len cols then .fail else
  rr.bind fun K => recvBlocks net len fun C0 => recvBlocks net len fun C1 =>
  .done ((List.range len).map fun i => (if sel.getD i 0 = 0 then C0.getD i 0 else C1.getD i 0) ^^^ K.getD i 0)

/-- iknp_ote.hpp:347-394, alsz_ote.hpp:364-411 `OnesidedSend`. -/
def onesidedSend (net : Net G) (rs : Proc (List Block × List Block)) (cols : Nat) (m : List Block) (len : Nat) : Proc Unit :=
  if !checkParameters len cols then .fail else
  rs.bind fun K =>
  if m.length < len then .fail else
  sendBlocks net ((List.range len).map fun i => m.getD i 0 ^^^ K.2.getD i 0) <| .done ()

/-- iknp_ote.hpp:397-441, alsz_ote.hpp:414-458 `OnesidedReceive`. -/
def onesidedReceive (net : Net G) (rr : Proc (List Block)) (cols : Nat) (sel : Bytes) (len : Nat) : Proc (List Block) :=
  if !checkParameters len cols then .fail else
  rr.bind fun K => recvBlocks net len fun C =>
  .done ((List.range len).filterMap fun i => if sel.getD i 0 = 1 then some (C.getD i 0 ^^^ K.getD i 0) else none)

/-- alsz_ote.hpp:468-506 `OnesidedSendByteVector`. -/
def onesidedSendBytes (net : Net G) (rs : Proc (List Block × List Block)) (m : List Bytes) (len : Nat) : Proc Unit :=
  rs.bind fun K =>
  match (List.range len).mapM fun i => m[i]?.bind fun x => PRG.otpEnc uninit (K.2.getD i 0) x with
  | none => .fail
  | some C => sendBytesVector net C <| .done ()

/-- alsz_ote.hpp:508-545 `OnesidedReceiveByteVector`. -/
def onesidedReceiveBytes (net : Net G) (rr : Proc (List Block)) (sel : Bytes) (len : Nat) : Proc (List Bytes) :=
  rr.bind fun K => recvBytesVector net fun C =>
  Proc.ofOption (((List.range len).mapM fun i =>
    if sel.getD i 0 = 1 then C[i]?.bind fun c => (PRG.otpDec uninit (K.getD i 0) c).map some else some none).map fun l => l.filterMap id)

/-- alsz_ote.hpp:548-590 `SendByteVector`. -/
def sendBytesPairs (net : Net G) (rs : Proc (List Block × List Block)) (m0 m1 : List Bytes) (len : Nat) : Proc Unit :=
  rs.bind fun K =>
  match (List.range len).mapM (fun i => m0[i]?.bind fun x => PRG.otpEnc uninit (K.1.getD i 0) x),
      (List.range len).mapM (fun i => m1[i]?.bind fun x => PRG.otpEnc uninit (K.2.getD i 0) x) with
  | some C0, some C1 => sendBytesVector net C0 <| sendBytesVector net C1 <| .done ()
  | _, _ => .fail

/-- alsz_ote.hpp:592-633 `ReceiveByteVector`. -/
def receiveBytes (net : Net G) (rr : Proc (List Block)) (sel : Bytes) (len : Nat) : Proc (List Bytes) :=
  rr.bind fun K => recvBytesVector net fun C0 => recvBytesVector net fun C1 =>
  Proc.ofOption ((List.range len).mapM fun i =>
    (if sel.getD i 0 = 1 then C1[i]? else C0[i]?).bind fun c => PRG.otpDec uninit (K.getD i 0) c)

end Kunlun.OTE
