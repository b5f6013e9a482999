import Verif.Model.Serialization
/-!
Model of `netio/stream_channel.hpp`: two parties connected by a byte stream.

The operating system may transfer any number of bytes in each `fwrite`/`fread` and interleave the two parties arbitrarily; this is
an arbitrary list of actions.  A receiving party is a program that asks for byte counts; what it asks for may depend on what it
received (`ReceiveBytesVector`).  Connection set-up (stream_channel.hpp:89-188) is not modelled.
-/

namespace Kunlun.Chan

open Kunlun

/-- A receiving party: finished with a value, or inside `ReceiveDataInternal(buf, n)` with the rest of the program after it. -/
inductive Prog (α : Type) where
  | done (v : α)
  | recv (n : Nat) (k : Bytes → Prog α)

namespace Prog

/-- Sequential composition. -/
def bind {α β : Type} : Prog α → (α → Prog β) → Prog β
  | .done v, f => f v
  | .recv n k, f => .recv n (fun b => (k b).bind f)

/-- Direct semantics on a byte string that is completely available: value and unread rest. -/
def run {α : Type} : Prog α → Bytes → Option (α × Bytes)
  | .done v, s => some (v, s)
  | .recv n k, s => if s.length < n then none else (k (s.take n)).run (s.drop n)

end Prog

/-- State of a connection used in one direction: the calls `SendDataInternal` still to be made (the first may be partly done), the
bytes in flight, the bytes of the current `ReceiveDataInternal` already stored, and the receiver's program. -/
structure State (α : Type) where
  unsent : List Bytes
  wire : Bytes
  got : Bytes
  prog : Prog α

/-- One scheduling event. -/
inductive Act where
  /-- one `fwrite` in the loop of stream_channel.hpp:204-208, transferring at most `k` bytes -/
  | send (k : Nat)
  /-- one `fread` in the loop of stream_channel.hpp:221-225, transferring at most `k` bytes (or leaving the loop when complete) -/
  | recv (k : Nat)

/-- stream_channel.hpp:200-226 `SendDataInternal` and `ReceiveDataInternal`, one loop iteration at a time. -/
def step {α : Type} (s : State α) : Act → State α
  | .send k =>
    match s.unsent with
    | [] => s
    | d :: ds =>
      if d.length ≤ k then { s with unsent := ds, wire := s.wire ++ d }
      else { s with unsent := d.drop k :: ds, wire := s.wire ++ d.take k }
  | .recv k =>
    match s.prog with
    | .done _ => s
    | .recv n f =>
      let m := min k (min (n - s.got.length) s.wire.length)
      let got := s.got ++ s.wire.take m
      if got.length = n then { s with wire := s.wire.drop m, got := [], prog := f got }
      else { s with wire := s.wire.drop m, got := got }

/-- A whole schedule. -/
def exec {α : Type} (s : State α) (acts : List Act) : State α := acts.foldl step s

/-- Start: nothing sent yet. -/
def start {α : Type} (chunks : List Bytes) (p : Prog α) : State α := ⟨chunks, [], [], p⟩

/-! ### Typed messages -/

/-- What one party sends with one typed call. -/
inductive Msg (G : Type) where
  /-- `SendBytes`, `SendBits`, `SendString`, stream_channel.hpp:229-277 -/
  | bytes (b : Bytes)
  /-- `SendInteger` of a `w`-byte unsigned integer, stream_channel.hpp:403-412 -/
  | int (w v : Nat)
  /-- `SendBlock(s)`, stream_channel.hpp:239-247, 415-423: blocks as 16-byte little-endian numbers -/
  | blocks (vs : List Nat)
  /-- `SendBigInt(a)` / `SendBigInt(a, LEN)`, stream_channel.hpp:373-401 -/
  | big (len : Nat) (v : Int)
  /-- `SendECPoint(s)`, stream_channel.hpp:279-320, 345-371 -/
  | points (ps : List G)
  /-- `SendEC25519Points`, stream_channel.hpp:323-341: each point is 32 bytes -/
  | x25519 (ps : List Bytes)
  /-- `SendBytesVector`, stream_channel.hpp:427-458 -/
  | bytesVector (vs : List Bytes)
  /-- `SendStringVector(A, LEN)`, stream_channel.hpp:461-489 -/
  | stringVector (len : Nat) (vs : List Bytes)
deriving DecidableEq

/-- What the receiver must know beforehand for the matching typed call. -/
inductive Shape where
  | bytes (n : Nat)
  | int (w : Nat)
  | blocks (n : Nat)
  | big (len : Nat)
  | points (n : Nat)
  | x25519 (n : Nat)
  | bytesVector
  | stringVector (len : Nat)

variable {G : Type}

/-- `memcpy(buffer + i*LEN, A[i].data(), LEN)` for all i: the first `LEN` bytes of each item; reading past an item is undefined. -/
def packRows (len : Nat) (vs : List Bytes) : Option Bytes :=
  if vs.all (fun v => len ≤ v.length) then some (vs.map (List.take len)).flatten else none

/-- The calls of `SendDataInternal` made by a typed send; `none` is undefined behaviour (`A[0]` of an empty vector, a row shorter
than the first one). `g` is the content of uninitialised buffers (points). -/
def sendMsg (C : Ser.PointCodec G) (g : Nat → Bytes) : Msg G → Option (List Bytes)
  | .bytes b => some [b]
  | .int w v => some [leBytes w v]
  | .blocks vs => some [(vs.map (leBytes 16)).flatten]
  | .big len v => some [BigInt.bn2binpad v (List.replicate len 0)]
  | .points ps => some [(ps.map (Ser.putPoint C (g C.byteLen))).flatten]
  | .x25519 ps => some [ps.flatten]
  | .bytesVector [] => none
  | .bytesVector (v :: vs) => do
    let body ← packRows v.length (v :: vs)
    some [leBytes 8 (vs.length + 1), leBytes 8 v.length, body]
  | .stringVector len vs => do
    let body ← packRows len vs
    some [leBytes 8 vs.length, body]

/-- Cut into `n` rows of `len` bytes (stream_channel.hpp:453-455 and the like). -/
def rows (len : Nat) : Nat → Bytes → List Bytes
  | 0, _ => []
  | n + 1, b => b.take len :: rows len n (b.drop len)

/-- The matching typed receive; `olds` gives the previous values of the destination points. -/
def recvMsg (C : Ser.PointCodec G) (olds : Nat → G) : Shape → Prog (Msg G)
  | .bytes n => .recv n (fun b => .done (.bytes b))
  | .int w => .recv w (fun b => .done (.int w (ofLE b)))
  | .blocks n => .recv (n * 16) (fun b => .done (.blocks ((rows 16 n b).map ofLE)))
  | .big len => .recv len (fun b => .done (.big len (BigInt.bin2bn b)))
  | .points n => .recv (n * C.byteLen) (fun b =>
      .done (.points ((rows C.byteLen n b).mapIdx (fun i r => (C.dec r).getD (olds i)))))
  | .x25519 n => .recv (32 * n) (fun b => .done (.x25519 (rows 32 n b)))
  | .bytesVector => .recv 8 (fun b1 => .recv 8 (fun b2 =>
      .recv (ofLE b2 * ofLE b1 % 2 ^ 64) (fun b => .done (.bytesVector (rows (ofLE b2) (ofLE b1) b)))))
  | .stringVector len => .recv 8 (fun b1 => .recv (len * ofLE b1 % 2 ^ 64) (fun b =>
      .done (.stringVector len (rows len (ofLE b1) b))))

/-- A sequence of typed sends. -/
def sendAll (C : Ser.PointCodec G) (g : Nat → Bytes) : List (Msg G) → Option (List Bytes)
  | [] => some []
  | m :: ms => do
    let a ← sendMsg C g m
    let b ← sendAll C g ms
    some (a ++ b)

/-- A sequence of typed receives. -/
def recvAll (C : Ser.PointCodec G) (olds : Nat → G) : List Shape → Prog (List (Msg G))
  | [] => .done []
  | s :: ss => (recvMsg C olds s).bind (fun m => (recvAll C olds ss).bind (fun ms => .done (m :: ms)))

end Kunlun.Chan
