import Verif.Base.Bytes
/-!
Model of the 32-bit hashes of `utility/murmurhash2.hpp`: `MurmurHash2`, `MurmurHash2A`, the incremental `CMurmurHash2A`,
`MurmurHashNeutral2` and `MurmurHashAligned2`.

The message is the list of the `len` bytes at the pointer, so every read below is a read of one of these bytes.  The `int`
lengths of the code are assumed not to overflow (messages below 2^31 bytes).  Not modelled: `MurmurHash64A`, `MurmurHash64B`.
-/

namespace Kunlun.Murmur

open Kunlun

abbrev W := BitVec 32

/-- The mixing constants. -/
def m : W := 0x5bd1e995#32
def r : Nat := 24

/-- `getblock` on a little-endian machine: a 4-byte load (murmurhash2.hpp:42-53). -/
def getblock (a b c d : UInt8) : W := BitVec.ofNat 32 (ofLE [a, b, c, d])

/-- `data[i] << k`: the byte is promoted, shifted and converted to 32 bits. -/
def sh (b : UInt8) (k : Nat) : W := BitVec.ofNat 32 b.toNat <<< k

/-- `mmix` / `MIX` (murmurhash2.hpp:230, 400) and the same lines in MurmurHash2: scramble `k`, then combine it into `h`. -/
def mmix (h k : W) : W :=
  let k := k * m
  let k := k ^^^ (k >>> r)
  let k := k * m
  (h * m) ^^^ k

/-- The final mix, the same in all five functions. -/
def final (h : W) : W :=
  let h := h ^^^ (h >>> 13)
  let h := h * m
  h ^^^ (h >>> 15)

/-- The loop `while (len >= 4)` with `getblock` reads: the hash and the bytes left. -/
def words : W → Bytes → W × Bytes
  | h, a :: b :: c :: d :: rest => words (mmix h (getblock a b c d)) rest
  | h, rest => (h, rest)

/-- `switch (len) { case 3: h ^= ..; case 2: ..; case 1: ..; h *= m; }` -/
def tail (h : W) : Bytes → W
  | [a, b, c] => (((h ^^^ sh c 16) ^^^ sh b 8) ^^^ sh a 0) * m
  | [a, b] => ((h ^^^ sh b 8) ^^^ sh a 0) * m
  | [a] => (h ^^^ sh a 0) * m
  | _ => h

/-- murmurhash2.hpp:72-118 -/
def murmur2 (data : Bytes) (seed : W) : W :=
  let (h, rest) := words (seed ^^^ BitVec.ofNat 32 data.length) data
  final (tail h rest)

/-- The `switch` of MurmurHash2A (murmurhash2.hpp:253-260). -/
def tailWord : Bytes → W
  | [a, b, c] => ((0#32 ^^^ sh c 16) ^^^ sh b 8) ^^^ sh a 0
  | [a, b] => (0#32 ^^^ sh b 8) ^^^ sh a 0
  | [a] => 0#32 ^^^ sh a 0
  | _ => 0#32

/-- murmurhash2.hpp:232-270 -/
def murmur2A (data : Bytes) (seed : W) : W :=
  let (h, rest) := words seed data
  let h := mmix h (tailWord rest)
  final (mmix h (BitVec.ofNat 32 data.length))

/-! ### CMurmurHash2A (murmurhash2.hpp:288-366) -/

structure Hasher where
  hash : W
  tail : W
  count : Nat
  size : W

/-- murmurhash2.hpp:292-298 -/
def begin_ (seed : W) : Hasher := ⟨seed, 0#32, 0, 0#32⟩

/-- murmurhash2.hpp:343-360: `MixTail`; the state and the bytes not consumed. -/
def mixTail : Hasher → Bytes → Hasher × Bytes
  | s, [] => (s, [])
  | s, b :: rest =>
    if (b :: rest).length < 4 ∨ s.count ≠ 0 then
      let s := { s with tail := s.tail ||| sh b (s.count * 8), count := s.count + 1 }
      let s := if s.count = 4 then { s with hash := mmix s.hash s.tail, tail := 0#32, count := 0 } else s
      mixTail s rest
    else (s, b :: rest)

/-- murmurhash2.hpp:300-318 -/
def add (s : Hasher) (data : Bytes) : Hasher :=
  let s := { s with size := s.size + BitVec.ofNat 32 data.length }
  let (s, data) := mixTail s data
  let (h, data) := words s.hash data
  (mixTail { s with hash := h } data).1

/-- murmurhash2.hpp:320-331: the returned value. -/
def end_ (s : Hasher) : W := final (mmix (mmix s.hash s.tail) s.size)

/-! ### MurmurHashNeutral2 (murmurhash2.hpp:374-415) -/

def neutralWords : W → Bytes → W × Bytes
  | h, a :: b :: c :: d :: rest => neutralWords (mmix h (((sh a 0 ||| sh b 8) ||| sh c 16) ||| sh d 24)) rest
  | h, rest => (h, rest)

def neutral2 (data : Bytes) (seed : W) : W :=
  let (h, rest) := neutralWords (seed ^^^ BitVec.ofNat 32 data.length) data
  final (tail h rest)

/-! ### MurmurHashAligned2 (murmurhash2.hpp:427-550) -/

/-- Up to three bytes combined by fall-through `case k: x |= data[k-1] << 8*(k-1)`. -/
def orBytes : Bytes → W
  | [a, b, c] => ((0#32 ||| sh c 16) ||| sh b 8) ||| sh a 0
  | [a, b] => (0#32 ||| sh b 8) ||| sh a 0
  | [a] => 0#32 ||| sh a 0
  | _ => 0#32

/-- The mixing loop (murmurhash2.hpp:464-478): hash, pending word `t`, bytes left. -/
def alignedWords (sl sr : Nat) : W → W → Bytes → W × W × Bytes
  | h, t, a :: b :: c :: d :: rest =>
    let w := getblock a b c d
    alignedWords sl sr (mmix h ((t >>> sr) ||| (w <<< sl))) w rest
  | h, t, rest => (h, t, rest)

/-- `align` is the address of the message modulo 4. -/
def aligned2 (align : Nat) (data : Bytes) (seed : W) : W :=
  let h := seed ^^^ BitVec.ofNat 32 data.length
  if align ≠ 0 ∧ 4 ≤ data.length then
    -- preload (445-457)
    let t := orBytes (data.take (4 - align)) <<< (8 * align)
    let data := data.drop (4 - align)
    let sl := 8 * (4 - align)
    let sr := 8 * align
    let (h, t, data) := alignedWords sl sr h t data
    -- leftover (484-526)
    if align ≤ data.length then
      let d := orBytes (data.take align)
      let h := mmix h ((t >>> sr) ||| (d <<< sl))
      final (tail h (data.drop align))
    else
      let d := orBytes data
      final ((h ^^^ ((t >>> sr) ||| (d <<< sl))) * m)
  else
    let (h, rest) := words h data
    final (tail h rest)

end Kunlun.Murmur
