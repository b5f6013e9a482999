import Verif.Base.Bytes
/-! Model of `LiteMurmurHash`, `utility/murmurhash3.hpp:342-383`, the hash used by both filters. -/

namespace Kunlun.LiteMurmur

open Kunlun

/-- Little-endian load of the first bytes as an unsigned 32-bit word (the `reinterpret_cast`s of murmurhash3.hpp:354-371). -/
def word (b : Bytes) : UInt32 := UInt32.ofNat (ofLE b)

/-- murmurhash3.hpp:353-358: the loop over 8-byte groups. -/
def groups : UInt32 → Bytes → UInt32 × Bytes
  | d, b0 :: b1 :: b2 :: b3 :: b4 :: b5 :: b6 :: b7 :: rest =>
    let a := word [b0, b1, b2, b3]
    let b := word [b4, b5, b6, b7]
    groups (d ^^^ ((d <<< 7) ^^^ (a * (d >>> 3)) ^^^ (~~~((d <<< 11) + (b ^^^ (d >>> 5)))))) rest
  | d, rest => (d, rest)

/-- murmurhash3.hpp:360-366: the 4-byte group (`loop` is 0 here, so only the `else` branch is reachable). -/
def tail4 (d : UInt32) (loop : UInt32) : Bytes → UInt32 × UInt32 × Bytes
  | b0 :: b1 :: b2 :: b3 :: rest => (d ^^^ (~~~((d <<< 11) + (word [b0, b1, b2, b3] ^^^ (d >>> 5)))), loop + 1, rest)
  | rest => (d, loop, rest)

/-- murmurhash3.hpp:368-374: the 2-byte group. -/
def tail2 (d : UInt32) (loop : UInt32) : Bytes → UInt32 × UInt32 × Bytes
  | b0 :: b1 :: rest =>
    let w := word [b0, b1]
    let d' := if loop &&& 1 != 0 then d ^^^ ((d <<< 7) ^^^ (w * (d >>> 3))) else d ^^^ (~~~((d <<< 11) + (w ^^^ (d >>> 5))))
    (d', loop + 1, rest)
  | rest => (d, loop, rest)

/-- murmurhash3.hpp:376-380: the last byte. -/
def tail1 (d : UInt32) (loop : UInt32) : Bytes → UInt32
  | [b0] => d + ((word [b0] ^^^ (d * 0xA5A5A5A5)) + loop)
  | _ => d

/-- murmurhash3.hpp:342-383 `LiteMurmurHash`. -/
def hash (salt : UInt32) (m : Bytes) : UInt32 :=
  let (d, m) := groups salt m
  let (d, l, m) := tail4 d 0 m
  let (d, l, m) := tail2 d l m
  tail1 d l m

/-- murmurhash3.hpp:9 `fixed_salt32`. -/
def fixedSalt : UInt32 := 0xAAAA

end Kunlun.LiteMurmur
