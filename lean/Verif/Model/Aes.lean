import Verif.Model.Block
/-!
Model of `crypto/aes.hpp` with the real AES-128 (the AES-NI instructions are defined here from FIPS 197 / the instruction
reference), of `crypto/prg.hpp` and of `crypto/otp.hpp`.

Loop counters are `int` in the code; lengths are assumed to be below 2^31.
-/

namespace Kunlun.AES

open Kunlun

/-! ### AES-NI instructions -/

/-- The AES substitution table, FIPS 197 figure 7. -/
def sboxTable : List Nat :=
  [0x63, 0x7c, 0x77, 0x7b, 0xf2, 0x6b, 0x6f, 0xc5, 0x30, 0x01, 0x67, 0x2b, 0xfe, 0xd7, 0xab, 0x76,
   0xca, 0x82, 0xc9, 0x7d, 0xfa, 0x59, 0x47, 0xf0, 0xad, 0xd4, 0xa2, 0xaf, 0x9c, 0xa4, 0x72, 0xc0,
   0xb7, 0xfd, 0x93, 0x26, 0x36, 0x3f, 0xf7, 0xcc, 0x34, 0xa5, 0xe5, 0xf1, 0x71, 0xd8, 0x31, 0x15,
   0x04, 0xc7, 0x23, 0xc3, 0x18, 0x96, 0x05, 0x9a, 0x07, 0x12, 0x80, 0xe2, 0xeb, 0x27, 0xb2, 0x75,
   0x09, 0x83, 0x2c, 0x1a, 0x1b, 0x6e, 0x5a, 0xa0, 0x52, 0x3b, 0xd6, 0xb3, 0x29, 0xe3, 0x2f, 0x84,
   0x53, 0xd1, 0x00, 0xed, 0x20, 0xfc, 0xb1, 0x5b, 0x6a, 0xcb, 0xbe, 0x39, 0x4a, 0x4c, 0x58, 0xcf,
   0xd0, 0xef, 0xaa, 0xfb, 0x43, 0x4d, 0x33, 0x85, 0x45, 0xf9, 0x02, 0x7f, 0x50, 0x3c, 0x9f, 0xa8,
   0x51, 0xa3, 0x40, 0x8f, 0x92, 0x9d, 0x38, 0xf5, 0xbc, 0xb6, 0xda, 0x21, 0x10, 0xff, 0xf3, 0xd2,
   0xcd, 0x0c, 0x13, 0xec, 0x5f, 0x97, 0x44, 0x17, 0xc4, 0xa7, 0x7e, 0x3d, 0x64, 0x5d, 0x19, 0x73,
   0x60, 0x81, 0x4f, 0xdc, 0x22, 0x2a, 0x90, 0x88, 0x46, 0xee, 0xb8, 0x14, 0xde, 0x5e, 0x0b, 0xdb,
   0xe0, 0x32, 0x3a, 0x0a, 0x49, 0x06, 0x24, 0x5c, 0xc2, 0xd3, 0xac, 0x62, 0x91, 0x95, 0xe4, 0x79,
   0xe7, 0xc8, 0x37, 0x6d, 0x8d, 0xd5, 0x4e, 0xa9, 0x6c, 0x56, 0xf4, 0xea, 0x65, 0x7a, 0xae, 0x08,
   0xba, 0x78, 0x25, 0x2e, 0x1c, 0xa6, 0xb4, 0xc6, 0xe8, 0xdd, 0x74, 0x1f, 0x4b, 0xbd, 0x8b, 0x8a,
   0x70, 0x3e, 0xb5, 0x66, 0x48, 0x03, 0xf6, 0x0e, 0x61, 0x35, 0x57, 0xb9, 0x86, 0xc1, 0x1d, 0x9e,
   0xe1, 0xf8, 0x98, 0x11, 0x69, 0xd9, 0x8e, 0x94, 0x9b, 0x1e, 0x87, 0xe9, 0xce, 0x55, 0x28, 0xdf,
   0x8c, 0xa1, 0x89, 0x0d, 0xbf, 0xe6, 0x42, 0x68, 0x41, 0x99, 0x2d, 0x0f, 0xb0, 0x54, 0xbb, 0x16]

/-- The inverse substitution table, FIPS 197 figure 14. -/
def invSboxTable : List Nat :=
  [0x52, 0x09, 0x6a, 0xd5, 0x30, 0x36, 0xa5, 0x38, 0xbf, 0x40, 0xa3, 0x9e, 0x81, 0xf3, 0xd7, 0xfb,
   0x7c, 0xe3, 0x39, 0x82, 0x9b, 0x2f, 0xff, 0x87, 0x34, 0x8e, 0x43, 0x44, 0xc4, 0xde, 0xe9, 0xcb,
   0x54, 0x7b, 0x94, 0x32, 0xa6, 0xc2, 0x23, 0x3d, 0xee, 0x4c, 0x95, 0x0b, 0x42, 0xfa, 0xc3, 0x4e,
   0x08, 0x2e, 0xa1, 0x66, 0x28, 0xd9, 0x24, 0xb2, 0x76, 0x5b, 0xa2, 0x49, 0x6d, 0x8b, 0xd1, 0x25,
   0x72, 0xf8, 0xf6, 0x64, 0x86, 0x68, 0x98, 0x16, 0xd4, 0xa4, 0x5c, 0xcc, 0x5d, 0x65, 0xb6, 0x92,
   0x6c, 0x70, 0x48, 0x50, 0xfd, 0xed, 0xb9, 0xda, 0x5e, 0x15, 0x46, 0x57, 0xa7, 0x8d, 0x9d, 0x84,
   0x90, 0xd8, 0xab, 0x00, 0x8c, 0xbc, 0xd3, 0x0a, 0xf7, 0xe4, 0x58, 0x05, 0xb8, 0xb3, 0x45, 0x06,
   0xd0, 0x2c, 0x1e, 0x8f, 0xca, 0x3f, 0x0f, 0x02, 0xc1, 0xaf, 0xbd, 0x03, 0x01, 0x13, 0x8a, 0x6b,
   0x3a, 0x91, 0x11, 0x41, 0x4f, 0x67, 0xdc, 0xea, 0x97, 0xf2, 0xcf, 0xce, 0xf0, 0xb4, 0xe6, 0x73,
   0x96, 0xac, 0x74, 0x22, 0xe7, 0xad, 0x35, 0x85, 0xe2, 0xf9, 0x37, 0xe8, 0x1c, 0x75, 0xdf, 0x6e,
   0x47, 0xf1, 0x1a, 0x71, 0x1d, 0x29, 0xc5, 0x89, 0x6f, 0xb7, 0x62, 0x0e, 0xaa, 0x18, 0xbe, 0x1b,
   0xfc, 0x56, 0x3e, 0x4b, 0xc6, 0xd2, 0x79, 0x20, 0x9a, 0xdb, 0xc0, 0xfe, 0x78, 0xcd, 0x5a, 0xf4,
   0x1f, 0xdd, 0xa8, 0x33, 0x88, 0x07, 0xc7, 0x31, 0xb1, 0x12, 0x10, 0x59, 0x27, 0x80, 0xec, 0x5f,
   0x60, 0x51, 0x7f, 0xa9, 0x19, 0xb5, 0x4a, 0x0d, 0x2d, 0xe5, 0x7a, 0x9f, 0x93, 0xc9, 0x9c, 0xef,
   0xa0, 0xe0, 0x3b, 0x4d, 0xae, 0x2a, 0xf5, 0xb0, 0xc8, 0xeb, 0xbb, 0x3c, 0x83, 0x53, 0x99, 0x61,
   0x17, 0x2b, 0x04, 0x7e, 0xba, 0x77, 0xd6, 0x26, 0xe1, 0x69, 0x14, 0x63, 0x55, 0x21, 0x0c, 0x7d]

def sbox (b : BitVec 8) : BitVec 8 := BitVec.ofNat 8 (sboxTable.getD b.toNat 0)
def invSbox (b : BitVec 8) : BitVec 8 := BitVec.ofNat 8 (invSboxTable.getD b.toNat 0)

/-- Multiplication by `x` in the AES field. -/
def xtime (b : BitVec 8) : BitVec 8 := (b <<< 1) ^^^ (if b.msb then 0x1b#8 else 0#8)

def subBytes (a : Block) : Block := Block.ofLanes fun i => sbox (Block.lane a i)
def invSubBytes (a : Block) : Block := Block.ofLanes fun i => invSbox (Block.lane a i)

/-- Row `r` (bytes with index `r` mod 4) rotates by `r` columns. -/
def shiftRows (a : Block) : Block := Block.ofLanes fun i => Block.lane a ((i + 4 * (i % 4)) % 16)
def invShiftRows (a : Block) : Block := Block.ofLanes fun i => Block.lane a ((i + 12 * (i % 4)) % 16)

def mul9 (b : BitVec 8) := xtime (xtime (xtime b)) ^^^ b
def mul11 (b : BitVec 8) := xtime (xtime (xtime b)) ^^^ xtime b ^^^ b
def mul13 (b : BitVec 8) := xtime (xtime (xtime b)) ^^^ xtime (xtime b) ^^^ b
def mul14 (b : BitVec 8) := xtime (xtime (xtime b)) ^^^ xtime (xtime b) ^^^ xtime b

/-- Byte `k` rows below byte `i` in its column. -/
def below (i k : Nat) : Nat := 4 * (i / 4) + (i + k) % 4

def mixColumns (a : Block) : Block := Block.ofLanes fun i =>
  xtime (Block.lane a (below i 0)) ^^^ (xtime (Block.lane a (below i 1)) ^^^ Block.lane a (below i 1)) ^^^
    Block.lane a (below i 2) ^^^ Block.lane a (below i 3)

def invMixColumns (a : Block) : Block := Block.ofLanes fun i =>
  mul14 (Block.lane a (below i 0)) ^^^ mul11 (Block.lane a (below i 1)) ^^^ mul13 (Block.lane a (below i 2)) ^^^
    mul9 (Block.lane a (below i 3))

/-- `_mm_aesenc_si128` -/
def aesenc (a rk : Block) : Block := mixColumns (subBytes (shiftRows a)) ^^^ rk
/-- `_mm_aesenclast_si128` -/
def aesenclast (a rk : Block) : Block := subBytes (shiftRows a) ^^^ rk
/-- `_mm_aesdec_si128` -/
def aesdec (a rk : Block) : Block := invMixColumns (invSubBytes (invShiftRows a)) ^^^ rk
/-- `_mm_aesdeclast_si128` -/
def aesdeclast (a rk : Block) : Block := invSubBytes (invShiftRows a) ^^^ rk
/-- `_mm_aesimc_si128` -/
def aesimc (a : Block) : Block := invMixColumns a

/-- 32-bit lane. -/
def dword (a : Block) (i : Nat) : BitVec 32 := a.extractLsb' (32 * i) 32
/-- Block from its four 32-bit lanes, lowest first. -/
def ofDwords (d0 d1 d2 d3 : BitVec 32) : Block := d3 ++ (d2 ++ (d1 ++ d0 : BitVec 64) : BitVec 96)

/-- `_mm_shuffle_ps(a, b, imm)`: two lanes of `a`, then two of `b`. -/
def shufflePs (a b : Block) (imm : Nat) : Block :=
  ofDwords (dword a (imm % 4)) (dword a (imm / 4 % 4)) (dword b (imm / 16 % 4)) (dword b (imm / 64 % 4))

/-- `_mm_shuffle_epi32(a, imm)` -/
def shuffle32 (a : Block) (imm : Nat) : Block :=
  ofDwords (dword a (imm % 4)) (dword a (imm / 4 % 4)) (dword a (imm / 16 % 4)) (dword a (imm / 64 % 4))

/-- The four bytes of a word through the S-box. -/
def subWord (w : BitVec 32) : BitVec 32 :=
  sbox (w.extractLsb' 24 8) ++ (sbox (w.extractLsb' 16 8) ++ (sbox (w.extractLsb' 8 8) ++ sbox (w.extractLsb' 0 8) : BitVec 16) : BitVec 24)

/-- FIPS `RotWord` on the little-endian image of a word: bytes (a0,a1,a2,a3) become (a1,a2,a3,a0). -/
def rotWord (w : BitVec 32) : BitVec 32 := w.rotateRight 8

/-- `_mm_aeskeygenassist_si128(a, rcon)` -/
def aeskeygenassist (a : Block) (rcon : BitVec 8) : Block :=
  ofDwords (subWord (dword a 1)) (rotWord (subWord (dword a 1)) ^^^ rcon.setWidth 32)
    (subWord (dword a 3)) (rotWord (subWord (dword a 3)) ^^^ rcon.setWidth 32)

/-! ### aes.hpp -/

/-- aes.hpp:20-23: eleven round keys, `ROUND_NUM` (10 for every key made by the code) -/
structure Key where
  roundkey : Nat → Block
  rounds : Nat

/-- aes.hpp:58-65, with `v4 = v1` as at every use: the new `(v1, v3)`. -/
def expandAssist (v1 v3 : Block) (rcon : BitVec 8) : Block × Block :=
  let v2 := aeskeygenassist v1 rcon
  let v3 := shufflePs v3 v1 16
  let v1 := v1 ^^^ v3
  let v3 := shufflePs v3 v1 140
  let v1 := v1 ^^^ v3
  let v2 := shuffle32 v2 255
  (v1 ^^^ v2, v3)

/-- The round constants of lines 74-92. -/
def rcons : List (BitVec 8) := [1, 2, 4, 8, 16, 32, 64, 128, 27, 54]

/-- The chain of lines 74-93. -/
def expandAll : Block → Block → List (BitVec 8) → List Block
  | _, _, [] => []
  | x0, x2, rc :: rcs => (expandAssist x0 x2 rc).1 :: expandAll (expandAssist x0 x2 rc).1 (expandAssist x0 x2 rc).2 rcs

/-- aes.hpp:69-97 -/
def genEncKey (salt : Block) : Key := ⟨fun i => (salt :: expandAll salt 0#128 rcons).getD i 0#128, 10⟩

/-- aes.hpp:100-111: index 0 gets the last round key, index `ROUND_NUM` the first, the others go through `aesimc`. -/
def deriveDecKey (k : Key) : Key :=
  ⟨fun i => if i = k.rounds then k.roundkey 0 else if i = 0 then k.roundkey k.rounds else aesimc (k.roundkey (k.rounds - i)), k.rounds⟩

/-- The middle rounds `1 .. ROUND_NUM - 1`: `n` rounds starting with round key `j`. -/
def encRounds (rk : Nat → Block) : Nat → Nat → Block → Block
  | _, 0, d => d
  | j, n + 1, d => encRounds rk (j + 1) n (aesenc d (rk j))

def decRounds (rk : Nat → Block) : Nat → Nat → Block → Block
  | _, 0, d => d
  | j, n + 1, d => decRounds rk (j + 1) n (aesdec d (rk j))

/-- aes.hpp:121-127 -/
def enc (k : Key) (d : Block) : Block :=
  aesenclast (encRounds k.roundkey 1 (k.rounds - 1) (d ^^^ k.roundkey 0)) (k.roundkey k.rounds)

/-- aes.hpp:130-136 -/
def dec (k : Key) (d : Block) : Block :=
  aesdeclast (decRounds k.roundkey 1 (k.rounds - 1) (d ^^^ k.roundkey 0)) (k.roundkey k.rounds)

/-- Bounds-checked write into an array of blocks. -/
def setAt (m : List Block) (i : Nat) (b : Block) : Option (List Block) := if i < m.length then some (m.set i b) else none

/-- A loop `for i = from; ...; n steps` updating `data[i]` with `f data[i]` (aes.hpp:139-144 and 182-187; the iterations of the parallel
loop touch disjoint elements). -/
def mapLoop (f : Block → Block) : Nat → Nat → List Block → Option (List Block)
  | _, 0, m => some m
  | i, n + 1, m => (m[i]?).bind fun b => (setAt m i (f b)).bind (mapLoop f (i + 1) n)

/-- aes.hpp:139-144 -/
def ecbEnc (k : Key) (data : List Block) (n : Nat) : Option (List Block) := mapLoop (enc k) 0 n data
/-- aes.hpp:182-187 -/
def ecbDec (k : Key) (data : List Block) (n : Nat) : Option (List Block) := mapLoop (dec k) 0 n data

/-- Two arrays, or one when `ciphertext` is null (aes.hpp:153). -/
structure Bufs where
  inPlace : Bool
  src : List Block
  dst : List Block

def Bufs.read (b : Bufs) (i : Nat) : Option Block := if b.inPlace then b.dst[i]? else b.src[i]?
def Bufs.write (b : Bufs) (i : Nat) (v : Block) : Option Bufs := (setAt b.dst i v).map fun d => { b with dst := d }

/-- Write a run of blocks. -/
def Bufs.writes (b : Bufs) (i : Nat) : List Block → Option Bufs
  | [] => some b
  | v :: vs => (b.write i v).bind fun b => b.writes (i + 1) vs

/-- aes.hpp:164-166: middle rounds on the batch, round by round. -/
def batchRounds (rk : Nat → Block) : Nat → Nat → List Block → List Block
  | _, 0, t => t
  | j, n + 1, t => batchRounds rk (j + 1) n (t.map fun d => aesenc d (rk j))

/-- aes.hpp:159-170, one iteration at index `i` -/
def fastBatch (k : Key) (b : Bufs) (i : Nat) : Option Bufs :=
  ((List.range 8).mapM fun j => (b.read (i + j)).map (· ^^^ k.roundkey 0)).bind fun t =>
    b.writes i ((batchRounds k.roundkey 1 (k.rounds - 1) t).map fun d => aesenclast d (k.roundkey k.rounds))

/-- aes.hpp:172-178, one iteration: all intermediate values go through `ciphertext[i]`, so only the last write remains -/
def fastTail (k : Key) (b : Bufs) (i : Nat) : Option Bufs := (b.read i).bind fun p => b.write i (enc k p)

/-- Iterate `f` at `i, i + s, i + 2s, ...` -/
def strideLoop (f : Bufs → Nat → Option Bufs) (s : Nat) : Nat → Nat → Bufs → Option Bufs
  | _, 0, b => some b
  | i, n + 1, b => (f b i).bind (strideLoop f s (i + s) n)

/-- aes.hpp:151-179 -/
def fastECBEnc (k : Key) (b : Bufs) (n : Nat) : Option Bufs :=
  (strideLoop (fastBatch k) 8 0 (n / 8) b).bind (strideLoop (fastTail k) 1 (n - n % 8) (n % 8))

/-- aes.hpp:194-198: from index `i`, `n` more blocks; `prev` is `data[i-1]` -/
def cbcEncLoop (k : Key) (prev : Block) : List Block → List Block
  | [] => []
  | d :: ds => enc k (d ^^^ prev) :: cbcEncLoop k (enc k (d ^^^ prev)) ds

/-- aes.hpp:190-199 on an array of exactly `BLOCK_LEN` blocks; `data[0]` of an empty array is out of range -/
def cbcEnc (k : Key) : List Block → Option (List Block)
  | [] => none
  | d :: ds => some (cbcEncLoop k 0#128 (d :: ds))

/-- aes.hpp:205-209: `i` runs down from `BLOCK_LEN - 1` to 1 -/
def cbcDecLoop (k : Key) : Nat → List Block → List Block
  | 0, m => m
  | i + 1, m => cbcDecLoop k i (m.set (i + 1) (dec k (m.getD (i + 1) 0) ^^^ m.getD i 0))

/-- aes.hpp:203-212; for an empty array the unsigned counter wraps and the loop leaves the array -/
def cbcDec (k : Key) (m : List Block) : Option (List Block) :=
  if m = [] then none
  else
    let m := cbcDecLoop k (m.length - 1) m
    some (m.set 0 (dec k (m.getD 0 0) ^^^ 0#128))

end Kunlun.AES
