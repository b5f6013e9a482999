import Verif.Base.Bytes
import Mathlib.Data.Fintype.EquivFin
import Mathlib.Data.Fintype.Prod
import Mathlib.Logic.ExistsUnique
/-!
Model of `MurmurHash3_x86_32`, `MurmurHash3_x86_128`, `MurmurHash3_x64_128` and the two functions `MurmurHash3` (utility/murmurhash3.hpp:20-335), and of
`MurmurHash64B` (utility/murmurhash2.hpp:180-229).

The message is the list of the `len` bytes at the pointer; `int len` limits it to fewer than 2^31 bytes. Loads are little-endian.
-/

namespace Kunlun.Murmur3

open Kunlun

abbrev W := BitVec 32
abbrev D := BitVec 64

/-- murmurhash3.hpp:23-31 `rotl32`, `rotl64`. -/
def rotl {w : Nat} (x : BitVec w) (r : Nat) : BitVec w := (x <<< r) ||| (x >>> (w - r))

/-- murmurhash3.hpp:42-50 `getblock32`, `getblock64`: a little-endian load. -/
def load {w : Nat} (b : Bytes) : BitVec w := BitVec.ofNat w (ofLE b)

/-- murmurhash3.hpp:55-64 -/
def fmix32 (h : W) : W :=
  let h := h ^^^ (h >>> 16)
  let h := h * 0x85ebca6b#32
  let h := h ^^^ (h >>> 13)
  let h := h * 0xc2b2ae35#32
  h ^^^ (h >>> 16)

/-- murmurhash3.hpp:68-77 -/
def fmix64 (k : D) : D :=
  let k := k ^^^ (k >>> 33)
  let k := k * 0xff51afd7ed558ccd#64
  let k := k ^^^ (k >>> 33)
  let k := k * 0xc4ceb9fe1a85ec53#64
  k ^^^ (k >>> 33)

/-- `k *= c; k = ROTL(k, r); k *= c'` -/
def scramble {w : Nat} (c c' : BitVec w) (r : Nat) (k : BitVec w) : BitVec w := rotl (k * c) r * c'

/-- The `switch` on the bytes left (for instance murmurhash3.hpp:116-122): the bytes from position `o` on, at most `n` of them, xored in from the last to the first, each
at its place; then the word is scrambled and xored to the state, if there is at least one such byte. -/
def rest {w : Nat} (mix : BitVec w → BitVec w) (h : BitVec w) (t : Bytes) (o n : Nat) : BitVec w :=
  let b := (t.drop o).take n
  if b = [] then h
  else h ^^^ mix ((List.range b.length).reverse.foldl (fun k i => k ^^^ (BitVec.ofNat w (b.getD i 0).toNat <<< (8 * i))) 0)

/-- A loop over groups of `B` bytes: the state after `n` groups and the bytes left. -/
def groups {S : Type} (B : Nat) (round : S → Bytes → S) : Nat → S → Bytes → S × Bytes
  | 0, h, l => (h, l)
  | n + 1, h, l => groups B round n (round h (l.take B)) (l.drop B)

/-! ### MurmurHash3_x86_32 -/

/-- murmurhash3.hpp:101-109 -/
def round32 (h : W) (b : Bytes) : W := rotl (h ^^^ scramble 0xcc9e2d51#32 0x1b873593#32 15 (load b)) 13 * 5#32 + 0xe6546b64#32

/-- murmurhash3.hpp:81-132 -/
def x86_32 (data : Bytes) (seed : W) : W :=
  let (h, t) := groups 4 round32 (data.length / 4) seed data
  let h := rest (scramble 0xcc9e2d51#32 0x1b873593#32 15) h t 0 3
  fmix32 (h ^^^ BitVec.ofNat 32 data.length)

/-- murmurhash3.hpp:136-141: the function for Bloom filters. -/
def salted (salt : W) (data : Bytes) : W := x86_32 data salt

/-- murmurhash3.hpp:144-149: the function for cuckoo filters; `fixed_salt32` of line 9. -/
def unsalted (data : Bytes) : W := x86_32 data 0xAAAA#32

/-! ### MurmurHash3_x86_128 -/

/-- The four state words. -/
structure S4 where
  h1 : W
  h2 : W
  h3 : W
  h4 : W
deriving DecidableEq

def mixA : W → W := scramble 0x239b961b#32 0xab0e9789#32 15
def mixB : W → W := scramble 0xab0e9789#32 0x38b34ae5#32 16
def mixC : W → W := scramble 0x38b34ae5#32 0xa1e38b93#32 17
def mixD : W → W := scramble 0xa1e38b93#32 0x239b961b#32 18

/-- murmurhash3.hpp:178-200 -/
def round128 (s : S4) (b : Bytes) : S4 :=
  let h1 := (rotl (s.h1 ^^^ mixA (load (b.take 4))) 19 + s.h2) * 5#32 + 0x561ccd1b#32
  let h2 := (rotl (s.h2 ^^^ mixB (load ((b.drop 4).take 4))) 17 + s.h3) * 5#32 + 0x0bcaa747#32
  let h3 := (rotl (s.h3 ^^^ mixC (load ((b.drop 8).take 4))) 15 + s.h4) * 5#32 + 0x96cd1c35#32
  let h4 := (rotl (s.h4 ^^^ mixD (load ((b.drop 12).take 4))) 13 + h1) * 5#32 + 0x32ac3b17#32
  ⟨h1, h2, h3, h4⟩

/-- murmurhash3.hpp:211-237 -/
def tail128 (s : S4) (t : Bytes) : S4 :=
  ⟨rest mixA s.h1 t 0 4, rest mixB s.h2 t 4 4, rest mixC s.h3 t 8 4, rest mixD s.h4 t 12 3⟩

/-- `h1 ^= len; ...`, murmurhash3.hpp:242 -/
def len4 (n : W) (s : S4) : S4 := ⟨s.h1 ^^^ n, s.h2 ^^^ n, s.h3 ^^^ n, s.h4 ^^^ n⟩

/-- `h1 += h2; h1 += h3; h1 += h4; h2 += h1; h3 += h1; h4 += h1`, murmurhash3.hpp:244-245 and 252-253 -/
def spread4 (s : S4) : S4 :=
  let h1 := s.h1 + s.h2 + s.h3 + s.h4
  ⟨h1, s.h2 + h1, s.h3 + h1, s.h4 + h1⟩

/-- murmurhash3.hpp:247-250 -/
def fmix4 (s : S4) : S4 := ⟨fmix32 s.h1, fmix32 s.h2, fmix32 s.h3, fmix32 s.h4⟩

/-- murmurhash3.hpp:153-259 -/
def x86_128 (data : Bytes) (seed : W) : S4 :=
  let (s, t) := groups 16 round128 (data.length / 16) ⟨seed, seed, seed, seed⟩ data
  spread4 (fmix4 (spread4 (len4 (BitVec.ofNat 32 data.length) (tail128 s t))))

/-! ### MurmurHash3_x64_128 -/

/-- The two state words. -/
structure S2 (w : Nat) where
  h1 : BitVec w
  h2 : BitVec w
deriving DecidableEq

def mixE : D → D := scramble 0x87c37b91114253d5#64 0x4cf5ad432745937f#64 31
def mixF : D → D := scramble 0x4cf5ad432745937f#64 0x87c37b91114253d5#64 33

/-- murmurhash3.hpp:280-293 -/
def round64 (s : S2 64) (b : Bytes) : S2 64 :=
  let h1 := (rotl (s.h1 ^^^ mixE (load (b.take 8))) 27 + s.h2) * 5#64 + 0x52dce729#64
  let h2 := (rotl (s.h2 ^^^ mixF (load ((b.drop 8).take 8))) 31 + h1) * 5#64 + 0x38495ab5#64
  ⟨h1, h2⟩

/-- murmurhash3.hpp:302-323 -/
def tail64 (s : S2 64) (t : Bytes) : S2 64 := ⟨rest mixE s.h1 t 0 8, rest mixF s.h2 t 8 7⟩

/-- murmurhash3.hpp:328 -/
def len2 (n : D) (s : S2 64) : S2 64 := ⟨s.h1 ^^^ n, s.h2 ^^^ n⟩

/-- `h1 += h2; h2 += h1`, murmurhash3.hpp:330-331 and 336-337 -/
def spread2 (s : S2 64) : S2 64 :=
  let h1 := s.h1 + s.h2
  ⟨h1, s.h2 + h1⟩

/-- murmurhash3.hpp:333-334 -/
def fmix2 (s : S2 64) : S2 64 := ⟨fmix64 s.h1, fmix64 s.h2⟩

/-- murmurhash3.hpp:263-341; the seed has 32 bits. -/
def x64_128 (data : Bytes) (seed : W) : S2 64 :=
  let h : D := seed.setWidth 64
  let (s, t) := groups 16 round64 (data.length / 16) ⟨h, h⟩ data
  spread2 (fmix2 (spread2 (len2 (BitVec.ofNat 64 data.length) (tail64 s t))))

/-! ### MurmurHash64B -/

/-- murmurhash2.hpp:182 -/
def mB : W := 0x5bd1e995#32

/-- `k *= m; k ^= k >> r; k *= m; h *= m; h ^= k`, murmurhash2.hpp:193-194 -/
def stepB (h k : W) : W :=
  let k := k * mB
  let k := k ^^^ (k >>> 24)
  let k := k * mB
  (h * mB) ^^^ k

/-- murmurhash2.hpp:190-201 -/
def roundB (s : S2 32) (b : Bytes) : S2 32 := ⟨stepB s.h1 (load (b.take 4)), stepB s.h2 (load ((b.drop 4).take 4))⟩

/-- murmurhash2.hpp:203-217: a last word goes to the first half, the bytes after it to the second. -/
def tailB (s : S2 32) (t : Bytes) : S2 32 :=
  let (h1, t) := if 4 ≤ t.length then (stepB s.h1 (load (t.take 4)), t.drop 4) else (s.h1, t)
  let h2 := if t = [] then s.h2
    else ((List.range t.length).reverse.foldl (fun h i => h ^^^ (BitVec.ofNat 32 (t.getD i 0).toNat <<< (8 * i))) s.h2) * mB
  ⟨h1, h2⟩

/-- murmurhash2.hpp:219-222 -/
def finalB (s : S2 32) : S2 32 :=
  let h1 := (s.h1 ^^^ (s.h2 >>> 18)) * mB
  let h2 := (s.h2 ^^^ (h1 >>> 22)) * mB
  let h1 := (h1 ^^^ (h2 >>> 17)) * mB
  let h2 := (h2 ^^^ (h1 >>> 19)) * mB
  ⟨h1, h2⟩

/-- murmurhash2.hpp:180-229 -/
def hash64B (data : Bytes) (seed : D) : D :=
  let (s, t) := groups 8 roundB (data.length / 8) ⟨seed.setWidth 32 ^^^ BitVec.ofNat 32 data.length, (seed >>> 32).setWidth 32⟩ data
  let s := finalB (tailB s t)
  (s.h1.setWidth 64 <<< 32) ||| s.h2.setWidth 64

end Kunlun.Murmur3
