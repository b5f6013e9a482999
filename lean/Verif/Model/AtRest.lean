import Verif.Model.Prg
import Verif.Model.Serialization
/-!
Model of the `std::string` overloads of `crypto/otp.hpp` and of the file operators of `crypto/block.hpp`. A `std::string` is the list of its
bytes; file streams are those of `Serialization`.
-/

namespace Kunlun.PRG

open Kunlun

/-- otp.hpp:6-12: `C[i] = A[i]^B[i]` for `LEN` indices (`A` holds exactly `LEN` bytes); `none` when an index is outside `B` or `C`. -/
def xorInto : Bytes → Bytes → Bytes → Option Bytes
  | [], _, c => some c
  | a :: as, b :: bs, _ :: cs => (xorInto as bs cs).map ((a ^^^ b) :: ·)
  | _ :: _, _, _ => none

/-- otp.hpp:14-23: the result starts as a string of `LEN` characters `'0'`; the size check only prints. -/
def xorStr (a b : Bytes) : Option Bytes := xorInto a b (List.replicate a.length 48)

/-- `memcpy(dst, src, n)`; `none` when it would leave one of the two areas. -/
def memcpy (dst src : Bytes) (n : Nat) : Option Bytes := if n ≤ src.length ∧ n ≤ dst.length then some (src.take n ++ dst.drop n) else none

/-- otp.hpp:57-66 -/
def otpEncStr (temp : List Block) (key : Block) (m : Bytes) : Option Bytes := do
  let plaintext ← memcpy (List.replicate m.length 0) m m.length
  let ciphertext ← otpEnc temp key plaintext
  memcpy (List.replicate m.length 48) ciphertext m.length

/-- otp.hpp:68-77; line 73 calls `Enc`. -/
def otpDecStr (temp : List Block) (key : Block) (c : Bytes) : Option Bytes := do
  let ciphertext ← memcpy (List.replicate c.length 0) c c.length
  let plaintext ← otpEnc temp key ciphertext
  memcpy (List.replicate c.length 48) plaintext c.length

end Kunlun.PRG

namespace Kunlun.Block

open Kunlun Kunlun.Ser

/-- block.hpp:192-198: the bytes `fout << a` appends. -/
def put (a : Block) : Bytes := toBytes a

/-- block.hpp:200-206: `fin >> a`. `buffer` is the content of the local array before `read`; it is not initialised. -/
def get (buffer : Bytes) (s : IStream) : Block × IStream := ((ofBytes (readInto s buffer).1), (readInto s buffer).2)

/-- block.hpp:208-216: `fout << vec_a`. -/
def putVec (as : List Block) : Bytes := PRG.bytesOf as

/-- The `n` blocks in a piece of memory. -/
def split : Nat → Bytes → List Block
  | 0, _ => []
  | n + 1, b => ofBytes (b.take 16) :: split n (b.drop 16)

/-- block.hpp:218-226: `fin >> vec_a` reads as many blocks as the vector has, by way of a buffer of zeros. -/
def getVec (old : List Block) (s : IStream) : List Block × IStream :=
  (split old.length (readInto s (List.replicate (old.length * 16) 0)).1, (readInto s (List.replicate (old.length * 16) 0)).2)

/-- A block or a vector of blocks, as they follow each other in a file. -/
inductive Item where
  | one (a : Block)
  | vec (as : List Block)
deriving DecidableEq

/-- `fout << i1 << i2 << ...` -/
def putItems (is : List Item) : Bytes := (is.map fun | .one a => put a | .vec as => putVec as).flatten

/-- `fin >> o1 >> o2 >> ...` into the objects `old`; `garbage` gives the local array of each read. -/
def getItems (garbage : Nat → Bytes) : Nat → List Item → IStream → List Item × IStream
  | _, [], s => ([], s)
  | i, .one _ :: old, s => let r := get (garbage i) s; let q := getItems garbage (i + 1) old r.2; (.one r.1 :: q.1, q.2)
  | i, .vec as :: old, s => let r := getVec as s; let q := getItems garbage (i + 1) old r.2; (.vec r.1 :: q.1, q.2)

/-- Same kind, and vectors of the same length. -/
def Item.shape : Item → Option Nat
  | .one _ => none
  | .vec as => some as.length

theorem split_bytesOf (as : List Block) (t : Bytes) : split as.length (PRG.bytesOf as ++ t) = as := by
  induction as with
  | nil => rfl
  | cons a as ih =>
    have e : PRG.bytesOf (a :: as) ++ t = toBytes a ++ (PRG.bytesOf as ++ t) := by simp [PRG.bytesOf]
    rw [e, List.length_cons, split]
    rw [List.take_append_of_le_length (by simp), List.take_of_length_le (by simp), ofBytes_toBytes, List.drop_append_of_le_length (by simp),
      List.drop_of_length_le (by simp), List.nil_append, ih]

theorem split_length (n : Nat) (b : Bytes) : (split n b).length = n := by
  induction n generalizing b with
  | zero => rfl
  | succ n ih => simp [split, ih]

theorem split_getElem? (n : Nat) (b : Bytes) (i : Nat) (hi : i < n) : (split n b)[i]? = some (ofBytes ((b.drop (16 * i)).take 16)) := by
  induction n generalizing b i with
  | zero => omega
  | succ n ih =>
    cases i with
    | zero => simp [split]
    | succ i => rw [split, List.getElem?_cons_succ, ih _ i (by omega), List.drop_drop]; congr 4; omega

end Kunlun.Block
