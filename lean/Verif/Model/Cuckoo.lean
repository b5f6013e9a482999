import Verif.Base.Bytes
import Verif.Model.WordTricks
/-!
Model of `filter/cuckoo_filter.hpp`.

The keyed hash (`FastHash` = LiteMurmurHash with a fixed salt, cuckoo_filter.hpp:19, 114) is a parameter `H : Bytes → UInt32`.
Modelled for the only configuration the constructor produces: 4 slots of 16-bit tags per bucket
(cuckoo_filter.hpp:53-55); the 8- and 32-bit branches of the accessors are not modelled.
The random slot choices `rand()` are an arbitrary function argument.
-/

namespace Kunlun.Cuckoo

open Kunlun

/-- cuckoo_filter.hpp:27-31 `VictimCache`. -/
structure Victim where
  bucketIndex : Nat
  tag : Nat
  used : Nat
deriving DecidableEq, Repr

/-- cuckoo_filter.hpp:34-48: the data members. -/
structure Filter where
  table : Bytes
  inserted : Nat
  maxKick : Nat
  slotNum : Nat
  tagBits : Nat
  bucketBytes : Nat
  bucketNum : Nat
  victim : Victim
deriving DecidableEq, Repr

/-- cuckoo_filter.hpp:51-71: the constructor.  `needDouble` is the outcome of the floating-point load-factor test on line 60. -/
def new (projected : Nat) (needDouble : Bool) : Filter :=
  let n := (Word.upperpower2 (BitVec.ofNat 32 (max 1 (BitVec.ofNat 32 (projected / 4)).toNat))).toNat
  let n := if needDouble then n * 2 else n
  { table := List.replicate (n * 4 * 16 / 8) 0, inserted := 0, maxKick := 500, slotNum := 4, tagBits := 16,
    bucketBytes := 4 * 16 / 8, bucketNum := n, victim := ⟨0, 0, 0⟩ }

/-- cuckoo_filter.hpp:83-86 `ComputeBucketIndex`. -/
def bucketIndex (n : Nat) (h : UInt32) : Nat := h.toNat &&& (n - 1)

/-- cuckoo_filter.hpp:88-94 `ComputeTag`. -/
def computeTag (h : UInt32) : Nat :=
  let tag := h.toNat >>> (32 - 16)
  tag + (if tag = 0 then 1 else 0)

/-- cuckoo_filter.hpp:96-100 `ComputeAnotherBucketIndex` (32-bit product). -/
def another (n : Nat) (i tag : Nat) : Nat := (i ^^^ (tag * 0x5bd1e995 % 2 ^ 32)) &&& (n - 1)

/-- cuckoo_filter.hpp:300-311 `ReadTag`, 16-bit case; `none` when outside the table. -/
def readTag (t : Bytes) (b j : Nat) : Option Nat := (load t (b * 8 + j * 2) 2).map ofLE

/-- cuckoo_filter.hpp:314-323 `WriteTag`, 16-bit case (the tag is truncated to 16 bits). -/
def writeTag (t : Bytes) (b j tag : Nat) : Option Bytes := store t (b * 8 + j * 2) (leBytes 2 tag)

/-- cuckoo_filter.hpp:326-340 `FindTagInBucket`, 16-bit case: one 64-bit load and the packed search. -/
def findTag (t : Bytes) (b tag : Nat) : Option Bool :=
  (load t (b * 8) 8).map (fun w => Word.hasvalue16 (BitVec.ofNat 64 (ofLE w)) tag != 0#64)

/-- The slot loop shared by cuckoo_filter.hpp:343-350 and 356-361: first slot from `j` on that holds `tag`.
The outer `none` is an out-of-bounds read. -/
def findSlot (t : Bytes) (b tag : Nat) : Nat → Nat → Option (Option Nat)
  | 0, _ => some none
  | k + 1, j => do
    let x ← readTag t b j
    if x = tag then some (some j) else findSlot t b tag k (j + 1)

/-- cuckoo_filter.hpp:342-351 `DeleteTagFromBucket`: the new table and the deleted slot. -/
def deleteTag (t : Bytes) (b tag : Nat) : Option (Bytes × Option Nat) := do
  match ← findSlot t b tag 4 0 with
  | some j => do
    let t' ← writeTag t b j 0
    some (t', some j)
  | none => some (t, none)

/-- cuckoo_filter.hpp:21-25 `InsertToBucketStatus` (the kicked-out tag is carried by the status). -/
inductive Status where
  | successNoKick
  | freshFailure
  | successKick (kicked : Nat)

/-- cuckoo_filter.hpp:353-374 `InsertTagToBucket`; `r` is the value of `rand()`. -/
def insertTag (t : Bytes) (b tag : Nat) (licence : Bool) (r : Nat) : Option (Bytes × Status) := do
  match ← findSlot t b 0 4 0 with
  | some j => do
    let t' ← writeTag t b j tag
    some (t', .successNoKick)
  | none =>
    if licence then do
      let kicked ← readTag t b (r % 4)
      let t' ← writeTag t b (r % 4) tag
      some (t', .successKick kicked)
    else some (t, .freshFailure)

/-- cuckoo_filter.hpp:126-134: the kick-out loop.  `kicks` counts the iterations left until `max_kick_count`; `rnd kicks` is the
`rand()` value used in an iteration.  Result: the table, and the tag in hand (with its bucket) if the loop ran out. -/
def kickLoop (n : Nat) (rnd : Nat → Nat) (t : Bytes) (i tag kicks : Nat) (licence : Bool) :
    Option (Bytes × Option (Nat × Nat)) :=
  match kicks with
  | 0 => some (t, some (i, tag))
  | k + 1 =>
    match insertTag t i tag licence (rnd (k + 1)) with
    | none => none
    | some (t', .successNoKick) => some (t', none)
    | some (t', .freshFailure) =>
      if licence then none else kickLoop n rnd t' (another n i tag) tag (k + 1) true
    | some (t', .successKick kicked) => kickLoop n rnd t' (another n i kicked) kicked k licence
termination_by (kicks, (if licence then 0 else 1))
decreasing_by
  · simp_wf
    right
    rename_i h
    simp [h]
  · simp_wf
    left
    omega

/-- cuckoo_filter.hpp:108-141 `PlainInsert`. -/
def insert (H : Bytes → UInt32) (rnd : Nat → Nat) (f : Filter) (x : Bytes) : Option (Filter × Bool) :=
  if f.victim.used ≠ 0 then some (f, false)
  else
    let h := H x
    match kickLoop f.bucketNum rnd f.table (bucketIndex f.bucketNum h) (computeTag h) f.maxKick false with
    | none => none
    | some (t, none) => some ({ f with table := t, inserted := (f.inserted + 1) % 2 ^ 64 }, true)
    | some (t, some (i, tag)) => some ({ f with table := t, victim := ⟨i, tag, 1⟩ }, true)

/-- cuckoo_filter.hpp:207-219 `PlainContain`. -/
def contain (H : Bytes → UInt32) (f : Filter) (x : Bytes) : Option Bool := do
  let h := H x
  let i1 := bucketIndex f.bucketNum h
  let tag := computeTag h
  let i2 := another f.bucketNum i1 tag
  let b1 ← findTag f.table i1 tag
  if b1 then some true
  else do
    let b2 ← findTag f.table i2 tag
    if b2 then some true
    else some (f.victim.used != 0 && tag == f.victim.tag && (i1 == f.victim.bucketIndex || i2 == f.victim.bucketIndex))

/-- cuckoo_filter.hpp:240-249 `TrySaveVictim`. -/
def trySaveVictim (f : Filter) (b j tag : Nat) : Option Filter :=
  if f.victim.used ≠ 0 ∧ f.victim.bucketIndex = b ∧ f.victim.tag = tag then do
    let t ← writeTag f.table b j tag
    some { f with victim := { f.victim with used := 0 }, table := t }
  else some f

/-- cuckoo_filter.hpp:261-265 (and 267-271): delete from one of the two buckets; the flag is `delete_status`. -/
def deleteFrom (f : Filter) (b tag : Nat) : Option (Filter × Bool) := do
  let (t, s) ← deleteTag f.table b tag
  match s with
  | some j => do
    let f' ← trySaveVictim { f with table := t, inserted := (f.inserted + 2 ^ 64 - 1) % 2 ^ 64 } b j tag
    some (f', true)
  | none => some (f, false)

/-- cuckoo_filter.hpp:252-279 `PlainDelete`. -/
def delete (H : Bytes → UInt32) (f : Filter) (x : Bytes) : Option (Filter × Bool) := do
  let h := H x
  let i1 := bucketIndex f.bucketNum h
  let tag := computeTag h
  let i2 := another f.bucketNum i1 tag
  let (f1, d1) ← deleteFrom f i1 tag
  let (f2, d2) ← deleteFrom f1 i2 tag
  if f2.victim.used ≠ 0 ∧ tag = f2.victim.tag ∧ (i1 = f2.victim.bucketIndex ∨ i2 = f2.victim.bucketIndex) then
    some ({ f2 with victim := { f2.victim with used := 0 } }, true)
  else some (f2, d1 || d2)

/-- cuckoo_filter.hpp:76-80 `ObjectSize`. -/
def objectSize (f : Filter) : Nat := 6 * 8 + f.table.length + 4 * 3

/-- cuckoo_filter.hpp:432-452 `WriteObject(char*)`. The flag `victim.used` is written at offset 66, inside the area that the
table is then copied to. -/
def writeObject (f : Filter) (buf : Bytes) : Option Bytes := do
  let buf ← store buf 0 (leBytes 8 f.inserted)
  let buf ← store buf 8 (leBytes 8 f.maxKick)
  let buf ← store buf 16 (leBytes 8 f.slotNum)
  let buf ← store buf 24 (leBytes 8 f.tagBits)
  let buf ← store buf 32 (leBytes 8 f.bucketBytes)
  let buf ← store buf 40 (leBytes 8 f.bucketNum)
  let buf ← store buf 48 (leBytes 4 f.victim.bucketIndex)
  let buf ← store buf 52 (leBytes 4 f.victim.tag)
  let buf ← store buf 66 (leBytes 4 f.victim.used)
  store buf 60 f.table

/-- `std::vector<uint8_t>::resize(n, 0)`. -/
def resize (t : Bytes) (n : Nat) : Bytes := t.take n ++ List.replicate (n - t.length) 0

/-- cuckoo_filter.hpp:454-476 `ReadObject(char*)` into the object `f`. -/
def readObject (f : Filter) (buf : Bytes) : Option Filter := do
  let ie ← load buf 0 8
  let mk ← load buf 8 8
  let sn ← load buf 16 8
  let tb ← load buf 24 8
  let bb ← load buf 32 8
  let bn ← load buf 40 8
  let vi ← load buf 48 4
  let vt ← load buf 52 4
  let vu ← load buf 56 4
  let t := resize f.table (ofLE bb * ofLE bn % 2 ^ 64)
  let body ← load buf 60 t.length
  let t ← store t 0 body
  some { table := t, inserted := ofLE ie, maxKick := ofLE mk, slotNum := ofLE sn, tagBits := ofLE tb, bucketBytes := ofLE bb,
         bucketNum := ofLE bn, victim := ⟨ofLE vi, ofLE vt, ofLE vu⟩ }

/-- cuckoo_filter.hpp:376-404 `WriteObject(file)`: the bytes of the file. The operators are those of utility/serialization.hpp:30-35, 45-50:
every integer is written as its bytes, the table as its bytes without a length. -/
def writeFile (f : Filter) : Bytes :=
  leBytes 8 f.inserted ++ leBytes 8 f.maxKick ++ leBytes 8 f.slotNum ++ leBytes 8 f.tagBits ++ leBytes 8 f.bucketBytes ++
    leBytes 8 f.bucketNum ++ leBytes 4 f.victim.bucketIndex ++ leBytes 4 f.victim.tag ++ leBytes 4 f.victim.used ++ f.table

/-- `std::isspace` in the "C" locale. -/
def isSpace (b : UInt8) : Bool := b == 32 || (9 ≤ b && b ≤ 13)

/-- `fin >> p` for a pointer `p` to `unsigned char`, with `rest` the unread part of the file and `t` the memory at `p`. The argument
`bucket_table.data()` is not an lvalue, so the templates of utility/serialization.hpp do not apply and this is the operator of the C++17
standard library: white space is skipped (nothing is stored when nothing else follows), bytes are stored up to the next white space or the end
of the file, then a zero byte. `none` when that goes past the memory. -/
def extract (t rest : Bytes) : Option Bytes :=
  if rest.dropWhile isSpace = [] then some t
  else store t 0 ((rest.dropWhile isSpace).takeWhile (fun b => !isSpace b) ++ [0])

/-- cuckoo_filter.hpp:406-429 `ReadObject(file)` into the object `f`; a short file leaves members indeterminate: `none`. -/
def readFile (f : Filter) (file : Bytes) : Option Filter := do
  let ie ← load file 0 8
  let mk ← load file 8 8
  let sn ← load file 16 8
  let tb ← load file 24 8
  let bb ← load file 32 8
  let bn ← load file 40 8
  let vi ← load file 48 4
  let vt ← load file 52 4
  let vu ← load file 56 4
  let t ← extract (resize f.table (ofLE bb * ofLE bn % 2 ^ 64)) (file.drop 60)
  some { table := t, inserted := ofLE ie, maxKick := ofLE mk, slotNum := ofLE sn, tagBits := ofLE tb, bucketBytes := ofLE bb,
         bucketNum := ofLE bn, victim := ⟨ofLE vi, ofLE vt, ofLE vu⟩ }

/-- cuckoo_filter.hpp:155-160 and 232-237: `Insert(ECPoint)`/`Contain(ECPoint)` hash `POINT_BYTE_LEN` (65) bytes of a local
array of which `EC_POINT_point2oct` (compressed form) writes only the first 33; `garbage` is the indeterminate rest. -/
def pointBuffer (enc garbage : Bytes) : Bytes := enc ++ garbage

end Kunlun.Cuckoo
