import Verif.Base.Bytes
/-!
Model of `filter/bloom_filter.hpp`.

The keyed hash `FastKeyedHash` (= LiteMurmurHash, bloom_filter.hpp:20) is a parameter `H salt input`.
-/

namespace Kunlun.Bloom

open Kunlun

/-- bloom_filter.hpp:29-45: the 128 predefined salts. -/
def predefinedSalt : List UInt32 := [
   0xAAAAAAAA, 0x55555555, 0x33333333, 0xCCCCCCCC, 0x66666666, 0x99999999, 0xB5B5B5B5, 0x4B4B4B4B,
   0xAA55AA55, 0x55335533, 0x33CC33CC, 0xCC66CC66, 0x66996699, 0x99B599B5, 0xB54BB54B, 0x4BAA4BAA,
   0xAA33AA33, 0x55CC55CC, 0x33663366, 0xCC99CC99, 0x66B566B5, 0x994B994B, 0xB5AAB5AA, 0xAAAAAA33,
   0x555555CC, 0x33333366, 0xCCCCCC99, 0x666666B5, 0x9999994B, 0xB5B5B5AA, 0xFFFFFFFF, 0xFFFF0000,
   0xB823D5EB, 0xC1191CDF, 0xF623AEB3, 0xDB58499F, 0xC8D42E70, 0xB173F616, 0xA91A5967, 0xDA427D63,
   0xB1E8A2EA, 0xF6C0D155, 0x4909FEA3, 0xA68CC6A7, 0xC395E782, 0xA26057EB, 0x0CD5DA28, 0x467C5492,
   0xF15E6982, 0x61C6FAD3, 0x9615E352, 0x6E9E355A, 0x689B563E, 0x0C9831A8, 0x6753C18B, 0xA622689B,
   0x8CA63C47, 0x42CC2884, 0x8E89919B, 0x6EDBD7D3, 0x15B6796C, 0x1D6FDFE4, 0x63FF9092, 0xE7401432,
   0xEFFE9412, 0xAEAEDF79, 0x9F245A31, 0x83C136FC, 0xC3DA4A8C, 0xA5112C8C, 0x5271F491, 0x9A948DAB,
   0xCEE59A8D, 0xB5F525AB, 0x59D13217, 0x24E7C331, 0x697C2103, 0x84B0A460, 0x86156DA9, 0xAEF2AC68,
   0x23243DA5, 0x3F649643, 0x5FA495A8, 0x67710DF8, 0x9A6C499E, 0xDCFB0227, 0x46A43433, 0x1832B07A,
   0xC46AFF3C, 0xB9C8FFF0, 0xC9500467, 0x34431BDF, 0xB652432B, 0xE367F12B, 0x427F4C1B, 0x224C006E,
   0x2E7E5A89, 0x96F99AA5, 0x0BEB452A, 0x2FD87C39, 0x74B2E1FB, 0x222EFD24, 0xF357F60C, 0x440FCB1E,
   0x8BBE030F, 0x6704DC29, 0x1144D12F, 0x948B1355, 0x6D8FD7E9, 0x1C11A014, 0xADD1592F, 0xFB3C712E,
   0xFC77642F, 0xF9C4CE8C, 0x31312FB9, 0x08B0DD79, 0x318FA6E7, 0xC040D23D, 0xC0589AA7, 0x0CA5C075,
   0xF874B172, 0x0CF914D5, 0x784D3280, 0x4E8CFEBC, 0xC569F575, 0xCDB2A091, 0x2CC016B4, 0x5C5F4421]

/-- bloom_filter.hpp:52: one iteration `vec_salt[i] = vec_salt[i] * vec_salt[(i+3) % size] + random_seed`, in place,
so the last iterations read entries that were already rewritten. -/
def saltStep (seed : UInt32) (v : List UInt32) (i : Nat) : Option (List UInt32) := do
  let a ← v[i]?
  let b ← v[(i + 3) % v.length]?
  pure (v.set i (a * b + seed))

/-- bloom_filter.hpp:57-64: the `while` loop for more than 128 hash functions.  `rand` is the stream of products
`rand()*rand()`; the loop skips zero and repeated salts.  `none` = the finite stream ran out before enough salts were found
(the real loop would keep drawing). -/
def saltLoop (hashNum : Nat) : List UInt32 → List UInt32 → Option (List UInt32)
  | rnd, v =>
    if hashNum ≤ v.length then some v
    else match rnd with
      | [] => none
      | r :: rs =>
        if r = 0 then saltLoop hashNum rs v
        else if r ∈ v then saltLoop hashNum rs v
        else saltLoop hashNum rs (v ++ [r])

/-- bloom_filter.hpp:27-68 `GenUniqueSaltVector`. -/
def genUniqueSaltVector (rnd : List UInt32) (hashNum : Nat) (seed : UInt32) : Option (List UInt32) :=
  if hashNum ≤ 128 then (List.range hashNum).foldlM (saltStep seed) (predefinedSalt.take hashNum)
  else saltLoop hashNum rnd predefinedSalt

/-- bloom_filter.hpp:94: the seed every constructed filter uses: low 32 bits of `0xA5A5A5A55A5A5A5A * 0xA5A5A5A5 + 1`. -/
def constructorSeed : UInt32 := ((0xA5A5A5A55A5A5A5A : UInt64) * 0xA5A5A5A5 + 1).toUInt32

/-- bloom_filter.hpp:70-82: the data members.  Sizes are `Nat`; the ranges of the C++ types are in `WF`. -/
structure Filter where
  randomSeed : UInt32
  hashNum : Nat
  vecSalt : List UInt32
  tableSize : Nat
  bitTable : Bytes
  projected : Nat
  inserted : Nat
deriving DecidableEq, Repr

/-- bloom_filter.hpp:97-99: rounding of the requested table size (a `uint32_t`) to a multiple of 8, with 32-bit wrap-around. -/
def roundTableSize (raw : UInt32) : Nat := (((raw + 7) >>> 3) <<< 3).toNat

/-- bloom_filter.hpp:89-104: the constructor.  `raw` is `static_cast<uint32_t>(max_element_num * (1.44 * sec))` (a floating-point
product, kept as a parameter). -/
def new (rnd : List UInt32) (maxElem hashNum : Nat) (raw : UInt32) : Option Filter := do
  let salts ← genUniqueSaltVector rnd hashNum constructorSeed
  pure { randomSeed := constructorSeed, hashNum, vecSalt := salts, tableSize := roundTableSize raw,
         bitTable := List.replicate (roundTableSize raw / 8) 0, projected := maxElem, inserted := 0 }

/-- bloom_filter.hpp:17 and 126: `bit_mask[j]`. -/
def bitMask (j : Nat) : UInt8 := 1 <<< UInt8.ofNat j

/-- bloom_filter.hpp:126: the atomic update `bit_table[idx >> 3] |= bit_mask[idx & 7]`; `none` if the index is outside. -/
def orBit (t : Bytes) (idx : Nat) : Option Bytes := do
  let b ← t[idx / 8]?
  pure (t.set (idx / 8) (b ||| bitMask (idx % 8)))

/-- bloom_filter.hpp:124: `bit_index[i] = FastKeyedHash(vec_salt[i], input, LEN) % table_size`;
`none` for `i` outside `vec_salt` and for `table_size = 0` (division by zero). -/
def bitIndex (H : UInt32 → Bytes → UInt32) (f : Filter) (x : Bytes) (i : Nat) : Option Nat := do
  let s ← f.vecSalt[i]?
  if f.tableSize = 0 then none else pure ((H s x).toNat % f.tableSize)

/-- The bit indices of the iterations in `sched` (an execution order of the parallel loop). -/
def bitIndices (H : UInt32 → Bytes → UInt32) (f : Filter) (x : Bytes) (sched : List Nat) : Option (List Nat) :=
  sched.mapM (bitIndex H f x)

/-- bloom_filter.hpp:118-130 `PlainInsert`, with the iterations of the OpenMP loop executed in the order `sched`
(each update is atomic, line 125, so an execution is an interleaving of whole updates). -/
def insertSched (H : UInt32 → Bytes → UInt32) (f : Filter) (x : Bytes) (sched : List Nat) : Option Filter := do
  let idx ← bitIndices H f x sched
  let t ← idx.foldlM orBit f.bitTable
  pure { f with bitTable := t, inserted := (f.inserted + 1) % 2 ^ 64 }

/-- Sequential `PlainInsert`. -/
def insert (H : UInt32 → Bytes → UInt32) (f : Filter) (x : Bytes) : Option Filter :=
  insertSched H f x (List.range f.hashNum)

/-- bloom_filter.hpp:171-177, 140-152: `Insert` of a container, one element after the other. -/
def insertAll (H : UInt32 → Bytes → UInt32) (f : Filter) (xs : List Bytes) : Option Filter :=
  xs.foldlM (insert H) f

/-- bloom_filter.hpp:180-201: parallel `Insert` of a container: an arbitrary interleaving of all the atomic updates
`(element, i)` of all elements. -/
def insertParallel (H : UInt32 → Bytes → UInt32) (f : Filter) (n : Nat) (sched : List (Bytes × Nat)) : Option Filter := do
  let idx ← sched.mapM (fun p => bitIndex H f p.1 p.2)
  let t ← idx.foldlM orBit f.bitTable
  pure { f with bitTable := t, inserted := (f.inserted + n) % 2 ^ 64 }

/-- bloom_filter.hpp:213: is the bit set in the table? -/
def bitSet (t : Bytes) (idx : Nat) : Option Bool := do
  let b ← t[idx / 8]?
  pure ((b &&& bitMask (idx % 8)) == bitMask (idx % 8))

/-- bloom_filter.hpp:209-219: one iteration of the loop of `PlainContain`.  The Boolean paired with the iteration number says
whether the iteration still saw a stale `CONTAIN == true` although another iteration already cleared it. -/
def containStep (H : UInt32 → Bytes → UInt32) (f : Filter) (x : Bytes) (c : Bool) (p : Nat × Bool) : Option Bool :=
  if c || p.2 then do
    let idx ← bitIndex H f x p.1
    let b ← bitSet f.bitTable idx
    pure (if b then c else false)
  else pure c

/-- bloom_filter.hpp:203-222 `PlainContain` with the loop iterations in the order `sched`. -/
def containSched (H : UInt32 → Bytes → UInt32) (f : Filter) (x : Bytes) (sched : List (Nat × Bool)) : Option Bool :=
  sched.foldlM (containStep H f x) true

/-- Sequential `PlainContain`. -/
def contain (H : UInt32 → Bytes → UInt32) (f : Filter) (x : Bytes) : Option Bool :=
  containSched H f x ((List.range f.hashNum).map (·, false))

/-- bloom_filter.hpp:342-346 `Clear`. -/
def clear (f : Filter) : Filter :=
  { f with bitTable := f.bitTable.map (fun _ => 0), inserted := 0 }

/-- bloom_filter.hpp:108-115 `ObjectSize`. -/
def objectSize (f : Filter) : Nat := 3 * 4 + 2 * 8 + f.tableSize / 8

/-- bloom_filter.hpp:401-428 `WriteObject(char*)`: six `memcpy`s into the caller's buffer; the last one reads
`table_size/8` bytes of `bit_table` (`none` if that over-reads). -/
def writeObject (f : Filter) (buf : Bytes) : Option Bytes := do
  let buf ← store buf 0 (leBytes 4 f.randomSeed.toNat)
  let buf ← store buf 4 (leBytes 4 f.hashNum)
  let buf ← store buf 8 (leBytes 4 f.tableSize)
  let buf ← store buf 12 (leBytes 8 f.projected)
  let buf ← store buf 20 (leBytes 8 f.inserted)
  let body ← load f.bitTable 0 (f.tableSize / 8)
  store buf 28 body

/-- `std::vector<uint8_t>::resize(n, 0)`. -/
def resize (t : Bytes) (n : Nat) : Bytes := t.take n ++ List.replicate (n - t.length) 0

/-- bloom_filter.hpp:430-463 `ReadObject(char*)` into the object `f`. -/
def readObject (rnd : List UInt32) (f : Filter) (buf : Bytes) : Option Filter := do
  let seed ← load buf 0 4
  let hn ← load buf 4 4
  let ts ← load buf 8 4
  let pe ← load buf 12 8
  let ie ← load buf 20 8
  let salts ← genUniqueSaltVector rnd (ofLE hn) (UInt32.ofNat (ofLE seed))
  let t := resize f.bitTable (ofLE ts / 8)
  let body ← load buf 28 (ofLE ts / 8)
  let t ← store t 0 body
  pure { randomSeed := UInt32.ofNat (ofLE seed), hashNum := ofLE hn, vecSalt := salts, tableSize := ofLE ts,
         bitTable := t, projected := ofLE pe, inserted := ofLE ie }

/-- bloom_filter.hpp:349-371 `WriteObject(file)`: the bytes appended to the file (utility/serialization.hpp:31-35, 46-50). -/
def writeFile (f : Filter) : Bytes :=
  leBytes 4 f.randomSeed.toNat ++ leBytes 4 f.hashNum ++ leBytes 4 f.tableSize ++ leBytes 8 f.projected ++
    leBytes 8 f.inserted ++ f.bitTable

/-- bloom_filter.hpp:375-398 `ReadObject(file)`; a short file leaves the remaining members indeterminate: `none`. -/
def readFile (rnd : List UInt32) (f : Filter) (file : Bytes) : Option Filter := readObject rnd f file

end Kunlun.Bloom
