import Verif.Model.CwPrf
/-!
Model of `mpc/oprf/ote_oprf.hpp`: the oblivious PRF built from a base OT and a matrix of pseudorandom columns.

`BasicHash` is a parameter that yields `HASH_OUTPUT_LEN` = 32 bytes; AES and the generator are the concrete ones. The scalars of the base
OT are parameters. Loops marked `omp parallel` write disjoint memory, so they are modelled in index order. The generator state
`pp.common_seed` is advanced by `Evaluate` and `Client`, so both return the new state. `KEY_SIZE`, which is never written or used, and the
printing are left out.
-/

namespace Kunlun.OTEOPRF

open Kunlun Kunlun.Proto Kunlun.AES

variable {G : Type} [AddCommGroup G] {α : Type}

/-- ote_oprf.hpp:35-52. -/
structure PP where
  range : Nat
  inputNum : Nat
  height : Nat
  logHeight : Nat
  width : Nat
  batch : Nat

/-- ote_oprf.hpp:73-79. -/
def widthFor (log : Nat) : Nat :=
  if log ≤ 10 then 591 else if log ≤ 12 then 597 else if log ≤ 14 then 603 else if log ≤ 16 then 609
  else if log ≤ 18 then 615 else if log ≤ 20 then 621 else 633

/-- ote_oprf.hpp:54-82 `Setup`; `1 << LOG_INPUT_NUM` is a shift of an `int`. -/
def setup (log stat : Nat) : Option PP :=
  if log ≤ 30 then
    some ⟨(stat + 2 * log + 7) / 8, 2 ^ log, 2 ^ log, log, widthFor log, if log < 10 then 2 ^ (log / 2) else 512⟩
  else none

/-- ote_oprf.hpp:69: the state of `common_seed` after `Setup`. -/
def commonSeed : PRG.Seed := PRG.setSeed CwPRF.fixedSeed 0

/-- `log_height_byte`, ote_oprf.hpp:256. -/
def PP.lhb (pp : PP) : Nat := (pp.logHeight + 7) / 8
/-- `matrix_height_byte`, ote_oprf.hpp:257. -/
def PP.hb (pp : PP) : Nat := pp.height / 8
/-- `split_bucket_size`, ote_oprf.hpp:258; the functions below fail when the divisor is zero. -/
def PP.sb (pp : PP) : Nat := 16 / pp.lhb
/-- Number of rounds of `for (left = 0; left < WIDTH; left += split_bucket_size)`. -/
def PP.buckets (pp : PP) : Nat := (pp.width + pp.sb - 1) / pp.sb
/-- `bucket_size`, ote_oprf.hpp:264-266. -/
def PP.bucketSize (pp : PP) (t : Nat) : Nat := min (t * pp.sb + pp.sb) pp.width - t * pp.sb

/-! ### Bits in byte vectors -/

/-- `m[i >> 3] & (1 << (i & 7))` as a truth value. -/
def bit? (m : Bytes) (i : Nat) : Option Bool := (m[i / 8]?).map fun b => b.toNat.testBit (i % 8)

/-- `m[i >> 3] |= (uint8_t)v << (i & 7)`. -/
def orBit (m : Bytes) (i : Nat) (v : Bool) : Option Bytes :=
  (m[i / 8]?).map fun b => m.set (i / 8) (UInt8.ofNat (b.toNat ||| (if v then 2 ^ (i % 8) else 0)))

/-- `m[i >> 3] &= ~(1 << (i & 7))`. -/
def clearBit (m : Bytes) (i : Nat) : Option Bytes :=
  (m[i / 8]?).map fun b => m.set (i / 8) (UInt8.ofNat (b.toNat &&& (255 - 2 ^ (i % 8))))

/-- Set bits `j, j+1, …` from the given values. -/
def orBits (f : Nat → Option Bool) : Nat → Nat → Bytes → Option Bytes
  | 0, _, m => some m
  | n + 1, j, m => (f j).bind fun v => (orBit m j v).bind (orBits f n (j + 1))

/-- Clear the bits at the given places. -/
def clearBits (loc : Nat → Option Nat) : Nat → Nat → Bytes → Option Bytes
  | 0, _, m => some m
  | n + 1, j, m => (loc j).bind fun l => (clearBit m l).bind (clearBits loc n (j + 1))

/-! ### The location of an input in each column -/

/-- ote_oprf.hpp:179-207 `Encode`. -/
def encode (BH : Bytes → Bytes) (key : Block) (X : List Block) : Option (List Block) :=
  let z0 := X.map fun x => Block.ofBytes ((BH (Block.toBytes x)).take 16)
  let z1 := X.map fun x => Block.ofBytes (((BH (Block.toBytes x)).drop 16).take 16)
  (fastECBEnc (genEncKey key) ⟨true, z0, z0⟩ X.length).map fun b => List.zipWith (· ^^^ ·) b.dst z1

/-- `FastECBEnc(key, v.data() + low, batch)`, ote_oprf.hpp:340, 427. -/
def encSlice (k : Key) (B low : Nat) (v : List Block) : Option (List Block) :=
  if low + B ≤ v.length then
    (fastECBEnc k ⟨true, (v.drop low).take B, (v.drop low).take B⟩ B).map fun b => v.take low ++ b.dst ++ v.drop (low + B)
  else none

/-- `m` batches starting at `low`, ote_oprf.hpp:338, 425. -/
def encBatches (k : Key) (B : Nat) : Nat → Nat → List Block → Option (List Block)
  | 0, _, v => some v
  | m + 1, low, v => (encSlice k B low v).bind (encBatches k B m (low + B))

/-- ote_oprf.hpp:342-349, 429-436: row `i` of `matrix_location` for inputs `j, j+1, …`. -/
def locRow (lhb i : Nat) (v : List Block) : Nat → Nat → Bytes → Option Bytes
  | 0, _, row => some row
  | n + 1, j, row => (v[j]?).bind fun b =>
    (store row (j * lhb) (((Block.toBytes b).drop (i * lhb)).take lhb)).bind (locRow lhb i v n (j + 1))

/-- ote_oprf.hpp:357, 450, 484: the four bytes at `j*log_height_byte`, masked. -/
def location (pp : PP) (row : Bytes) (j : Nat) : Option Nat :=
  if j * pp.lhb + 4 ≤ row.length then some (ofLE ((row.drop (j * pp.lhb)).take 4) &&& (2 ^ pp.logHeight - 1)) else none

/-- Encrypted inputs and `matrix_location`, kept from bucket to bucket. -/
structure Locs where
  enc : List Block
  rows : List Bytes

/-- `INPUT_NUM` rounded up to whole batches. -/
def batches (pp : PP) (n : Nat) : Nat := (n + pp.batch - 1) / pp.batch

/-- ote_oprf.hpp:335-351, 422-438: one more encryption of all inputs, then the locations for the columns of bucket `t`. -/
def step (pp : PP) (salts : List Block) (n t : Nat) (s : Locs) : Option Locs := do
  let salt ← salts[t + 1]?
  let enc ← encBatches (genEncKey salt) pp.batch (batches pp n) 0 s.enc
  let new ← (List.range (pp.bucketSize t)).mapM fun i => (s.rows[i]?).bind (locRow pp.lhb i enc (batches pp n * pp.batch) 0)
  return ⟨enc, new ++ s.rows.drop (pp.bucketSize t)⟩

/-- ote_oprf.hpp:313-332, 397-417: salts, encoded inputs and fresh `matrix_location`. -/
def start (BH : Bytes → Bytes) (pp : PP) (seed : PRG.Seed) (X : List Block) (n : Nat) : Option (List Block × Locs × PRG.Seed) :=
  if pp.lhb = 0 then none else do
    let (salts, seed') ← PRG.genRandomBlocks OTE.uninit seed (pp.width / pp.sb + 2)
    let k ← salts[0]?
    let e ← encode BH k X
    return (salts, ⟨e, List.replicate pp.sb (List.replicate (n * pp.lhb + 4) 0)⟩, seed')

/-- ote_oprf.hpp:354-360, 481-487: one row of `matrix_mapping_values` from column `C`. -/
def mapRow (pp : PP) (C : Bytes) (row : Bytes) (n : Nat) : Option Bytes :=
  orBits (fun j => (location pp row j).bind (bit? C)) n 0 (List.replicate pp.hb 0)

/-- The rows for the columns of bucket `t`. -/
def mapBucket (pp : PP) (cols : Nat → Bytes) (s : Locs) (n t : Nat) : Option (List Bytes) :=
  (List.range (pp.bucketSize t)).mapM fun i => (s.rows[i]?).bind fun r => mapRow pp (cols i) r n

/-- ote_oprf.hpp:210-240 `Packing`. -/
def packing (BH : Bytes → Bytes) (pp : PP) (mapping : List Bytes) : Option (List Bytes) :=
  if pp.height % pp.batch ≠ 0 then none else if 32 < pp.range then none else
    (List.range pp.height).mapM fun j =>
      (orBits (fun i => (mapping[i]?).bind fun r => bit? r j) pp.width 0 (List.replicate ((pp.width + 7) / 8) 0)).map fun r =>
        (BH r).take pp.range

/-! ### The three functions -/

/-- `ReSeed(seed, &key, 0)` then `GenRandomBytes(seed, n)`. -/
def prgBytes (key : Block) (n : Nat) : Option Bytes := (PRG.genRandomBytes OTE.uninit (PRG.setSeed key 0) n).map (·.1)

/-- ote_oprf.hpp:272-282: column `c` from its seed and, if selected, row `i` of the received matrix. -/
def serverCol (pp : PP) (K : List Block) (sel B : Bytes) (t i : Nat) : Option Bytes :=
  (prgBytes (K.getD (t * pp.sb + i) 0) pp.hb).bind fun p =>
    if sel.getD (t * pp.sb + i) 0 = 0 then some p else PRG.xorBytes p ((B.drop (i * pp.hb)).take pp.hb)

/-- ote_oprf.hpp:263-283: `n` buckets to go from bucket `t`. -/
def serverBuckets (net : Net G) (pp : PP) (K : List Block) (sel : Bytes) : Nat → Nat → List Bytes → (List Bytes → Proc α) → Proc α
  | 0, _, acc, k => k acc
  | n + 1, t, acc, k =>
    recvBytes net (pp.bucketSize t * pp.hb) fun B =>
    match (List.range (pp.bucketSize t)).mapM (serverCol pp K sel B t) with
    | none => .fail
    | some cols => serverBuckets net pp K sel n (t + 1) (acc ++ cols) k

/-- ote_oprf.hpp:291-295: the key is the columns, each padded to `MATRIX_HEIGHT` bytes. -/
def flattenKey (pp : PP) (cols : List Bytes) : Bytes :=
  (cols.map fun c => c ++ List.replicate (pp.height - c.length) 0).flatten

/-- ote_oprf.hpp:243-298 `Server`. -/
def server (e : OTE.Env G) (pp : PP) (sk : Nat → ℤ) : Proc Bytes :=
  if pp.lhb = 0 then .fail else
  match OTE.senderBits CwPRF.fixedSeed pp.width with
  | none => .fail
  | some sel => (NPOT.receive e.net e.kdf e.g sk sel pp.width).bind fun K =>
    serverBuckets e.net pp K sel pp.buckets 0 [] fun cols => .done (flattenKey pp cols)

/-- ote_oprf.hpp:307-310: column `c` of the key. -/
def keyCol (pp : PP) (key : Bytes) (c : Nat) : Bytes := (key.drop (c * pp.height)).take pp.height

/-- ote_oprf.hpp:333-361: `n` buckets to go from bucket `t`. -/
def evalBuckets (pp : PP) (key : Bytes) (salts : List Block) (num : Nat) : Nat → Nat → Locs → List Bytes → Option (List Bytes)
  | 0, _, _, acc => some acc
  | n + 1, t, s, acc => do
    let s' ← step pp salts num t s
    let rows ← mapBucket pp (fun i => keyCol pp key (t * pp.sb + i)) s' num t
    evalBuckets pp key salts num n (t + 1) s' (acc ++ rows)

/-- ote_oprf.hpp:301-379 `Evaluate`; reading past the end of `key` is undefined. -/
def evaluate (BH : Bytes → Bytes) (pp : PP) (seed : PRG.Seed) (key : Bytes) (X : List Block) (num : Nat) : Option (List Bytes × PRG.Seed) :=
  if key.length < pp.width * pp.height then none else do
    let (salts, s, seed') ← start BH pp seed X num
    let rows ← evalBuckets pp key salts num pp.buckets 0 s []
    let out ← packing BH pp rows
    return (out, seed')

/-- ote_oprf.hpp:440-454: row `i` of the bucket's `matrix_D`. -/
def colD (pp : PP) (row : Bytes) (num : Nat) : Option Bytes := clearBits (location pp row) num 0 (List.replicate pp.hb 255)

/-- ote_oprf.hpp:462-475: column `i` of the bucket: `A` and the row of `B` that is sent. -/
def clientCol (pp : PP) (K0 K1 : List Block) (s : Locs) (num t i : Nat) : Option (Bytes × Bytes) := do
  let row ← s.rows[i]?
  let D ← colD pp row num
  let A ← prgBytes (K0.getD (t * pp.sb + i) 0) pp.hb
  let P ← prgBytes (K1.getD (t * pp.sb + i) 0) pp.hb
  let AD ← PRG.xorBytes A D
  let B ← PRG.xorBytes P AD
  return (A, B)

/-- ote_oprf.hpp:419-488: `n` buckets to go from bucket `t`. -/
def clientBuckets (net : Net G) (pp : PP) (K0 K1 salts : List Block) (num : Nat) :
    Nat → Nat → Locs → List Bytes → (List Bytes → Proc α) → Proc α
  | 0, _, _, acc, k => k acc
  | n + 1, t, s, acc, k =>
    match step pp salts num t s with
    | none => .fail
    | some s' =>
      match (List.range (pp.bucketSize t)).mapM (clientCol pp K0 K1 s' num t) with
      | none => .fail
      | some AB =>
        sendBytes net (AB.map (·.2)).flatten <|
        match mapBucket pp (fun i => (AB.map (·.1)).getD i []) s' num t with
        | none => .fail
        | some rows => clientBuckets net pp K0 K1 salts num n (t + 1) s' (acc ++ rows) k

/-- ote_oprf.hpp:388-390: the two seeds of each column. -/
def clientSeeds (width : Nat) : Option (List Block × List Block) := do
  let (K0, s1) ← PRG.genRandomBlocks OTE.uninit (PRG.setSeed CwPRF.fixedSeed 0) width
  let (K1, _) ← PRG.genRandomBlocks OTE.uninit s1 width
  return (K0, K1)

/-- ote_oprf.hpp:382-507 `Client`. -/
def client (e : OTE.Env G) (BH : Bytes → Bytes) (pp : PP) (seed : PRG.Seed) (d : ℤ) (r : Nat → ℤ) (Y : List Block) (num : Nat) :
    Proc (List Bytes × PRG.Seed) :=
  match clientSeeds pp.width with
  | none => .fail
  | some (K0, K1) => (NPOT.send e.net e.kdf e.g d r K0 K1 pp.width).bind fun _ =>
    match start BH pp seed Y num with
    | none => .fail
    | some (salts, s, seed') =>
      clientBuckets e.net pp K0 K1 salts num pp.buckets 0 s [] fun rows =>
        Proc.ofOption ((packing BH pp rows).map fun out => (out, seed'))

end Kunlun.OTEOPRF
