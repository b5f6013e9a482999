import Verif.Props.Okvs
/-!
Model of the binned OKVS of `mpc/okvs/baxos.hpp`: `solve` (assignment of the keys to bins by several threads, one OKVS per bin) and
`decode` (batches per bin). The threads write disjoint places and are run one after the other; OpenMP is taken to give exactly
`thread_num` threads.
-/

namespace Kunlun.Baxos
open Kunlun Kunlun.OKVS Kunlun.FastDiv

/-- Parameters of a `Baxos` object (baxos.hpp:17-27, 49-93): dense type, weight, sizes of the OKVS of one bin, `bin_num`,
`item_num_per_bin`, and the `bin_size_per_thread` of line 114. The floating point formulas are not modelled: `s`, `gLim`, `perBin` and
`cap` are arbitrary numbers. -/
structure BCfg where
  binary : Bool
  w : Nat
  s : Nat
  gLim : Nat
  ssp : Nat
  bins : Nat
  perBin : Nat
  cap : Nat

/-- baxos.hpp:528-550: the index type, from `log2_ceil(sparse_size + 1)`. -/
def idxFor (s : Nat) : Idx :=
  if s + 1 ≤ 2 ^ 8 then .u8 else if s + 1 ≤ 2 ^ 16 then .u16 else if s + 1 ≤ 2 ^ 32 then .u32 else .u64

/-- The OKVS of a bin with `n` items (baxos.hpp:249-257, 374-390). -/
def BCfg.cfg (c : BCfg) (n : Nat) : Cfg := ⟨idxFor c.s, c.binary, c.w, n, c.s, c.gLim, c.ssp⟩

/-- `total_size` of a bin. -/
def BCfg.total (c : BCfg) : Nat := c.s + (c.cfg 0).ds

/-- baxos.hpp:200-203, 351-356 `get_bin_idx`: the word that selects the bin. -/
def binWord (d : Block) : BitVec 64 := d.extractLsb' 0 64 ^^^ d.extractLsb' 64 64 ^^^ (d.extractLsb' 96 32).setWidth 64

/-- The bin of a hash value. -/
def binOf (B : Nat) (d : Block) : Nat := (binWord d).toNat % B

/-- baxos.hpp:192-232, 395-450: the bins of a list of hash values, by groups of 32 with `doMod32` and then singly with `%`. -/
def binAll (B : Nat) (dv : Divider) : Nat → List Block → Option (List Nat)
  | 0, ds => some (ds.map (binOf B))
  | fuel + 1, ds =>
    if 32 ≤ ds.length then
      match doMod32 ((ds.take 32).map binWord) dv (BitVec.ofNat 64 B), binAll B dv fuel (ds.drop 32) with
      | some a, some b => some (a.map BitVec.toNat ++ b)
      | _, _ => none
    else some (ds.map (binOf B))

/-- `begin` of a thread (baxos.hpp:178, 508). -/
def cut (K T t : Nat) : Nat := K * t / T

/-- The part of a list handled by thread `t` of `T`. -/
def slice {α : Type} (l : List α) (T t : Nat) : List α :=
  (l.drop (cut l.length T t)).take (cut l.length T (t + 1) - cut l.length T t)

/-- baxos.hpp:206-214, 233-239: the items put one by one into the slots of their bins. A slot has `bin_size_per_thread` places and its
counter is of type `idx_type`; going past either is not a defined execution. -/
def assign {V : Type} (c : BCfg) : List (Nat × Block × V) → (Nat → List (Block × V)) → Option (Nat → List (Block × V))
  | [], tb => some tb
  | (b, x) :: r, tb =>
    if (tb b).length < c.cap ∧ (tb b).length + 1 < 2 ^ (idxFor c.s).bits then assign c r (Function.update tb b (tb b ++ [x])) else none

/-- baxos.hpp:172-243, one thread of the first parallel region. With fewer than 32 keys `len - 32` wraps around and the first loop reads
past the keys. -/
def threadTable {V : Type} (c : BCfg) (dv : Divider) (items : List (Block × V)) : Option (Nat → List (Block × V)) :=
  if items.length < 32 then none
  else
    match binAll c.bins dv items.length (items.map Prod.fst) with
    | none => none
    | some bs => assign c (bs.zip items) fun _ => []

/-- baxos.hpp:285-325: the OKVS of one bin. The storage has room for `item_num_per_bin` items. -/
def solveBin {V : Type} (o : ValOps V) (c : BCfg) (junk : Nat → Node) (rnd : Option (Rnd V)) (out0 : Nat → V) (items : List (Block × V)) :
    Option (Nat → V) :=
  if c.perBin < items.length then none
  else
    (new (c.cfg items.length)).bind fun dvs => (setKeys (c.cfg items.length) dvs junk (items.map Prod.fst)).bind fun st =>
      encode o (c.cfg items.length) st rnd (fun r => (items.map Prod.snd).getD r o.zero) out0

/-- baxos.hpp:95-348 `impl_solve`. `hs` are the hash values of the keys (`setDense`), `out` the buffer of the caller, `rnd b` the random
values used for bin `b`. The loop of line 250 over the bins has an 8-bit counter that is increased by `thread_num`: if it wraps around,
bins are handled twice or for ever. -/
def solve {V : Type} (o : ValOps V) (c : BCfg) (T : Nat) (junk : Nat → Nat → Node) (rnd : Nat → Option (Rnd V)) (hs : List Block)
    (values : List V) (out : Nat → V) : Option (Nat → V) :=
  if hs.length ≠ values.length then none
  else if c.bins = 1 then
    if hs.length ≠ c.perBin then none
    else solveBin o c (junk 0) (rnd 0) (fun _ => o.zero) (hs.zip values)
  else if T = 0 then none
  else if (List.range c.bins).any fun b => decide (256 ≤ b + T) then none
  else
    match genDivider (BitVec.ofNat 64 c.bins) with
    | .ok dv =>
      match (List.range T).mapM fun t => threadTable c dv (slice (hs.zip values) T t) with
      | none => none
      | some tabs =>
        match (List.range c.bins).mapM fun b =>
            solveBin o c (junk b) (rnd b) (fun i => out (b * c.total + i)) (tabs.flatMap fun tb => tb b) with
        | none => none
        | some outs => some fun a => (outs.getD (a / c.total) fun _ => out a) (a % c.total)
    | _ => none

/-! ### decode -/

/-- State of `impl_decode_batch`: `batches` with `keys_idxes`, `values` and `value_buffer`. -/
structure Dec (V : Type) where
  batch : Nat → List (Block × Nat)
  vals : Nat → V
  buf : Nat → V

/-- The vector of bin `b`. -/
def seg {V : Type} (c : BCfg) (out : Nat → V) (b : Nat) : Nat → V := fun i => out (b * c.total + i)

/-- baxos.hpp:425-438, 462-472, 483-494: decode a batch and store the values. `decode` takes the number of keys as `idx_type`, so only that
many entries of `value_buffer` are new. -/
def flush {V : Type} (o : ValOps V) (c : BCfg) (dvs : List Divider) (out : Nat → V) (b : Nat) (st : Dec V) : Option (Dec V) :=
  match decode o (c.cfg 0) dvs (seg c out b) ((st.batch b).map Prod.fst) with
  | none => none
  | some vs =>
    let k := (st.batch b).length % 2 ^ (idxFor c.s).bits
    let buf := fun i => if i < k then vs.getD i o.zero else st.buf i
    some ⟨Function.update st.batch b [],
      (st.batch b).zipIdx.foldl (fun f p => Function.update f p.1.2 (buf p.2)) st.vals, buf⟩

/-- baxos.hpp:413-474: one key. -/
def step {V : Type} (o : ValOps V) (c : BCfg) (dvs : List Divider) (out : Nat → V) (size : Nat) (b : Nat) (x : Block × Nat) (st : Dec V) :
    Option (Dec V) :=
  let st' : Dec V := ⟨Function.update st.batch b (st.batch b ++ [x]), st.vals, st.buf⟩
  if (st.batch b).length + 1 = size then flush o c dvs out b st' else some st'

/-- All keys. -/
def batchLoop {V : Type} (o : ValOps V) (c : BCfg) (dvs : List Divider) (out : Nat → V) (size : Nat) :
    List (Nat × Block × Nat) → Dec V → Option (Dec V)
  | [], st => some st
  | (b, x) :: r, st => (step o c dvs out size b x st).bind (batchLoop o c dvs out size r)

/-- baxos.hpp:476-495: the rest of bins. -/
def finish {V : Type} (o : ValOps V) (c : BCfg) (dvs : List Divider) (out : Nat → V) : List Nat → Dec V → Option (Dec V)
  | [], st => some st
  | b :: bs, st => if st.batch b = [] then finish o c dvs out bs st else (flush o c dvs out b st).bind (finish o c dvs out bs)

/-- baxos.hpp:363-496 `impl_decode_batch` on the keys with hash values `hs`; `vals` is what the result places hold before. -/
def decodeBatch {V : Type} (o : ValOps V) (c : BCfg) (dvs : List Divider) (out : Nat → V) (vals : Nat → V) (hs : List Block) :
    Option (List V) :=
  match genDivider (BitVec.ofNat 64 c.bins) with
  | .ok dv =>
    match binAll c.bins dv hs.length hs with
    | none => none
    | some bs =>
      match batchLoop o c dvs out (min 512 hs.length) (bs.zip hs.zipIdx) ⟨fun _ => [], vals, fun _ => o.zero⟩ with
      | none => none
      | some st =>
        match finish o c dvs out (List.range c.bins) st with
        | none => none
        | some st => some ((List.range hs.length).map st.vals)
  | _ => none

/-- baxos.hpp:498-522 `impl_decode`, with `T` threads. For a single bin `decode` takes the number of keys as `idx_type`; the other
places keep what they held (`vals`). -/
def decodeAll {V : Type} (o : ValOps V) (c : BCfg) (T : Nat) (out : Nat → V) (vals : Nat → V) (hs : List Block) : Option (List V) :=
  if c.bins = 1 then
    (new (c.cfg c.perBin)).bind fun dvs => (decode o (c.cfg c.perBin) dvs out hs).map fun vs =>
      (List.range hs.length).map fun i => if i < hs.length % 2 ^ (idxFor c.s).bits then vs.getD i o.zero else vals i
  else if T = 0 then none
  else
    match mkDividers c.w c.s with
    | none => none
    | some dvs =>
      ((List.range T).mapM fun t => decodeBatch o c dvs out (fun i => vals (cut hs.length T t + i)) (slice hs T t)).map List.flatten

end Kunlun.Baxos
