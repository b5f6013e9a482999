import Verif.Model.OkvsRow
import Verif.Model.Aes
import Verif.Model.OkvsLists
import Verif.Model.MatInv
/-!
Model of the OKVS ("paxos") of `mpc/okvs/paxos.hpp`: `set_keys`, `triangulate`, `get_FC_1`, the three `backfill` functions, `encode`
and `decode`. Values are any type with the operations of `ValOps`; the random values of the randomised form are arbitrary functions.
-/

namespace Kunlun.OKVS
open Kunlun Kunlun.FastDiv

/-- Operations used on `value_type`: the default value, `^`, and `gf128_mul` with a block (okvs_utility.hpp:465-506).
`blocks` is `sizeof(value_type) / sizeof(block)`. -/
structure ValOps (V : Type) where
  zero : V
  xor : V → V → V
  mul : V → Block → V
  blocks : Nat

/-- `value_type = block`. -/
def blockOps : ValOps Block := ⟨0#128, (· ^^^ ·), GF.mul, 1⟩

/-- okvs_utility.hpp:18-62, 498-506 `BlockArrayValue`: nine blocks, all operations entrywise. -/
def arrayOps : ValOps (Fin 9 → Block) := ⟨fun _ => 0#128, fun a b i => a i ^^^ b i, fun a b i => GF.mul (a i) b, 9⟩

/-- Parameters of an OKVS object (paxos.hpp:257-300, 584-640): index type, dense type, `sparse_weight`, `item_num`, `sparse_size`,
`g_limit` and `statistical_security_parameter`. The floating point formulas for `sparse_size` and `g_limit` are not modelled; the
two numbers are arbitrary. -/
structure Cfg where
  t : Idx
  binary : Bool
  w : Nat
  n : Nat
  s : Nat
  gLim : Nat
  ssp : Nat

/-- paxos.hpp:633 `dense_size`. -/
def Cfg.ds (c : Cfg) : Nat := c.gLim + if c.binary then c.ssp else 0

/-- paxos.hpp:619-645, the constructor: `sparse_weight < 2` throws (line 586-589), then the dividers. The other conditions say that the
numbers fit `idx_type` (`item_num` is of that type; `sparse_size + i` is computed in it, the two small types being promoted to `int`). -/
def new (c : Cfg) : Option (List Divider) :=
  if c.w < 2 then none
  else if 2 ^ c.t.bits ≤ c.n then none
  else if 32 ≤ c.t.bits ∧ 2 ^ c.t.bits ≤ c.s + c.ds then none
  else mkDividers c.w c.s

/-- `h_dense` and `h_sparse`. -/
structure Mat where
  dense : List Block
  rows : List (List Nat)

/-- `h_sparse[r]` -/
def Mat.row (m : Mat) (r : Nat) : List Nat := m.rows.getD r []
/-- `h_dense[r]` -/
def Mat.d (m : Mat) (r : Nat) : Block := m.dense.getD r 0#128

/-- paxos.hpp:957, 975, 996 `col_weights[col]++` for every entry. (A column is at most once in a row, so no counter passes `item_num`,
which fits `idx_type`.) -/
def colWeights (rows : List (List Nat)) : Nat → Nat :=
  rows.flatten.foldl (fun cw c => Function.update cw c (cw c + 1)) fun _ => 0

/-- paxos.hpp:1141-1149, one row: `h_cols[col][col_weights_now[col]++] = row` with its assertion. -/
def hcolsRow (cw : Nat → Nat) (r : Nat) : List Nat → (Nat → List Nat) → Option (Nat → List Nat)
  | [], h => some h
  | c :: cs, h => if (h c).length < cw c then hcolsRow cw r cs (Function.update h c (h c ++ [r])) else none

/-- paxos.hpp:1134-1150 `init_hcols`, rows numbered from `r`. -/
def hcolsAll (cw : Nat → Nat) : Nat → List (List Nat) → (Nat → List Nat) → Option (Nat → List Nat)
  | _, [], h => some h
  | r, row :: rows, h => (hcolsRow cw r row h).bind (hcolsAll cw (r + 1) rows)

/-- paxos.hpp:651-678 `set_dense`: the hash value of a key (`FastECBEnc` works block by block, C14; the groups of eight are only
unrolling). -/
def setDense (key : AES.Key) (keys : List Block) : List Block := keys.map fun k => AES.enc key k ^^^ k

/-- The object after `set_keys`. -/
structure St where
  m : Mat
  hcols : Nat → List Nat
  ws : WS

/-- paxos.hpp:1153-1212 `set_keys` on a new object, from the hashed keys. -/
def setKeys (c : Cfg) (dvs : List Divider) (junk : Nat → Node) (dense : List Block) : Option St :=
  if dense.length ≠ c.n then none
  else
    match sparseAll c.t c.w c.s dvs c.n dense with
    | none => none
    | some rows =>
      if rows.flatten.all (· < c.s) then
        match weightStatistic junk (colWeights rows) c.s, hcolsAll (colWeights rows) 0 rows fun _ => [] with
        | some ws, some h => some ⟨⟨dense, rows⟩, h, ws⟩
        | _, _ => none
      else none

/-! ### triangulate -/

/-- State of `triangulate`: the column lists, `row_sign`, `triangular_c_rows`, `triangular_c_cols`, `gap_rows`,
`gap_rows_first_row`. -/
structure Tri where
  ws : WS
  sign : Nat → Bool
  triR : List Nat
  triC : List Nat
  gapR : List Nat
  gapF : List Nat

/-- paxos.hpp:1841-1859: lower the weights of the columns of a row. -/
def decrRow (ws : WS) : List Nat → Option WS
  | [] => some ws
  | c :: cs => (decr ws c).bind fun ws' => decrRow ws' cs

/-- paxos.hpp:1828-1888: the rows of column `c`. -/
def colLoop (m : Mat) (c : Nat) : List Nat → Bool → Tri → Option Tri
  | [], _, st => some st
  | r :: rs, first, st =>
    if st.sign r then colLoop m c rs first st
    else
      match decrRow st.ws (m.row r) with
      | none => none
      | some ws =>
        if first then
          colLoop m c rs false
            { st with ws := ws, sign := Function.update st.sign r true, triR := st.triR ++ [r], triC := st.triC ++ [c] }
        else
          match st.triR.getLast? with
          | none => none
          | some fr =>
            if Block.compare (m.d r) (m.d fr) then none
            else
              colLoop m c rs false
                { st with ws := ws, sign := Function.update st.sign r true, gapR := st.gapR ++ [r], gapF := st.gapF ++ [fr] }

/-- paxos.hpp:1814-1890, the loop of `triangulate`. `fuel` bounds the number of turns; `item_num` is enough
(`okvs_triangulate_fuel`). -/
def triLoop (st0 : St) : Nat → Tri → Option Tri
  | 0, st => if st.ws.head.length ≤ 1 then some st else none
  | fuel + 1, st =>
    if st.ws.head.length ≤ 1 then some st
    else
      match findPopMin st.ws with
      | none => none
      | some (ws, c) => (colLoop st0.m c (st0.hcols c) true { st with ws := ws }).bind (triLoop st0 fuel)

/-- paxos.hpp:1800-1892 `triangulate` on a new object. -/
def triangulate (c : Cfg) (st : St) : Option Tri := triLoop st c.n ⟨st.ws, fun _ => false, [], [], [], []⟩

/-! ### get_FC_1 -/

/-- paxos.hpp:1237-1238 `colPermutation`. -/
def colPerm (triC : List Nat) : Nat → Option Nat :=
  (List.range triC.length).foldl (fun f j => Function.update f (triC.getD (triC.length - j - 1) 0) (some j)) fun _ => none

/-- paxos.hpp:1262-1267: put into the set or take out of it. The `std::set` is a list without repetitions. -/
def toggle (f : List Nat) (x : Nat) : List Nat := if x ∈ f then f.erase x else x :: f

/-- paxos.hpp:1242-1247: the pivot columns of a row, permuted. -/
def startF (perm : Nat → Option Nat) : List Nat → List Nat → List Nat
  | [], f => f
  | c :: cs, f =>
    match perm c with
    | none => startF perm cs f
    | some j => startF perm cs (if j ∈ f then f else j :: f)

/-- paxos.hpp:1256-1269 with the assertion `col_permuted <= temp`. -/
def elimRow (perm : Nat → Option Nat) (mx : Nat) : List Nat → List Nat → Option (List Nat)
  | [], f => some f
  | c :: cs, f =>
    match perm c with
    | none => elimRow perm mx cs f
    | some j => if j ≤ mx then elimRow perm mx cs (toggle f j) else none

/-- paxos.hpp:1248-1270 `while (F_i.size())`. `F_i.begin()` is the largest element. -/
def elimF (m : Mat) (triR : List Nat) (perm : Nat → Option Nat) : Nat → List Nat → List Nat → Option (List Nat)
  | _, [], acc => some acc
  | 0, _ :: _, _ => none
  | fuel + 1, x :: xs, acc =>
    let mx := xs.foldl max x
    if mx < triR.length then
      let r := triR.getD (triR.length - mx - 1) 0
      (elimRow perm mx (m.row r) (x :: xs)).bind fun f => elimF m triR perm fuel f (acc ++ [r])
    else none

/-- paxos.hpp:1215-1273 `get_FC_1`, one gap row. -/
def fcRow (m : Mat) (tr : Tri) (r fr : Nat) : Option (List Nat) :=
  if m.row r = m.row fr then some [fr]
  else elimF m tr.triR (colPerm tr.triC) (tr.triC.length + 1) (startF (colPerm tr.triC) (m.row r) []) []

/-- paxos.hpp:1215-1273 `get_FC_1` for the first `g` gap rows. -/
def fcAll (m : Mat) (tr : Tri) (g : Nat) : Option (List (List Nat)) :=
  (List.range g).mapM fun i => fcRow m tr (tr.gapR.getD i 0) (tr.gapF.getD i 0)

/-! ### backfill -/

/-- The random values of the randomised form: for free columns, for dense positions, and (gf_128 with gaps) rows of the matrix and
right hand sides. All come from the generator `*prng`. -/
structure Rnd (V : Type) where
  col : Nat → V
  dense : Nat → V
  E : Nat → Nat → Block
  rhs : Nat → V

/-- Bit `j` of a dense block: by bytes for `dense_size > 64`, otherwise by shifting the low 64 bits (paxos.hpp:1545-1570, 1975-1998). -/
def bitAt (ds : Nat) (d : Block) (j : Nat) : Bool :=
  if 64 < ds then ((d >>> (8 * (j / 8))).setWidth 8 >>> (j % 8)).getLsbD 0 else (d.setWidth 64 >>> j).getLsbD 0

/-- `d, d^2, d^3, …` as computed by the loops `d_i = gf128_mul(d_i, common_ratio_d)`. -/
def gpow (d : Block) : Nat → Block
  | 0 => d
  | k + 1 => GF.mul (gpow d k) d

/-- Xor of the values at the columns of a row. -/
def spSum {V : Type} (o : ValOps V) (x : Nat → V) (acc : V) (row : List Nat) : V := row.foldl (fun a c => o.xor a (x c)) acc

/-- The binary dense part over positions `js`. -/
def binSum {V : Type} (o : ValOps V) (ds : Nat) (d : Block) (x : Nat → V) (acc : V) (js : List Nat) : V :=
  js.foldl (fun a j => if bitAt ds d j then o.xor a (x j) else a) acc

/-- The gf_128 dense part. -/
def gfSum {V : Type} (o : ValOps V) (ds : Nat) (d : Block) (x : Nat → V) (acc : V) : V :=
  (List.range ds).foldl (fun a j => o.xor a (o.mul (x j) (gpow d j))) acc

/-- Back substitution: `output[col] = values[row] ^ (row of the matrix times output)` for the pairs (row, column) in order
(paxos.hpp:1350-1378, 1485-1510, 1700-1797). -/
def triSolve {V : Type} (rhs : (Nat → V) → Nat → V) : List (Nat × Nat) → (Nat → V) → Nat → V
  | [], out => out
  | (r, c) :: l, out => triSolve rhs l (Function.update out c (rhs out r))

/-- okvs_utility.hpp:548-560 `prev_combination`: positions `i`, `i-1`, …, `0` (argument is the number of positions left). -/
def prevFrom (n : Nat) (comb : List Nat) : Nat → Option (List Nat)
  | 0 => none
  | i + 1 =>
    if comb.getD i 0 < (n + 2 ^ 64 - comb.length + i) % 2 ^ 64 then
      some (comb.take i ++ (List.range (comb.length - i)).map fun j => (comb.getD i 0 + 1 + j) % 256)
    else prevFrom n comb i

/-- okvs_utility.hpp:548-560 `prev_combination`. -/
def prevComb (comb : List Nat) (n : Nat) : Option (List Nat) := prevFrom n comb comb.length

/-- paxos.hpp:1556-1582: the matrix of the selected columns. -/
def selMat (ds : Nat) (eRow : List Block) (gc : List Nat) : List (List UInt8) :=
  eRow.map fun e => gc.map fun j => if bitAt ds e j then 1 else 0

/-- paxos.hpp:1551-1586: look for columns with an invertible matrix. The first combination is skipped, as in the code. `fuel` bounds
the number of combinations. -/
def findCols (ds : Nat) (eRow : List Block) : Nat → List Nat → Option (List Nat × List (List UInt8))
  | 0, _ => none
  | fuel + 1, gc =>
    match prevComb gc ds with
    | none => none
    | some gc' =>
      match MatInv.checkInvert (selMat ds eRow gc') with
      | none => none
      | some (true, inv) => some (gc', inv)
      | some (false, _) => findCols ds eRow fuel gc'

/-- paxos.hpp:1606-1614 (also 1327-1334, 1461-1468): value of a gap row after elimination. -/
def gapVal {V : Type} (o : ValOps V) (v : Nat → V) (r : Nat) (fc : List Nat) : V := fc.foldl (fun a j => o.xor a (v j)) (v r)

/-- paxos.hpp:1539-1544: dense block of a gap row after elimination. -/
def gapDense (m : Mat) (r : Nat) (fc : List Nat) : Block := m.d r ^^^ fc.foldl (fun a j => a ^^^ m.d j) 0#128

/-- Set the dense positions `js` (relative to `sparse_size`) to `x`. -/
def fill {V : Type} (s : Nat) (x : Nat → V) (js : List Nat) (out : Nat → V) : Nat → V :=
  js.foldl (fun f j => Function.update f (s + j) (x j)) out

/-- `output[s + pos i] ^= x i` for `i = 0, 1, …`. -/
def addAt {V : Type} (o : ValOps V) (s : Nat) (pos : Nat → Nat) (x : Nat → V) (g : Nat) (out : Nat → V) : Nat → V :=
  (List.range g).foldl (fun f i => Function.update f (s + pos i) (o.xor (f (s + pos i)) (x i))) out

/-- paxos.hpp:1588-1604, 1684-1697: random values at the dense positions `js`, if randomised. -/
def randFill {V : Type} (s : Nat) (js : List Nat) (rnd : Option (Rnd V)) (out : Nat → V) : Nat → V :=
  match rnd with
  | none => out
  | some rn => fill s rn.dense js out

/-- paxos.hpp:1615-1669: with random values at the positions `js` their part moves to the right hand side. -/
def moveRhs {V : Type} (o : ValOps V) (ds : Nat) (e : Block) (x : Nat → V) (js : List Nat) (rnd : Option (Rnd V)) (a : V) : V :=
  match rnd with
  | none => a
  | some _ => binSum o ds e x a js

/-- `output_ ^= values_[j]` for the `j` with `E_[i][j]` (paxos.hpp:1674-1681). -/
def selSum {V : Type} (o : ValOps V) (g : Nat) (row : List UInt8) (vals : List V) : V :=
  (List.range g).foldl (fun a j => if row.getD j 0 ≠ 0 then o.xor a (vals.getD j o.zero) else a) o.zero

/-- paxos.hpp:1521-1682: the gaps of the binary form. Result: `gap_cols` and the output. For values of more than one block line 1527
reads past `Block::zero_block`. -/
def gapsBin {V : Type} (o : ValOps V) (c : Cfg) (m : Mat) (tr : Tri) (g : Nat) (rnd : Option (Rnd V)) (v : Nat → V) (out : Nat → V) :
    Option (List Nat × (Nat → V)) :=
  if c.gLim < g then none
  else if 1 < o.blocks then none
  else
    match fcAll m tr g with
    | none => none
    | some fcs =>
      let eRow := (List.range g).map fun i => gapDense m (tr.gapR.getD i 0) (fcs.getD i [])
      match findCols c.ds eRow (2 ^ c.ds) (List.range g) with
      | none => none
      | some (gc, inv) =>
        let others := (List.range c.ds).filter (· ∉ gc)
        let out1 := randFill c.s others rnd out
        let vals := (List.range g).map fun i =>
          moveRhs o c.ds (eRow.getD i 0#128) (fun j => out1 (c.s + j)) others rnd (gapVal o v (tr.gapR.getD i 0) (fcs.getD i []))
        some (gc, addAt o c.s (fun i => gc.getD i 0) (fun i => selSum o g (inv.getD i []) vals) g out1)

/-- paxos.hpp:1512-1798 `backfill_binary`. A dense block has 128 bits only. -/
def backfillBin {V : Type} (o : ValOps V) (c : Cfg) (m : Mat) (tr : Tri) (rnd : Option (Rnd V)) (v : Nat → V) (out : Nat → V) :
    Option (Nat → V) :=
  let g := tr.gapR.length % 256
  if 128 < c.ds then none
  else
    match (if g ≠ 0 then gapsBin o c m tr g rnd v out
      else if rnd.isSome ∧ 1 < o.blocks ∧ 0 < c.ds then none
      else some ([], randFill c.s (List.range c.ds) rnd out)) with
    | none => none
    | some (gc, out) =>
      if tr.triR.length < c.n - g then none
      else
        some (triSolve (fun x r => binSum o c.ds (m.d r) (fun j => x (c.s + j)) (spSum o x (v r) (m.row r))
            (if rnd.isSome then List.range c.ds else gc))
          ((tr.triR.zip tr.triC).take (c.n - g)).reverse out)

/-- paxos.hpp:1399-1440: entry `k` of row `i` of the matrix. -/
def gfEnt {V : Type} (m : Mat) (tr : Tri) (g : Nat) (fcs : List (List Nat)) (rnd : Option (Rnd V)) (i k : Nat) : Block :=
  if i < g then (fcs.getD i []).foldl (fun a r => a ^^^ gpow (m.d r) k) (gpow (m.d (tr.gapR.getD i 0)) k)
  else match rnd with
    | none => 0#128
    | some rn => rn.E i k

/-- paxos.hpp:1435, 1452-1459: right hand side `i`. -/
def gfRhs {V : Type} (o : ValOps V) (tr : Tri) (g : Nat) (fcs : List (List Nat)) (rnd : Option (Rnd V)) (v : Nat → V) (i : Nat) : V :=
  if i < g then gapVal o v (tr.gapR.getD i 0) (fcs.getD i [])
  else match rnd with
    | none => o.zero
    | some rn => rn.rhs i

/-- paxos.hpp:1461-1468: a row of the inverse times the right hand sides. -/
def gfSolve {V : Type} (o : ValOps V) (len : Nat) (row : List Block) (vals : List V) : V :=
  (List.range len).foldl (fun a j => o.xor a (o.mul (vals.getD j o.zero) (row.getD j 0#128))) o.zero

/-- paxos.hpp:1391-1470 (1278-1340 for `BlockArrayValue`): the gaps of the gf_128 form. -/
def gapsGf {V : Type} (o : ValOps V) (c : Cfg) (m : Mat) (tr : Tri) (g : Nat) (rnd : Option (Rnd V)) (v : Nat → V) (out : Nat → V) :
    Option (Nat → V) :=
  if c.gLim < g then none
  else
    match fcAll m tr g with
    | none => none
    | some fcs =>
      let len := if rnd.isSome then c.ds else g
      match MatInv.checkInvertGF ((List.range len).map fun i => (List.range len).map fun k => gfEnt m tr g fcs rnd i k) with
      | some (true, inv) =>
        let vals := (List.range len).map (gfRhs o tr g fcs rnd v)
        some (addAt o c.s (fun i => i) (fun i => gfSolve o len (inv.getD i []) vals) len out)
      | _ => none

/-- paxos.hpp:1387-1511 `backfill_gf128` and 1274-1379 `backfill_BlockArrayValue128`. With `prng` and `dense_size = 0` line 1500 (1367)
reads `output[total_size]`. -/
def backfillGf {V : Type} (o : ValOps V) (c : Cfg) (m : Mat) (tr : Tri) (rnd : Option (Rnd V)) (v : Nat → V) (out : Nat → V) :
    Option (Nat → V) :=
  let g := tr.gapR.length % 256
  match (if g ≠ 0 then gapsGf o c m tr g rnd v out else some (randFill c.s (List.range c.ds) rnd out)) with
  | none => none
  | some out =>
    if (g ≠ 0 ∨ rnd.isSome) ∧ c.ds = 0 ∧ tr.triR ≠ [] then none
    else
      some (triSolve (fun x r =>
          let a := spSum o x (v r) (m.row r)
          if g ≠ 0 ∨ rnd.isSome then gfSum o c.ds (m.d r) (fun j => x (c.s + j)) a else a)
        (tr.triR.zip tr.triC).reverse out)

/-- paxos.hpp:1906-1930: the columns of the list of weight 0, following the links. -/
def walk (nd : Nat → Node) : Nat → Option Nat → List Nat
  | 0, _ => []
  | _, none => []
  | fuel + 1, some i => i :: walk nd fuel (nd i).next

/-- paxos.hpp:1903-1945: random values for the columns of weight 0. If there are none, `weight_0_list` is empty too and only a message
is printed. (If `total_size` does not fit `idx_type`, the later loops over the dense positions with a counter of that type do not end.) -/
def freeCols {V : Type} (c : Cfg) (tr : Tri) (rnd : Option (Rnd V)) (out : Nat → V) : Option (Nat → V) :=
  match rnd with
  | none => some out
  | some rn =>
    if 2 ^ c.t.bits ≤ c.s + c.ds then none
    else
      match tr.ws.head[0]? with
      | none => none
      | some p => some ((walk tr.ws.node c.s p).foldl (fun f i => Function.update f i (rn.col i)) out)

/-- paxos.hpp:1895-1957 `encode` on an object that was not used for encoding before, after `triangulate`. `v` holds the values,
`out` is the buffer given by the caller. -/
def encodeTri {V : Type} (o : ValOps V) (c : Cfg) (st : St) (tr : Tri) (rnd : Option (Rnd V)) (v : Nat → V) (out : Nat → V) :
    Option (Nat → V) :=
  match freeCols c tr rnd out with
  | none => none
  | some out => if c.binary then backfillBin o c st.m tr rnd v out else backfillGf o c st.m tr rnd v out

/-- paxos.hpp:1895-1957 `encode` on an object that was not used for encoding before. -/
def encode {V : Type} (o : ValOps V) (c : Cfg) (st : St) (rnd : Option (Rnd V)) (v : Nat → V) (out : Nat → V) : Option (Nat → V) :=
  (triangulate c st).bind fun tr => encodeTri o c st tr rnd v out

/-! ### decode -/

/-- paxos.hpp:1979-2017: the value of a row. -/
def rowVal {V : Type} (o : ValOps V) (c : Cfg) (out : Nat → V) (d : Block) : List Nat → Option V
  | [] => none
  | c0 :: cs =>
    let a := spSum o out (out c0) cs
    if c.binary then
      if 128 < c.ds then none else some (binSum o c.ds d (fun j => out (c.s + j)) a (List.range c.ds))
    else some (gfSum o c.ds d (fun j => out (c.s + j)) a)

/-- paxos.hpp:1964-2017 `decode_1`, from the hashed key. -/
def decode1 {V : Type} (o : ValOps V) (c : Cfg) (dvs : List Divider) (out : Nat → V) (d : Block) : Option V :=
  (sparse1 c.t c.w c.s dvs d).bind (rowVal o c out d)

/-- paxos.hpp:2331-2369 `decode` (and `decode_32`, 2045-2328) for hashed keys `ds`; the number of keys is reduced to `idx_type`, the
values of the remaining keys stay at their default. The positions of 32 keys at a time are computed as in `set_Mtx`. -/
def decode {V : Type} (o : ValOps V) (c : Cfg) (dvs : List Divider) (out : Nat → V) (ds : List Block) : Option (List V) :=
  let k := ds.length % 2 ^ c.t.bits
  match sparseAll c.t c.w c.s dvs k (ds.take k) with
  | none => none
  | some rows =>
    match ((ds.take k).zip rows).mapM fun p => rowVal o c out p.1 p.2 with
    | none => none
    | some vs => some (vs ++ List.replicate (ds.length - k) o.zero)

end Kunlun.OKVS
