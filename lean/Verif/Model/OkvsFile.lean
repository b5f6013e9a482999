import Verif.Model.OkvsAgain
/-!
`WriteObject` and `ReadObject` of an OKVS object (mpc/okvs/paxos.hpp:374-550). All numbers go through the binary operators of
`serialization.hpp` and `block.hpp` (the overload for `std::ofstream &` is the better match than the formatted one of the library).
-/

namespace Kunlun.OKVS
open Kunlun Kunlun.FastDiv

/-- A number of `k` bytes, serialization.hpp:29-34. -/
def putN (k v : Nat) : Bytes := leBytes k v

/-- `fout << x` for `idx_type x`. -/
def Idx.put (t : Idx) (v : Nat) : Bytes := putN (t.bits / 8) v

/-- paxos.hpp:374-465 `WriteObject`. Line 432 reads `gap_cols[i]` for all gap rows; line 435 reads `weight_set[0]`, whose list is
appended to `weight_0_list`. (The file is taken to open.) -/
def Obj.write (s : Obj) : Option Bytes :=
  let t := s.c.t
  let delta := s.tr.triR.length % 2 ^ t.bits
  let g := s.tr.gapR.length % 256
  if s.gapC.length < g ∨ s.tr.gapF.length < g then none
  else
    match s.tr.ws.head[0]? with
    | none => none
    | some p =>
      let zero := s.zero ++ walk s.tr.ws.node s.c.s p
      some (t.put s.c.n ++ (putN 1 s.c.w ++ (putN 4 (if s.c.binary then 0 else 1) ++ (t.put delta ++ (putN 1 g ++
        (((List.range s.c.n).flatMap fun i => ((s.m.row i).take s.c.w).flatMap t.put) ++
        (((List.range s.c.n).flatMap fun i => Block.toBytes (s.m.d i)) ++
        ((s.tr.triR.take delta).flatMap t.put ++ ((s.tr.triC.take delta).flatMap t.put ++
        ((s.tr.gapR.take g).flatMap t.put ++ ((s.tr.gapF.take g).flatMap t.put ++ ((s.gapC.take g).flatMap (putN 1) ++
        (t.put zero.length ++ zero.flatMap t.put)))))))))))))

/-- Reading from the rest of a file. `none` is a file that is too short, which leaves counters uninitialised. -/
abbrev Rd (α : Type) := Bytes → Option (α × Bytes)

/-- `fin >> x` for a number of `k` bytes, serialization.hpp:36-41. -/
def getN (k : Nat) : Rd Nat := fun f => if f.length < k then none else some (ofLE (f.take k), f.drop k)

/-- `fin >> x` for `idx_type x`. -/
def Idx.get (t : Idx) : Rd Nat := getN (t.bits / 8)

/-- block.hpp:200-206. -/
def getBlock : Rd Block := fun f => if f.length < 16 then none else some (Block.ofBytes (f.take 16), f.drop 16)

/-- A loop of `k` reads. -/
def rep {α : Type} (p : Rd α) : Nat → Rd (List α)
  | 0, f => some ([], f)
  | k + 1, f => (p f).bind fun x => (rep p k x.2).map fun y => (x.1 :: y.1, y.2)

/-- paxos.hpp:468-549 `ReadObject` on an object that was constructed and not used, with index type `t`, dense type, and
`statistical_security_parameter`. `size` is `calculate_sparse_size` (585-617, floating point), from `item_num`, `sparse_weight` and the
security parameter. `gap_rows_first_row` is empty, so line 535 writes out of range if there is a gap row. The result of a file of the
other dense type is `none` too (line 489 returns `false`), and so are sizes for which `gen_divider` throws. `weight_set` has 200 empty
lists (line 581); the nodes are not initialised. -/
def readObject (t : Idx) (binary : Bool) (ssp : Nat) (size : Nat → Nat → Nat → Nat × Nat) (junk : Nat → Node) (f : Bytes) : Option Obj :=
  (t.get f).bind fun n => (getN 1 n.2).bind fun w => (getN 4 w.2).bind fun ty =>
    if ty.1 ≠ (if binary then 0 else 1) then none
    else
      (t.get ty.2).bind fun delta => (getN 1 delta.2).bind fun g =>
        let sz := size n.1 w.1 ssp
        if mkDividers w.1 sz.1 = none then none
        else
          (rep (rep t.get w.1) n.1 g.2).bind fun rows => (rep getBlock n.1 rows.2).bind fun dense =>
            (rep t.get delta.1 dense.2).bind fun triR => (rep t.get delta.1 triR.2).bind fun triC =>
              (rep t.get g.1 triC.2).bind fun gapR =>
                if g.1 ≠ 0 then none
                else
                  (t.get gapR.2).bind fun z => (rep t.get z.1 z.2).bind fun zero =>
                    some ⟨⟨t, binary, w.1, n.1, sz.1, sz.2, ssp⟩, ⟨dense.1, rows.1⟩,
                      ⟨⟨junk, List.replicate 200 none⟩, fun _ => false, triR.1, triC.1, gapR.1, []⟩, [], [], 0, zero.1⟩

/-- paxos.hpp:1897-1902 `encode` on an object that was read: if there are no rows of the triangle, `triangulate` runs on 200 empty lists
and does not end (`find_pop_min_node` returns 0 and changes nothing). -/
def Obj.encodeRead {V : Type} (o : ValOps V) (s : Obj) (rnd : Option (Rnd V)) (v out : Nat → V) : Option (Obj × (Nat → V)) :=
  if s.tr.triR = [] then none else s.encode o rnd v out

/-! ### Reading what was written -/

theorem idx_bytes (t : Idx) : 256 ^ (t.bits / 8) = 2 ^ t.bits := by cases t <;> norm_num [Idx.bits]

theorem getN_put (k v : Nat) (hv : v < 256 ^ k) (rest : Bytes) : getN k (putN k v ++ rest) = some (v, rest) := by
  unfold getN putN
  rw [if_neg (by simp), List.take_left' (leBytes_length ..), List.drop_left' (leBytes_length ..), ofLE_leBytes _ _ hv]

theorem get_put (t : Idx) (v : Nat) (hv : v < 2 ^ t.bits) (rest : Bytes) : t.get (t.put v ++ rest) = some (v, rest) :=
  getN_put _ _ (by rw [idx_bytes]; exact hv) rest

theorem getBlock_put (b : Block) (rest : Bytes) : getBlock (Block.toBytes b ++ rest) = some (b, rest) := by
  unfold getBlock
  rw [if_neg (by simp), List.take_left' (by simp), List.drop_left' (by simp), Block.ofBytes_toBytes]

theorem rep_put {α : Type} (p : Rd α) (enc : α → Bytes) (l : List α) (h : ∀ x ∈ l, ∀ rest, p (enc x ++ rest) = some (x, rest))
    (rest : Bytes) : rep p l.length (l.flatMap enc ++ rest) = some (l, rest) := by
  induction l with
  | nil => rfl
  | cons a l ih =>
    rw [List.flatMap_cons, List.append_assoc, List.length_cons, rep, h a (List.mem_cons_self ..)]
    simp only [Option.bind_some]
    rw [ih (fun x hx => h x (List.mem_cons_of_mem _ hx))]
    rfl

theorem rep_idx (t : Idx) (l : List Nat) (h : ∀ x ∈ l, x < 2 ^ t.bits) (rest : Bytes) :
    rep t.get l.length (l.flatMap t.put ++ rest) = some (l, rest) :=
  rep_put _ _ l (fun x hx => get_put t x (h x hx)) rest

end Kunlun.OKVS
