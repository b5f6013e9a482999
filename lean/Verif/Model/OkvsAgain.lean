import Verif.Props.Okvs
/-!
An OKVS object that is used more than once (`mpc/okvs/paxos.hpp`): `encode` after an earlier `encode`, and `WriteObject`/`ReadObject`.
The model in `Okvs` describes one `encode` of a new object; here the members an `encode` leaves behind are part of the state.
-/

namespace Kunlun.OKVS
open Kunlun Kunlun.FastDiv

/-- The members of an OKVS object (paxos.hpp:106-277) after `set_keys` and `triangulate`: parameters, `h_dense` and `h_sparse`, the result
of `triangulate`, `gap_cols`, `FC_1`, the number of rows of `E_gf128`, and `weight_0_list`. -/
structure Obj where
  c : Cfg
  m : Mat
  tr : Tri
  gapC : List Nat
  fcs : List (List Nat)
  eLen : Nat
  zero : List Nat

/-- The object when `triangulate` has run for the first time. -/
abbrev Obj.fresh (c : Cfg) (st : St) (tr : Tri) : Obj := ⟨c, st.m, tr, [], [], 0, []⟩

/-- paxos.hpp:1218, 1234, 1254: `FC_1.resize(g)` keeps the lists there are, `push_back` appends to them. -/
def growFC (old new : List (List Nat)) : List (List Nat) := (List.range new.length).map fun i => old.getD i [] ++ new.getD i []

/-- paxos.hpp:1903-1945: random values for the columns of weight 0, from `weight_set[0]` if it is not empty, else from
`weight_0_list`. -/
def Obj.freeCols {V : Type} (s : Obj) (rnd : Option (Rnd V)) (out : Nat → V) : Option (Nat → V) :=
  match rnd with
  | none => some out
  | some rn =>
    if 2 ^ s.c.t.bits ≤ s.c.s + s.c.ds then none
    else
      match s.tr.ws.head[0]? with
      | none => none
      | some (some p) => some ((walk s.tr.ws.node s.c.s (some p)).foldl (fun f i => Function.update f i (rn.col i)) out)
      | some none => some (s.zero.foldl (fun f i => Function.update f i (rn.col i)) out)

/-- paxos.hpp:1521-1700: as `gapsBin`, with the lists `FC_1` of the object. -/
def Obj.gapsBin {V : Type} (o : ValOps V) (s : Obj) (g : Nat) (rnd : Option (Rnd V)) (v : Nat → V) (out : Nat → V) :
    Option (Obj × (Nat → V)) :=
  if s.c.gLim < g then none
  else if 1 < o.blocks then none
  else
    match fcAll s.m s.tr g with
    | none => none
    | some new =>
      let fcs := growFC s.fcs new
      let eRow := (List.range g).map fun i => gapDense s.m (s.tr.gapR.getD i 0) (fcs.getD i [])
      match findCols s.c.ds eRow (2 ^ s.c.ds) (List.range g) with
      | none => none
      | some (gc, inv) =>
        let others := (List.range s.c.ds).filter (· ∉ gc)
        let out1 := randFill s.c.s others rnd out
        let vals := (List.range g).map fun i =>
          moveRhs o s.c.ds (eRow.getD i 0#128) (fun j => out1 (s.c.s + j)) others rnd (gapVal o v (s.tr.gapR.getD i 0) (fcs.getD i []))
        some ({ s with gapC := gc, fcs := fcs },
          addAt o s.c.s (fun i => gc.getD i 0) (fun i => selSum o g (inv.getD i []) vals) g out1)

/-- paxos.hpp:1512-1806 `backfill_binary`. The gap columns are chosen, and their values computed, only while `gap_cols` is empty
(line 1520). -/
def Obj.backfillBin {V : Type} (o : ValOps V) (s : Obj) (rnd : Option (Rnd V)) (v : Nat → V) (out : Nat → V) :
    Option (Obj × (Nat → V)) :=
  let g := s.tr.gapR.length % 256
  if 128 < s.c.ds then none
  else
    match (if g ≠ 0 ∧ s.gapC = [] then s.gapsBin o g rnd v out
      else if rnd.isSome ∧ 1 < o.blocks ∧ 0 < s.c.ds then none
      else some (s, randFill s.c.s (List.range s.c.ds) rnd out)) with
    | none => none
    | some (s', out) =>
      if s.tr.triR.length < s.c.n - g then none
      else
        some (s', triSolve (fun x r => binSum o s.c.ds (s.m.d r) (fun j => x (s.c.s + j)) (spSum o x (v r) (s.m.row r))
            (if rnd.isSome then List.range s.c.ds else s'.gapC))
          ((s.tr.triR.zip s.tr.triC).take (s.c.n - g)).reverse out)

/-- paxos.hpp:1391-1470 (1278-1340 for `BlockArrayValue`): as `gapsGf`, with the lists `FC_1` of the object. `E_gf128.resize` keeps rows
of another length if there was an `encode` with another number of rows; this is left out (`none`). -/
def Obj.gapsGf {V : Type} (o : ValOps V) (s : Obj) (g : Nat) (rnd : Option (Rnd V)) (v : Nat → V) (out : Nat → V) :
    Option (Obj × (Nat → V)) :=
  if s.c.gLim < g then none
  else
    match fcAll s.m s.tr g with
    | none => none
    | some new =>
      let fcs := growFC s.fcs new
      let len := if rnd.isSome then s.c.ds else g
      if s.eLen ≠ 0 ∧ s.eLen ≠ len then none
      else
        match MatInv.checkInvertGF ((List.range len).map fun i => (List.range len).map fun k => gfEnt s.m s.tr g fcs rnd i k) with
        | some (true, inv) =>
          let vals := (List.range len).map (gfRhs o s.tr g fcs rnd v)
          some ({ s with fcs := fcs, eLen := len },
            addAt o s.c.s (fun i => i) (fun i => gfSolve o len (inv.getD i []) vals) len out)
        | _ => none

/-- paxos.hpp:1387-1511 `backfill_gf128` and 1274-1379 `backfill_BlockArrayValue128`. `gap_cols` is empty in this form, unless it was
read from a file. -/
def Obj.backfillGf {V : Type} (o : ValOps V) (s : Obj) (rnd : Option (Rnd V)) (v : Nat → V) (out : Nat → V) :
    Option (Obj × (Nat → V)) :=
  let g := s.tr.gapR.length % 256
  match (if g ≠ 0 ∧ s.gapC = [] then s.gapsGf o g rnd v out else some (s, randFill s.c.s (List.range s.c.ds) rnd out)) with
  | none => none
  | some (s', out) =>
    if (g ≠ 0 ∨ rnd.isSome) ∧ s.c.ds = 0 ∧ s.tr.triR ≠ [] then none
    else
      some (s', triSolve (fun x r =>
          let a := spSum o x (v r) (s.m.row r)
          if g ≠ 0 ∨ rnd.isSome then gfSum o s.c.ds (s.m.d r) (fun j => x (s.c.s + j)) a else a)
        (s.tr.triR.zip s.tr.triC).reverse out)

/-- paxos.hpp:1895-1957 `encode` on an object for which `triangulate` has run: the new object and the output. -/
def Obj.encode {V : Type} (o : ValOps V) (s : Obj) (rnd : Option (Rnd V)) (v : Nat → V) (out : Nat → V) : Option (Obj × (Nat → V)) :=
  match s.freeCols rnd out with
  | none => none
  | some out => if s.c.binary then s.backfillBin o rnd v out else s.backfillGf o rnd v out

/-- Several calls of `encode`, each with its own values and a buffer of zeros; the outputs in order. -/
def Obj.encodes {V : Type} (o : ValOps V) : Obj → List (Nat → V) → Option (List (Nat → V))
  | _, [] => some []
  | s, v :: vs =>
    match s.encode o none v (fun _ => o.zero) with
    | none => none
    | some (s', out) => (s'.encodes o vs).map (out :: ·)

/-! ### The first call -/

theorem growFC_nil (new : List (List Nat)) : growFC [] new = new := by
  unfold growFC
  apply List.ext_getElem
  · simp
  · intro i h1 h2
    simp [List.getD_eq_getElem?_getD, h2]

theorem fresh_freeCols {V : Type} (c : Cfg) (st : St) (tr : Tri) (rnd : Option (Rnd V)) (out : Nat → V) :
    (Obj.fresh c st tr).freeCols rnd out = freeCols c tr rnd out := by
  unfold Obj.freeCols freeCols Obj.fresh
  cases rnd with
  | none => rfl
  | some rn =>
    simp only
    split
    · rfl
    · split <;> rename_i h <;> simp only [h]
      cases c.s <;> simp [walk]

theorem fresh_gapsBin {V : Type} (o : ValOps V) (c : Cfg) (st : St) (tr : Tri) (g : Nat) (rnd : Option (Rnd V)) (v out : Nat → V) :
    ((Obj.fresh c st tr).gapsBin o g rnd v out).map (fun p => (p.1.gapC, p.2)) = gapsBin o c st.m tr g rnd v out := by
  unfold Obj.gapsBin gapsBin Obj.fresh
  simp only
  split
  · rfl
  split
  · rfl
  cases fcAll st.m tr g with
  | none => rfl
  | some new =>
    simp only [growFC_nil]
    split <;> rename_i h <;> simp only [h, Option.map_none, Option.map_some]

theorem fresh_gapsGf {V : Type} (o : ValOps V) (c : Cfg) (st : St) (tr : Tri) (g : Nat) (rnd : Option (Rnd V)) (v out : Nat → V) :
    ((Obj.fresh c st tr).gapsGf o g rnd v out).map (·.2) = gapsGf o c st.m tr g rnd v out := by
  unfold Obj.gapsGf gapsGf Obj.fresh
  simp only
  split
  · rfl
  cases fcAll st.m tr g with
  | none => rfl
  | some new =>
    simp only [growFC_nil, ne_eq, not_true_eq_false, false_and, if_false]
    split <;> rename_i h <;> simp only [h, Option.map_none, Option.map_some]

/-- The first `encode` is the one of the model `Okvs`. -/
theorem fresh_encode {V : Type} (o : ValOps V) (c : Cfg) (st : St) (tr : Tri) (rnd : Option (Rnd V)) (v out : Nat → V) :
    ((Obj.fresh c st tr).encode o rnd v out).map (·.2) = encodeTri o c st tr rnd v out := by
  unfold Obj.encode encodeTri
  rw [fresh_freeCols]
  cases freeCols c tr rnd out with
  | none => rfl
  | some out =>
    simp only
    cases hb : c.binary with
    | true =>
      rw [if_pos rfl, if_pos rfl]
      unfold Obj.backfillBin backfillBin
      have hG := fresh_gapsBin o c st tr (tr.gapR.length % 256) rnd v out
      simp only [Obj.fresh] at hG ⊢
      rw [← hG]
      split
      · rfl
      by_cases hg : tr.gapR.length % 256 = 0
      · simp only [hg, ne_eq, not_true_eq_false, false_and, if_false]
        by_cases h : rnd.isSome = true ∧ 1 < o.blocks ∧ 0 < c.ds
        · rw [if_pos h, if_pos h]; rfl
        · rw [if_neg h, if_neg h]
          simp only
          by_cases h' : tr.triR.length < c.n - 0
          · rw [if_pos h', if_pos h']; rfl
          · rw [if_neg h', if_neg h']; rfl
      · simp only [hg, ne_eq, not_false_eq_true, true_and, if_true]
        cases Obj.gapsBin o ⟨c, st.m, tr, [], [], 0, []⟩ (tr.gapR.length % 256) rnd v out with
        | none => simp only [Option.map_none]
        | some p =>
          simp only [Option.map_some]
          by_cases h' : tr.triR.length < c.n - tr.gapR.length % 256
          · rw [if_pos h', if_pos h']; rfl
          · rw [if_neg h', if_neg h']; rfl
    | false =>
      rw [if_neg (by decide), if_neg (by decide)]
      unfold Obj.backfillGf backfillGf
      have hG := fresh_gapsGf o c st tr (tr.gapR.length % 256) rnd v out
      simp only [Obj.fresh] at hG ⊢
      rw [← hG]
      by_cases hg : tr.gapR.length % 256 = 0
      · simp only [hg, ne_eq, not_true_eq_false, false_and, if_false, false_or]
        by_cases h' : rnd.isSome = true ∧ c.ds = 0 ∧ ¬ tr.triR = []
        · rw [if_pos h', if_pos h']; rfl
        · rw [if_neg h', if_neg h']; rfl
      · simp only [hg, ne_eq, not_false_eq_true, true_and, if_true]
        cases Obj.gapsGf o ⟨c, st.m, tr, [], [], 0, []⟩ (tr.gapR.length % 256) rnd v out with
        | none => simp only [Option.map_none]
        | some p =>
          simp only [Option.map_some, true_or, true_and]
          by_cases h' : c.ds = 0 ∧ ¬ tr.triR = []
          · rw [if_pos h', if_pos h']; rfl
          · rw [if_neg h', if_neg h']; rfl

end Kunlun.OKVS
