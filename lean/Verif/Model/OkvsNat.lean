import Verif.Model.Baxos
/-!
The OKVS does not look at the values: a map of the values that respects `^` and `gf128_mul` can be applied before or after encoding, and
before or after decoding (gf_128 form without random values). So the vector is made of the values by linear combinations that depend on the
keys only.
-/

namespace Kunlun.OKVS
open Kunlun Kunlun.FastDiv

variable {V W : Type}

/-- A map of values that respects the operations. -/
structure Hom (o : ValOps V) (o' : ValOps W) (φ : V → W) : Prop where
  zero : φ o.zero = o'.zero
  xor : ∀ a b, φ (o.xor a b) = o'.xor (φ a) (φ b)
  mul : ∀ a b, φ (o.mul a b) = o'.mul (φ a) b

variable {o : ValOps V} {o' : ValOps W} {φ : V → W}

theorem foldl_hom {α : Type} (f : V → α → V) (g : W → α → W) (h : ∀ a x, φ (f a x) = g (φ a) x) (l : List α) (a : V) :
    φ (l.foldl f a) = l.foldl g (φ a) := by
  induction l generalizing a with
  | nil => rfl
  | cons x l ih => rw [List.foldl_cons, List.foldl_cons, ih, h]

theorem spSum_nat (H : Hom o o' φ) (x : Nat → V) (acc : V) (row : List Nat) : φ (spSum o x acc row) = spSum o' (fun i => φ (x i)) (φ acc) row :=
  foldl_hom _ _ (fun a c => H.xor a (x c)) _ _

theorem gfSum_nat (H : Hom o o' φ) (ds : Nat) (d : Block) (x : Nat → V) (acc : V) :
    φ (gfSum o ds d x acc) = gfSum o' ds d (fun i => φ (x i)) (φ acc) :=
  foldl_hom _ _ (fun a j => by rw [H.xor, H.mul]) _ _

theorem triSolve_nat (rhs : (Nat → V) → Nat → V) (rhs' : (Nat → W) → Nat → W) (h : ∀ x r, φ (rhs x r) = rhs' (fun i => φ (x i)) r)
    (l : List (Nat × Nat)) (out : Nat → V) : (fun i => φ (triSolve rhs l out i)) = triSolve rhs' l fun i => φ (out i) := by
  induction l generalizing out with
  | nil => rfl
  | cons p l ih =>
    obtain ⟨r, c⟩ := p
    unfold triSolve
    rw [ih]
    congr 1
    funext i
    unfold Function.update
    split
    · rename_i e; subst e; exact h out r
    · rfl

theorem gapVal_nat (H : Hom o o' φ) (v : Nat → V) (r : Nat) (fc : List Nat) : φ (gapVal o v r fc) = gapVal o' (fun i => φ (v i)) r fc :=
  foldl_hom _ _ (fun a j => H.xor a (v j)) _ _

theorem gfRhs_nat (H : Hom o o' φ) (tr : Tri) (g : Nat) (fcs : List (List Nat)) (v : Nat → V) (i : Nat) :
    φ (gfRhs o tr g fcs none v i) = gfRhs o' tr g fcs none (fun i => φ (v i)) i := by
  unfold gfRhs
  split
  · exact gapVal_nat H _ _ _
  · exact H.zero

theorem gfSolve_nat (H : Hom o o' φ) (len : Nat) (row : List Block) (vals : List V) :
    φ (gfSolve o len row vals) = gfSolve o' len row (vals.map φ) := by
  unfold gfSolve
  rw [foldl_hom (φ := φ) _ (fun a j => o'.xor a (o'.mul ((vals.map φ).getD j o'.zero) (row.getD j 0#128))), H.zero]
  intro a j
  rw [H.xor, H.mul]
  congr 2
  rw [List.getD_eq_getElem?_getD, List.getD_eq_getElem?_getD, List.getElem?_map]
  cases vals[j]? with
  | none => exact H.zero
  | some v => rfl

theorem addAt_nat (H : Hom o o' φ) (s : Nat) (pos : Nat → Nat) (x : Nat → V) (g : Nat) (out : Nat → V) :
    (fun i => φ (addAt o s pos x g out i)) = addAt o' s pos (fun i => φ (x i)) g fun i => φ (out i) := by
  unfold addAt
  rw [← foldl_hom (φ := fun (f : Nat → V) i => φ (f i)) (fun (f : Nat → V) i => Function.update f (s + pos i) (o.xor (f (s + pos i)) (x i)))]
  intro f i
  funext k
  unfold Function.update
  split
  · rename_i e; subst e; exact H.xor _ _
  · rfl

theorem gapsGf_nat (H : Hom o o' φ) (c : Cfg) (m : Mat) (tr : Tri) (g : Nat) (v out : Nat → V) :
    (gapsGf o c m tr g none v out).map (fun f i => φ (f i)) = gapsGf o' c m tr g none (fun i => φ (v i)) fun i => φ (out i) := by
  unfold gapsGf
  split
  · rfl
  cases fcAll m tr g with
  | none => rfl
  | some fcs =>
    simp only [Option.isSome_none, Bool.false_eq_true, if_false]
    have he : ∀ i k, gfEnt (V := V) m tr g fcs none i k = gfEnt (V := W) m tr g fcs none i k := fun i k => rfl
    simp only [he]
    split
    · rename_i inv _
      simp only [Option.map_some, Option.some.injEq]
      rw [addAt_nat H]
      congr 1
      funext i
      rw [gfSolve_nat H, List.map_map]
      congr 1
      apply List.map_congr_left
      intro i _
      exact gfRhs_nat H _ _ _ _ _
    · rfl

theorem backfillGf_nat (H : Hom o o' φ) (c : Cfg) (m : Mat) (tr : Tri) (v out : Nat → V) :
    (backfillGf o c m tr none v out).map (fun f i => φ (f i)) = backfillGf o' c m tr none (fun i => φ (v i)) fun i => φ (out i) := by
  unfold backfillGf
  simp only [Option.isSome_none, Bool.false_eq_true, or_false, randFill]
  by_cases hg : tr.gapR.length % 256 = 0
  · simp only [hg, ne_eq, not_true_eq_false, if_false, false_and, Option.map_some, Option.some.injEq]
    exact triSolve_nat _ _ (fun x r => spSum_nat H _ _ _) _ _
  · simp only [ne_eq, hg, not_false_eq_true, if_true, true_and]
    rw [← gapsGf_nat H]
    cases gapsGf o c m tr (tr.gapR.length % 256) none v out with
    | none => rfl
    | some f =>
      simp only [Option.map_some]
      split
      · rfl
      · simp only [Option.map_some, Option.some.injEq]
        exact triSolve_nat _ _ (fun x r => by rw [gfSum_nat H, spSum_nat H]) _ _

theorem encode_nat (H : Hom o o' φ) (c : Cfg) (hc : c.binary = false) (st : St) (v out : Nat → V) :
    (encode o c st none v out).map (fun f i => φ (f i)) = encode o' c st none (fun i => φ (v i)) fun i => φ (out i) := by
  unfold encode
  cases triangulate c st with
  | none => rfl
  | some tr =>
    simp only [Option.bind_some, encodeTri, freeCols, hc, Bool.false_eq_true, if_false]
    exact backfillGf_nat H _ _ _ _ _

theorem decode1_nat (H : Hom o o' φ) (c : Cfg) (hc : c.binary = false) (dvs : List Divider) (out : Nat → V) (d : Block) :
    (decode1 o c dvs out d).map φ = decode1 o' c dvs (fun i => φ (out i)) d := by
  unfold decode1
  cases sparse1 c.t c.w c.s dvs d with
  | none => rfl
  | some row =>
    cases row with
    | nil => rfl
    | cons c0 cs =>
      simp only [Option.bind_some, rowVal, hc, Bool.false_eq_true, if_false, Option.map_some]
      rw [gfSum_nat H, spSum_nat H]

end Kunlun.OKVS

namespace Kunlun.Baxos
open Kunlun Kunlun.FastDiv Kunlun.OKVS

variable {V W : Type} {o : ValOps V} {o' : ValOps W} {φ : V → W}

/-- The map applied to the values of items. -/
def onVal (φ : V → W) (p : Block × V) : Block × W := (p.1, φ p.2)

theorem onVal_fst (φ : V → W) (l : List (Block × V)) : (l.map (onVal φ)).map Prod.fst = l.map Prod.fst := by
  rw [List.map_map]; rfl

theorem onVal_snd (φ : V → W) (l : List (Block × V)) : (l.map (onVal φ)).map Prod.snd = (l.map Prod.snd).map φ := by
  rw [List.map_map, List.map_map]; rfl

theorem slice_map {α β : Type} (f : α → β) (l : List α) (T t : Nat) : slice (l.map f) T t = (slice l T t).map f := by
  unfold slice
  rw [List.length_map, List.map_take, List.map_drop]

theorem assign_nat (φ : V → W) (c : BCfg) (l : List (Nat × Block × V)) (tb : Nat → List (Block × V)) :
    (assign c l tb).map (fun f b => (f b).map (onVal φ)) = assign c (l.map fun p => (p.1, onVal φ p.2)) fun b => (tb b).map (onVal φ) := by
  induction l generalizing tb with
  | nil => rfl
  | cons p l ih =>
    obtain ⟨b, x⟩ := p
    rw [List.map_cons]
    unfold assign
    simp only [List.length_map]
    split
    · rw [ih]
      congr 1
      funext k
      unfold Function.update
      split
      · rename_i e; subst e; simp
      · rfl
    · rfl

theorem threadTable_nat (φ : V → W) (c : BCfg) (dv : Divider) (items : List (Block × V)) :
    (threadTable c dv items).map (fun f b => (f b).map (onVal φ)) = threadTable c dv (items.map (onVal φ)) := by
  unfold threadTable
  rw [List.length_map, onVal_fst]
  split
  · rfl
  cases binAll c.bins dv items.length (items.map Prod.fst) with
  | none => rfl
  | some bs =>
    simp only
    rw [assign_nat, List.zip_map_right]
    rfl

theorem solveBin_nat (H : Hom o o' φ) (c : BCfg) (hc : c.binary = false) (junk : Nat → Node) (out0 : Nat → V) (items : List (Block × V)) :
    (solveBin o c junk none out0 items).map (fun f i => φ (f i)) = solveBin o' c junk none (fun i => φ (out0 i)) (items.map (onVal φ)) := by
  unfold solveBin
  rw [List.length_map, onVal_fst, onVal_snd]
  split
  · rfl
  cases new (c.cfg items.length) with
  | none => rfl
  | some dvs =>
    simp only [Option.bind_some]
    cases setKeys (c.cfg items.length) dvs junk (items.map Prod.fst) with
    | none => rfl
    | some st =>
      simp only [Option.bind_some]
      rw [encode_nat H _ hc]
      congr 1
      funext r
      rw [List.getD_eq_getElem?_getD, List.getD_eq_getElem?_getD, List.getElem?_map (f := φ)]
      cases (items.map Prod.snd)[r]? with
      | none => exact H.zero
      | some v => rfl

theorem mapM_nat {α β γ : Type} (f : α → Option β) (h : β → γ) (g : α → Option γ) (hg : ∀ a, (f a).map h = g a) (l : List α) :
    (l.mapM f).map (List.map h) = l.mapM g := by
  induction l with
  | nil => rfl
  | cons a l ih =>
    rw [List.mapM_cons, List.mapM_cons, ← ih, ← hg]
    cases f a with
    | none => rfl
    | some b =>
      cases l.mapM f with
      | none => rfl
      | some bs => rfl

/-- `solve` without random values commutes with maps of the values. -/
theorem solve_nat (H : Hom o o' φ) (c : BCfg) (hc : c.binary = false) (T : Nat) (junk : Nat → Nat → Node) (hs : List Block) (values : List V)
    (out : Nat → V) :
    (solve o c T junk (fun _ => none) hs values out).map (fun f i => φ (f i))
      = solve o' c T junk (fun _ => none) hs (values.map φ) fun i => φ (out i) := by
  unfold solve
  have hz : hs.zip (values.map φ) = (hs.zip values).map (onVal φ) := by
    rw [List.zip_map_right]; rfl
  rw [List.length_map, hz]
  split
  · rfl
  split
  · split
    · rfl
    · rw [solveBin_nat H c hc]
      simp only [H.zero]
  split
  · rfl
  split
  · rfl
  cases genDivider (BitVec.ofNat 64 c.bins) with
  | thrown => rfl
  | fault => rfl
  | ok dv =>
    simp only
    rw [← mapM_nat (fun t => threadTable c dv (slice (hs.zip values) T t)) (fun f b => (f b).map (onVal φ)) _
      (fun t => by rw [threadTable_nat, slice_map])]
    cases (List.range T).mapM fun t => threadTable c dv (slice (hs.zip values) T t) with
    | none => rfl
    | some tabs =>
      simp only [Option.map_some]
      rw [← mapM_nat (fun b => solveBin o c (junk b) none (fun i => out (b * c.total + i)) (tabs.flatMap fun tb => tb b)) (fun f i => φ (f i)) _
        (fun b => by rw [solveBin_nat H c hc, List.map_flatMap, List.flatMap_map])]
      cases (List.range c.bins).mapM fun b => solveBin o c (junk b) none (fun i => out (b * c.total + i)) (tabs.flatMap fun tb => tb b) with
      | none => rfl
      | some outs =>
        simp only [Option.map_some, Option.some.injEq]
        funext a
        rw [List.getD_eq_getElem?_getD, List.getD_eq_getElem?_getD, List.getElem?_map]
        cases outs[a / c.total]? <;> rfl

end Kunlun.Baxos
