import Verif.Model.OkvsSolve
import Verif.Props.MatInv
import Mathlib.Algebra.Module.ZMod
import Mathlib.Algebra.BigOperators.Fin
/-!
What the `backfill` functions of the OKVS compute.
-/

namespace Kunlun.OKVS
open Kunlun

/-! ### Choice of columns -/

theorem prevFrom_spec (n : Nat) (hn : n ≤ 128) (comb : List Nat) (hp : comb.Pairwise (· < ·)) (hl : comb.length ≤ n) (i : Nat)
    (hi : i ≤ comb.length) (hlt : ∀ x ∈ comb, x < n) {comb' : List Nat} (e : prevFrom n comb i = some comb') :
    comb'.Pairwise (· < ·) ∧ comb'.length = comb.length ∧ ∀ x ∈ comb', x < n := by
  induction i with
  | zero => cases e
  | succ i ih =>
    unfold prevFrom at e
    rw [show n + 2 ^ 64 - comb.length + i = (n - comb.length + i) + 2 ^ 64 by omega, Nat.add_mod_right,
      Nat.mod_eq_of_lt (by omega : n - comb.length + i < 2 ^ 64)] at e
    split at e
    · rename_i hc
      have hil : i < comb.length := by omega
      have hget : comb.getD i 0 = comb[i] := by rw [List.getD_eq_getElem?_getD, List.getElem?_eq_getElem hil]; rfl
      rw [hget] at hc e
      simp only [Option.some.injEq] at e
      have hmap : (List.range (comb.length - i)).map (fun j => (comb[i] + 1 + j) % 256)
          = (List.range (comb.length - i)).map (fun j => comb[i] + 1 + j) := by
        refine List.map_congr_left (fun j hj => ?_)
        rw [List.mem_range] at hj
        exact Nat.mod_eq_of_lt (by omega)
      rw [hmap] at e
      subst e
      refine ⟨?_, by simp; omega, ?_⟩
      · rw [List.pairwise_append]
        refine ⟨hp.sublist (List.take_sublist _ _), ?_, fun a ha b hb => ?_⟩
        · rw [List.pairwise_map]
          exact List.pairwise_lt_range.imp (fun h => by omega)
        · obtain ⟨j, hj, rfl⟩ := List.mem_map.1 hb
          obtain ⟨k, hk, rfl⟩ := List.getElem_of_mem ha
          rw [List.length_take] at hk
          rw [List.getElem_take]
          have := List.pairwise_iff_getElem.1 hp k i (by omega) hil (by omega)
          omega
      · intro x hx
        rw [List.mem_append] at hx
        rcases hx with hx | hx
        · exact hlt x (List.mem_of_mem_take hx)
        · obtain ⟨j, hj, rfl⟩ := List.mem_map.1 hx
          rw [List.mem_range] at hj
          omega
    · exact ih (by omega) e

/-- The columns found are different dense positions, as many as there are gaps, with the inverse of their matrix. -/
theorem findCols_spec (ds : Nat) (hds : ds ≤ 128) (eRow : List Block) (fuel : Nat) (gc : List Nat) (hp : gc.Pairwise (· < ·))
    (hl : gc.length ≤ ds) (hlt : ∀ x ∈ gc, x < ds) {gc' : List Nat} {inv : List (List UInt8)}
    (e : findCols ds eRow fuel gc = some (gc', inv)) :
    gc'.Pairwise (· < ·) ∧ gc'.length = gc.length ∧ (∀ x ∈ gc', x < ds) ∧
      MatInv.checkInvert (selMat ds eRow gc') = some (true, inv) := by
  induction fuel generalizing gc with
  | zero => cases e
  | succ fuel ih =>
    unfold findCols at e
    cases h1 : prevComb gc ds with
    | none => rw [h1] at e; simp at e
    | some g1 =>
      rw [h1] at e
      simp only at e
      obtain ⟨q1, q2, q3⟩ := prevFrom_spec ds hds gc hp hl gc.length le_rfl hlt h1
      cases h3 : MatInv.checkInvert (selMat ds eRow g1) with
      | none => rw [h3] at e; simp at e
      | some r =>
        obtain ⟨ok, m⟩ := r
        rw [h3] at e
        cases ok with
        | true =>
          simp only [Option.some.injEq, Prod.mk.injEq] at e
          obtain ⟨rfl, rfl⟩ := e
          exact ⟨q1, q2, q3, h3⟩
        | false =>
          simp only at e
          obtain ⟨i1, i2, i3, i4⟩ := ih g1 q1 (by omega) q3 e
          exact ⟨i1, by omega, i3, i4⟩

/-! ### Writing to the output -/

theorem fill_spec {V : Type} (s : Nat) (x : Nat → V) (js : List Nat) (out : Nat → V) :
    (∀ j ∈ js, fill s x js out (s + j) = x j) ∧ ∀ a, (∀ j ∈ js, a ≠ s + j) → fill s x js out a = out a := by
  induction js using List.reverseRecOn with
  | nil => simp [fill]
  | append_singleton js k ih =>
    obtain ⟨h1, h3⟩ := ih
    have e : fill s x (js ++ [k]) out = Function.update (fill s x js out) (s + k) (x k) := by simp [fill, List.foldl_append]
    rw [e]
    refine ⟨fun j hj => ?_, fun a ha => ?_⟩
    · by_cases hjk : j = k
      · subst hjk; rw [Function.update_self]
      · rw [Function.update_of_ne (by omega)]
        refine h1 j ?_
        simpa [hjk] using hj
    · rw [Function.update_of_ne (ha k (by simp)), h3 a (fun j hj => ha j (List.mem_append_left _ hj))]

variable {V : Type} [AddCommGroup V]

theorem addAt_spec (mul : V → Block → V) (b s : Nat) (pos : Nat → Nat) (x : Nat → V) (g : Nat)
    (hinj : ∀ i < g, ∀ j < g, pos i = pos j → i = j) (out : Nat → V) :
    (∀ i < g, addAt (grpOps mul b) s pos x g out (s + pos i) = out (s + pos i) + x i) ∧
      ∀ a, (∀ i < g, a ≠ s + pos i) → addAt (grpOps mul b) s pos x g out a = out a := by
  induction g with
  | zero => simp [addAt]
  | succ g ih =>
    obtain ⟨h1, h3⟩ := ih (fun i hi j hj => hinj i (by omega) j (by omega))
    have e : addAt (grpOps mul b) s pos x (g + 1) out = Function.update (addAt (grpOps mul b) s pos x g out) (s + pos g)
        (addAt (grpOps mul b) s pos x g out (s + pos g) + x g) := by
      simp [addAt, List.range_succ, List.foldl_append]
    rw [e]
    refine ⟨fun i hi => ?_, fun a ha => ?_⟩
    · rcases Nat.lt_succ_iff_lt_or_eq.1 hi with hi | rfl
      · have hne : pos i ≠ pos g := fun e => by have := hinj i (by omega) g (by omega) e; omega
        rw [Function.update_of_ne (by omega), h1 i hi]
      · rw [Function.update_self, h3]
        intro j hj he
        have := hinj j (by omega) i (by omega) (by omega)
        omega
    · rw [Function.update_of_ne (ha g (by omega)), h3 a (fun i hi => ha i (by omega))]

/-! ### Sums -/

theorem sum_range_fin (n : Nat) (f : Nat → V) : ((List.range n).map f).sum = ∑ i : Fin n, f i := by
  induction n with
  | zero => simp
  | succ n ih => rw [List.range_succ, List.map_append, List.sum_append, ih, Fin.sum_univ_castSucc]; simp

theorem sum_list_fin (l : List Nat) (f : Nat → V) : (l.map f).sum = ∑ i : Fin l.length, f (l.getD i 0) := by
  rw [← sum_range_fin l.length (fun i => f (l.getD i 0))]
  congr 1
  refine List.ext_getElem (by simp) (fun i h1 h3 => ?_)
  have hi : i < l.length := by simpa using h1
  simp [List.getD_eq_getElem?_getD, List.getElem?_eq_getElem hi]

theorem sum_split (n : Nat) (gc : List Nat) (hn : gc.Nodup) (hlt : ∀ x ∈ gc, x < n) (f : Nat → V) :
    ((List.range n).map f).sum = (gc.map f).sum + (((List.range n).filter (· ∉ gc)).map f).sum := by
  have hp : (List.range n).Perm (gc ++ (List.range n).filter (· ∉ gc)) := by
    refine (List.perm_ext_iff_of_nodup List.nodup_range ?_).2 (fun x => ?_)
    · refine List.nodup_append.2 ⟨hn, List.nodup_range.filter _, fun a ha b hb hab => ?_⟩
      subst hab
      exact absurd ha (by simpa using (List.mem_filter.1 hb).2)
    · simp only [List.mem_range, List.mem_append, List.mem_filter, decide_eq_true_eq]
      constructor
      · intro h; by_cases hx : x ∈ gc <;> simp [h, hx]
      · rintro (h | h)
        · exact hlt x h
        · exact h.1
  rw [← List.sum_append, ← List.map_append]
  exact (hp.map f).sum_eq

theorem matrix_solve {R : Type} [CommRing R] [Module R V] {g : Nat} (M N : Matrix (Fin g) (Fin g) R) (h : M * N = 1)
    (w : Fin g → V) (i : Fin g) : ∑ k, M i k • ∑ l, N k l • w l = w i := by
  have : ∀ k, M i k • ∑ l, N k l • w l = ∑ l, (M i k * N k l) • w l := by
    intro k; rw [Finset.smul_sum]; simp only [smul_smul]
  simp only [this]
  rw [Finset.sum_comm]
  have : ∀ l, ∑ k, (M i k * N k l) • w l = ((1 : Matrix (Fin g) (Fin g) R) i l) • w l := by
    intro l; rw [← Finset.sum_smul, ← Matrix.mul_apply, h]
  simp only [this, Matrix.one_apply, ite_smul, one_smul, zero_smul, Finset.sum_ite_eq, Finset.mem_univ, if_true]

/-! ### The binary dense part -/

theorem bitAt_xor (ds : Nat) (a b : Block) (j : Nat) : bitAt ds (a ^^^ b) j = xor (bitAt ds a j) (bitAt ds b j) := by
  unfold bitAt
  split <;> simp [BitVec.getLsbD_setWidth] <;> grind

/-- Every position below 128 is the bit of that number. -/
theorem bitAt_eq (ds : Nat) (d : Block) (j : Nat) (h : j < ds) (hds : ds ≤ 128) : bitAt ds d j = d.getLsbD j := by
  unfold bitAt
  split
  · rw [BitVec.getLsbD_ushiftRight, BitVec.getLsbD_setWidth, BitVec.getLsbD_ushiftRight]
    have : j % 8 < 8 := Nat.mod_lt _ (by omega)
    rw [Nat.add_zero, Nat.div_add_mod]
    simp [this]
  · rw [BitVec.getLsbD_ushiftRight, BitVec.getLsbD_setWidth]
    have : j < 64 := by omega
    simp [this]

/-- Sum of the selected dense values. -/
def Db (ds : Nat) (X : Nat → V) (d : Block) : V := ((List.range ds).map fun j => if bitAt ds d j then X j else 0).sum

section char2
variable (h2 : ∀ x : V, x + x = 0)
include h2

theorem Db_xor (ds : Nat) (X : Nat → V) (a b : Block) : Db ds X (a ^^^ b) = Db ds X a + Db ds X b := by
  unfold Db
  rw [sum_range_fin, sum_range_fin, sum_range_fin, ← Finset.sum_add_distrib]
  refine Finset.sum_congr rfl (fun j _ => ?_)
  rw [bitAt_xor]
  cases bitAt ds a j <;> cases bitAt ds b j <;> simp [h2]

theorem Db_fold (ds : Nat) (X : Nat → V) (d : Nat → Block) (l : List Nat) (a : Block) :
    Db ds X (l.foldl (fun a j => a ^^^ d j) a) = Db ds X a + (l.map fun j => Db ds X (d j)).sum := by
  induction l generalizing a with
  | nil => simp
  | cons k l ih => rw [List.foldl_cons, ih, Db_xor h2, List.map_cons, List.sum_cons, add_assoc]

omit h2 in
theorem Db_zero (ds : Nat) (X : Nat → V) : Db ds X 0#128 = 0 := by
  have : ∀ j, bitAt ds 0#128 j = false := by intro j; unfold bitAt; split <;> simp
  simp [Db, this]

theorem gapDense_sum (ds : Nat) (X : Nat → V) (m : Mat) (r : Nat) (fc : List Nat) :
    Db ds X (gapDense m r fc) = Db ds X (m.d r) + (fc.map fun q => Db ds X (m.d q)).sum := by
  unfold gapDense
  rw [Db_xor h2, Db_fold h2, Db_zero, zero_add]

omit h2 in
theorem gapVal_eq (mul : V → Block → V) (b : Nat) (v : Nat → V) (r : Nat) (fc : List Nat) :
    gapVal (grpOps mul b) v r fc = v r + (fc.map v).sum := foldl_add_map v fc (v r)

/-- The gap rows of the binary form: with the values written, every eliminated gap row has its value. -/
theorem gapsBin_spec {mul : V → Block → V} {b : Nat} {c : Cfg} {m : Mat} {tr : Tri} {g : Nat} {rnd : Option (Rnd V)} {v out out' : Nat → V}
    {gc : List Nat} (hds : c.ds ≤ 128) (h0 : ∀ j < c.ds, out (c.s + j) = 0)
    (e : gapsBin (grpOps mul b) c m tr g rnd v out = some (gc, out')) :
    ∃ fcs, fcAll m tr g = some fcs ∧ (∀ a, a < c.s → out' a = out a) ∧ gc.Nodup ∧ (∀ x ∈ gc, x < c.ds) ∧
      (rnd = none → ∀ j < c.ds, j ∉ gc → out' (c.s + j) = 0) ∧
      ∀ i < g, Db c.ds (fun j => out' (c.s + j)) (gapDense m (tr.gapR.getD i 0) (fcs.getD i []))
        = v (tr.gapR.getD i 0) + ((fcs.getD i []).map v).sum := by
  unfold gapsBin at e
  split at e
  · cases e
  rename_i hlim
  split at e
  · cases e
  cases hfc : fcAll m tr g with
  | none => rw [hfc] at e; simp at e
  | some fcs =>
    rw [hfc] at e
    simp only at e
    generalize heR : (List.range g).map (fun i => gapDense m (tr.gapR.getD i 0) (fcs.getD i [])) = eRow at e
    have hel : eRow.length = g := by rw [← heR]; simp
    have heg : ∀ i < g, eRow.getD i 0#128 = gapDense m (tr.gapR.getD i 0) (fcs.getD i []) := by
      intro i hi
      rw [← heR, List.getD_eq_getElem?_getD, List.getElem?_map, List.getElem?_range hi]; rfl
    cases hfind : findCols c.ds eRow (2 ^ c.ds) (List.range g) with
    | none => rw [hfind] at e; simp at e
    | some p =>
      obtain ⟨gc1, inv⟩ := p
      rw [hfind] at e
      simp only [Option.some.injEq, Prod.mk.injEq] at e
      obtain ⟨rfl, e⟩ := e
      have hgl : g ≤ c.ds := by have : c.gLim ≤ c.ds := by unfold Cfg.ds; omega
                                omega
      obtain ⟨q1, q2, q3, q4⟩ := findCols_spec c.ds hds eRow _ (List.range g) List.pairwise_lt_range (by simpa using hgl)
        (fun x hx => by have := List.mem_range.1 hx; omega) hfind
      rw [List.length_range] at q2
      have hnd : gc1.Nodup := q1.imp (fun h => Nat.ne_of_lt h)
      generalize ho1 : randFill c.s ((List.range c.ds).filter (· ∉ gc1)) rnd out = out1 at e
      have hgetin : ∀ i < g, gc1.getD i 0 ∈ gc1 := by
        intro i hi
        have hi' : i < gc1.length := by omega
        rw [List.getD_eq_getElem?_getD, List.getElem?_eq_getElem hi']
        exact List.getElem_mem hi'
      have hinj : ∀ i < g, ∀ j < g, gc1.getD i 0 = gc1.getD j 0 → i = j := by
        intro i hi j hj hij
        have hi' : i < gc1.length := by omega
        have hj' : j < gc1.length := by omega
        simp only [List.getD_eq_getElem?_getD, List.getElem?_eq_getElem hi', List.getElem?_eq_getElem hj', Option.getD_some] at hij
        exact (List.Nodup.getElem_inj_iff hnd).1 hij
      have hz : ∀ j ∈ gc1, out1 (c.s + j) = 0 := by
        intro j hj
        rw [← ho1]
        cases rnd with
        | none => exact h0 j (q3 j hj)
        | some rn =>
          unfold randFill
          simp only
          rw [(fill_spec c.s rn.dense _ out).2 _ ?_]
          · exact h0 j (q3 j hj)
          · intro k hk hjk
            have : j = k := by omega
            subst this
            exact absurd hj (by simpa using (List.mem_filter.1 hk).2)
      generalize hvals : (List.range g).map (fun i => moveRhs (grpOps mul b) c.ds (eRow.getD i 0#128) (fun j => out1 (c.s + j))
          ((List.range c.ds).filter (· ∉ gc1)) rnd (gapVal (grpOps mul b) v (tr.gapR.getD i 0) (fcs.getD i []))) = vals at e
      obtain ⟨a1, a2⟩ := addAt_spec mul b c.s (fun i => gc1.getD i 0)
        (fun i => selSum (grpOps mul b) g (inv.getD i []) vals) g hinj out1
      subst e
      have hout : ∀ j, j ∉ gc1 → addAt (grpOps mul b) c.s (fun i => gc1.getD i 0)
        (fun i => selSum (grpOps mul b) g (inv.getD i []) vals) g out1 (c.s + j)
          = out1 (c.s + j) := by
        intro j hj
        refine a2 _ (fun i hi he => ?_)
        have : j = gc1.getD i 0 := by omega
        exact hj (this ▸ hgetin i hi)
      refine ⟨fcs, rfl, fun a ha => ?_, hnd, q3, ?_, ?_⟩
      · rw [a2 a (fun i _ => by omega), ← ho1]
        cases rnd with
        | none => rfl
        | some rn => exact (fill_spec c.s rn.dense _ out).2 _ (fun j _ => by omega)
      · rintro rfl j hj hjg
        rw [hout j hjg, ← ho1]
        exact h0 j hj
      · intro i hi
        letI : Module (ZMod 2) V := AddCommGroup.zmodModule (n := 2) (fun x => by rw [two_nsmul, h2])
        have hsq : MatInv.Square g (selMat c.ds eRow gc1) := by
          refine ⟨by simp [selMat, hel], fun r hr => ?_⟩
          simp [selMat, List.getD_eq_getElem?_getD, List.getElem?_eq_getElem (show r < eRow.length by omega), q2]
        have hent : ∀ r < g, ∀ k < g, MatInv.ent 0 (selMat c.ds eRow gc1) r k
            = if bitAt c.ds (eRow.getD r 0#128) (gc1.getD k 0) then 1 else 0 := by
          intro r hr k hk
          have hk' : k < gc1.length := by omega
          simp [MatInv.ent, selMat, List.getD_eq_getElem?_getD, List.getElem?_eq_getElem (show r < eRow.length by omega),
            List.getElem?_eq_getElem hk']
        obtain ⟨ok, inv', ei, -, hinv⟩ := MatInv.check_invert_correct g (selMat c.ds eRow gc1) hsq (by
          intro r hr k hk
          rw [hent r hr k hk]; split <;> simp)
        rw [q4] at ei
        simp only [Option.some.injEq, Prod.mk.injEq] at ei
        obtain ⟨rfl, rfl⟩ := ei
        obtain ⟨-, -, -, hmul⟩ := hinv rfl
        rw [← heg i hi]
        unfold Db
        rw [sum_split c.ds gc1 hnd q3, sum_list_fin]
        subst q2
        have hX : ∀ k : Fin gc1.length, addAt (grpOps mul b) c.s (fun i => gc1.getD i 0)
            (fun i => selSum (grpOps mul b) gc1.length (inv.getD i []) vals)
              gc1.length out1 (c.s + gc1.getD k 0) = ∑ l : Fin gc1.length, MatInv.mat2 gc1.length inv k l • vals.getD l 0 := by
          intro k
          rw [a1 k k.isLt, hz _ (hgetin k k.isLt), zero_add]
          have : ∀ (f : V → Nat → V), f = (fun a j => a + MatInv.bit ((inv.getD (k : Nat) []).getD j 0) • vals.getD j 0) →
              (List.range gc1.length).foldl f 0 = ∑ l : Fin gc1.length, MatInv.mat2 gc1.length inv k l • vals.getD l 0 := by
            rintro f rfl
            rw [foldl_add_map, zero_add, sum_range_fin]
            rfl
          refine this _ ?_
          funext a j
          unfold MatInv.bit
          by_cases h : (inv.getD (k : Nat) []).getD j 0 = 0
          · rw [if_neg (by simpa using h), if_pos h, zero_smul, add_zero]
          · rw [if_pos h, if_neg h, one_smul]
        have hfirst : (∑ k : Fin gc1.length, if bitAt c.ds (eRow.getD i 0#128) (gc1.getD k 0) = true then
              addAt (grpOps mul b) c.s (fun i => gc1.getD i 0)
            (fun i => selSum (grpOps mul b) gc1.length (inv.getD i []) vals)
              gc1.length out1 (c.s + gc1.getD k 0) else 0) = vals.getD i 0 := by
          rw [← matrix_solve (MatInv.mat2 gc1.length (selMat c.ds eRow gc1)) (MatInv.mat2 gc1.length inv) hmul (fun l => vals.getD l 0) ⟨i, hi⟩]
          refine Finset.sum_congr rfl (fun k _ => ?_)
          rw [hX k]
          simp only [MatInv.toMat, Matrix.of_apply]
          rw [hent i hi k k.isLt]
          split <;> simp [MatInv.bit]
        rw [hfirst]
        have hv : vals.getD i 0 = moveRhs (grpOps mul b) c.ds (eRow.getD i 0#128) (fun j => out1 (c.s + j))
            ((List.range c.ds).filter (· ∉ gc1)) rnd (gapVal (grpOps mul b) v (tr.gapR.getD i 0) (fcs.getD i [])) := by
          rw [← hvals, List.getD_eq_getElem?_getD, List.getElem?_map, List.getElem?_range hi]; rfl
        rw [hv]
        have hrest : (((List.range c.ds).filter (· ∉ gc1)).map fun j => if bitAt c.ds (eRow.getD i 0#128) j = true then
              addAt (grpOps mul b) c.s (fun i => gc1.getD i 0)
            (fun i => selSum (grpOps mul b) gc1.length (inv.getD i []) vals)
              gc1.length out1 (c.s + j) else 0)
            = ((List.range c.ds).filter (· ∉ gc1)).map fun j => if bitAt c.ds (eRow.getD i 0#128) j then out1 (c.s + j) else 0 := by
          refine List.map_congr_left (fun j hj => ?_)
          rw [hout j (by simpa using (List.mem_filter.1 hj).2)]
        rw [hrest]
        cases rnd with
        | none =>
          unfold moveRhs
          simp only
          rw [gapVal_eq]
          have : (((List.range c.ds).filter (· ∉ gc1)).map fun j => if bitAt c.ds (eRow.getD i 0#128) j then out1 (c.s + j) else 0).sum = 0 := by
            refine List.sum_eq_zero (fun y hy => ?_)
            obtain ⟨j, hj, rfl⟩ := List.mem_map.1 hy
            rw [← ho1]
            unfold randFill
            simp only
            rw [h0 j (List.mem_range.1 (List.mem_filter.1 hj).1)]
            simp
          rw [this, add_zero]
        | some rn =>
          unfold moveRhs
          simp only
          rw [binSum_eq, gapVal_eq, add_assoc, h2, add_zero]

end char2

/-! ### The gf_128 dense part -/

/-- Laws of `gf128_mul(value, block)`. -/
structure MulOk (mul : V → Block → V) : Prop where
  add : ∀ x y a, mul (x + y) a = mul x a + mul y a
  xor : ∀ x a b, mul x (a ^^^ b) = mul x a + mul x b
  assoc : ∀ x a b, mul (mul x a) b = mul x (GF.mul a b)
  one : ∀ x, mul x MatInv.oneBlock = x

theorem MulOk.zero_right {mul : V → Block → V} (h : MulOk mul) (x : V) : mul x 0#128 = 0 := by
  have := h.xor x 0#128 0#128
  rw [BitVec.xor_self] at this
  simpa using this

theorem MulOk.zero_left {mul : V → Block → V} (h : MulOk mul) (a : Block) : mul 0 a = 0 := by
  have := h.add 0 0 a
  rw [add_zero] at this
  simpa using this

noncomputable def fEquiv : Block ≃ GF.F := Equiv.ofBijective GF.toF ⟨fun _ _ h => GF.toF_inj h, GF.toF_surjective⟩

theorem fEquiv_apply (a : Block) : fEquiv a = GF.toF a := Equiv.ofBijective_apply ..

theorem toF_symm (f : GF.F) : GF.toF (fEquiv.symm f) = f := by rw [← fEquiv_apply, Equiv.apply_symm_apply]

/-- Values as a vector space over the field of blocks. -/
noncomputable def MulOk.module {mul : V → Block → V} (h : MulOk mul) : Module GF.F V where
  smul f x := mul x (fEquiv.symm f)
  one_smul x := by
    show mul x (fEquiv.symm 1) = x
    have : fEquiv.symm 1 = MatInv.oneBlock := by
      rw [Equiv.symm_apply_eq, fEquiv_apply, MatInv.one_eq, GF.toF_one]
    rw [this, h.one]
  mul_smul a b x := by
    show mul x (fEquiv.symm (a * b)) = mul (mul x (fEquiv.symm b)) (fEquiv.symm a)
    rw [h.assoc]
    congr 1
    rw [Equiv.symm_apply_eq, fEquiv_apply, GF.toF_mul, toF_symm, toF_symm, mul_comm]
  smul_zero a := h.zero_left _
  smul_add a x y := h.add x y _
  add_smul a b x := by
    show mul x (fEquiv.symm (a + b)) = mul x (fEquiv.symm a) + mul x (fEquiv.symm b)
    rw [← h.xor]
    congr 1
    rw [Equiv.symm_apply_eq, fEquiv_apply, GF.toF_xor, toF_symm, toF_symm]
  zero_smul x := by
    show mul x (fEquiv.symm 0) = 0
    have : fEquiv.symm 0 = 0#128 := by
      rw [Equiv.symm_apply_eq, fEquiv_apply, GF.toF_zero]
    rw [this, h.zero_right]

/-- The dense part of a row: `Σ X_j d^(j+1)`. -/
def Dg (mul : V → Block → V) (ds : Nat) (X : Nat → V) (d : Block) : V := ((List.range ds).map fun j => mul (X j) (gpow d j)).sum

theorem mul_foldl {mul : V → Block → V} (h : MulOk mul) (x : V) (f : Nat → Block) (l : List Nat) (a : Block) :
    mul x (l.foldl (fun a r => a ^^^ f r) a) = mul x a + (l.map fun r => mul x (f r)).sum := by
  induction l generalizing a with
  | nil => simp
  | cons k l ih => rw [List.foldl_cons, ih, h.xor, List.map_cons, List.sum_cons, add_assoc]

theorem Dg_gap {mul : V → Block → V} (h : MulOk mul) (ds : Nat) (X : Nat → V) (d0 : Block) (d : Nat → Block) (fc : List Nat) :
    Dg mul ds X d0 + (fc.map fun q => Dg mul ds X (d q)).sum
      = ((List.range ds).map fun k => mul (X k) (fc.foldl (fun a r => a ^^^ gpow (d r) k) (gpow d0 k))).sum := by
  simp only [mul_foldl h]
  induction fc with
  | nil => simp [Dg]
  | cons q fc ih =>
    rw [List.map_cons, List.sum_cons, add_left_comm, ih]
    unfold Dg
    rw [sum_range_fin, sum_range_fin, sum_range_fin, ← Finset.sum_add_distrib]
    refine Finset.sum_congr rfl (fun k _ => ?_)
    rw [List.map_cons, List.sum_cons, add_left_comm]

/-- The gap rows of the gf_128 form: with the values written, every eliminated gap row has its value. -/
theorem gapsGf_spec {mul : V → Block → V} (hmul : MulOk mul) {b : Nat} {c : Cfg} {m : Mat} {tr : Tri} {g : Nat} {rnd : Option (Rnd V)}
    {v out out' : Nat → V} (h0 : ∀ j < c.ds, out (c.s + j) = 0) (e : gapsGf (grpOps mul b) c m tr g rnd v out = some out') :
    ∃ fcs, fcAll m tr g = some fcs ∧ (∀ a, a < c.s → out' a = out a) ∧
      ∀ i < g, Dg mul c.ds (fun j => out' (c.s + j)) (m.d (tr.gapR.getD i 0))
          + ((fcs.getD i []).map fun q => Dg mul c.ds (fun j => out' (c.s + j)) (m.d q)).sum
        = v (tr.gapR.getD i 0) + ((fcs.getD i []).map v).sum := by
  unfold gapsGf at e
  split at e
  · cases e
  rename_i hlim
  have hgl : g ≤ c.ds := by have : c.gLim ≤ c.ds := by unfold Cfg.ds; omega
                            omega
  cases hfc : fcAll m tr g with
  | none => rw [hfc] at e; simp at e
  | some fcs =>
    rw [hfc] at e
    simp only at e
    generalize hlen : (if rnd.isSome = true then c.ds else g) = len at e
    have hlg : g ≤ len := by rw [← hlen]; split <;> omega
    have hld : len ≤ c.ds := by rw [← hlen]; split <;> omega
    generalize hE : (List.range len).map (fun i => (List.range len).map fun k => gfEnt m tr g fcs rnd i k) = E at e
    have hsq : MatInv.Square len E := by
      refine ⟨by rw [← hE]; simp, fun r hr => ?_⟩
      rw [← hE]; simp [List.getD_eq_getElem?_getD, hr]
    have hent : ∀ i < len, ∀ k < len, MatInv.ent 0#128 E i k = gfEnt m tr g fcs rnd i k := by
      intro i hi k hk
      rw [← hE]; simp [MatInv.ent, List.getD_eq_getElem?_getD, hi, hk]
    obtain ⟨ok, inv, ei, -, hinv, -⟩ := MatInv.checkG E hsq
    rw [ei] at e
    cases ok with
    | false => simp at e
    | true =>
      simp only [Option.some.injEq] at e
      obtain ⟨-, hmat⟩ := hinv rfl
      generalize hvals : (List.range len).map (gfRhs (grpOps mul b) tr g fcs rnd v) = vals at e
      obtain ⟨a1, a2⟩ := addAt_spec mul b c.s (fun i => i) (fun i => gfSolve (grpOps mul b) len (inv.getD i []) vals) len
        (fun _ _ _ _ h => h) out
      subst e
      refine ⟨fcs, rfl, fun a ha => a2 a (fun i _ => by omega), fun i hi => ?_⟩
      letI := hmul.module
      rw [Dg_gap hmul]
      have hsmul : ∀ (x : V) (a : Block), mul x a = GF.toF a • x := by
        intro x a
        show mul x a = mul x (fEquiv.symm (GF.toF a))
        rw [← fEquiv_apply, Equiv.symm_apply_apply]
      have hX : ∀ k : Fin len, addAt (grpOps mul b) c.s (fun i => i) (fun i => gfSolve (grpOps mul b) len (inv.getD i []) vals) len out
          (c.s + k) = ∑ l : Fin len, MatInv.matG len inv k l • vals.getD l 0 := by
        intro k
        rw [a1 k k.isLt, h0 k (by have := k.isLt; omega), zero_add]
        unfold gfSolve
        rw [show ∀ (f : V → Nat → V), f = (fun a j => a + mul (vals.getD j 0) ((inv.getD (k : Nat) []).getD j 0#128)) →
          (List.range len).foldl f 0 = ((List.range len).map fun j => mul (vals.getD j 0) ((inv.getD (k : Nat) []).getD j 0#128)).sum from
            fun f hf => by rw [hf, foldl_add_map, zero_add]]
        · rw [sum_range_fin]
          refine Finset.sum_congr rfl (fun l _ => ?_)
          rw [hsmul]; rfl
        · rfl
      obtain ⟨t, ht⟩ := Nat.exists_eq_add_of_le hld
      have hsplit : ((List.range c.ds).map fun k => mul (addAt (grpOps mul b) c.s (fun i => i)
            (fun i => gfSolve (grpOps mul b) len (inv.getD i []) vals) len out (c.s + k))
            ((fcs.getD i []).foldl (fun a r => a ^^^ gpow (m.d r) k) (gpow (m.d (tr.gapR.getD i 0)) k))).sum
          = ((List.range len).map fun k => mul (addAt (grpOps mul b) c.s (fun i => i)
            (fun i => gfSolve (grpOps mul b) len (inv.getD i []) vals) len out (c.s + k))
            ((fcs.getD i []).foldl (fun a r => a ^^^ gpow (m.d r) k) (gpow (m.d (tr.gapR.getD i 0)) k))).sum := by
        rw [ht, List.range_add, List.map_append, List.sum_append]
        rw [List.sum_eq_zero (l := List.map _ (List.map _ _)), add_zero]
        intro y hy
        rw [List.map_map] at hy
        obtain ⟨k, hk, rfl⟩ := List.mem_map.1 hy
        rw [List.mem_range] at hk
        simp only [Function.comp]
        rw [a2 _ (fun i hi => by omega), h0 _ (by omega), hmul.zero_left]
      rw [hsplit, sum_range_fin]
      have hv : vals.getD i 0 = v (tr.gapR.getD i 0) + ((fcs.getD i []).map v).sum := by
        rw [← hvals, List.getD_eq_getElem?_getD, List.getElem?_map, List.getElem?_range (by omega : i < len)]
        simp only [Option.map_some, Option.getD_some, gfRhs]
        rw [if_pos hi, gapVal_eq]
      rw [← hv, ← matrix_solve (MatInv.matG len E) (MatInv.matG len inv) hmat (fun l => vals.getD l 0) ⟨i, by omega⟩]
      refine Finset.sum_congr rfl (fun k _ => ?_)
      rw [hX k, hsmul]
      simp only [MatInv.toMat, Matrix.of_apply]
      rw [hent i (by omega) k k.isLt]
      unfold gfEnt
      rw [if_pos hi]

end Kunlun.OKVS
