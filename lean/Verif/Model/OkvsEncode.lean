import Verif.Model.OkvsBackfill
import Verif.Props.OkvsRow
/-!
`encode` of the OKVS solves the equations of all rows.
-/

namespace Kunlun.OKVS
open Kunlun Kunlun.FastDiv

theorem mapM_inv {α β : Type} (f : α → Option β) (l : List α) (r : List β) (e : l.mapM f = some r) :
    r.length = l.length ∧ ∀ i (hi : i < l.length), ∃ y, f l[i] = some y ∧ r[i]? = some y := by
  induction l generalizing r with
  | nil => cases e; simp
  | cons a l ih =>
    rw [List.mapM_cons] at e
    cases h1 : f a with
    | none => rw [h1] at e; simp at e
    | some y =>
      rw [h1] at e
      cases h2 : l.mapM f with
      | none => rw [h2] at e; simp at e
      | some r1 =>
        rw [h2] at e
        obtain ⟨i1, i2⟩ := ih r1 h2
        have : r = y :: r1 := by simpa using e.symm
        subst this
        refine ⟨by simp [i1], fun i hi => ?_⟩
        cases i with
        | zero => exact ⟨y, h1, rfl⟩
        | succ i => simpa using i2 i (by simpa using hi)

theorem fcAll_get {m : Mat} {tr : Tri} {g : Nat} {fcs : List (List Nat)} (e : fcAll m tr g = some fcs) (i : Nat) (hi : i < g) :
    fcRow m tr (tr.gapR.getD i 0) (tr.gapF.getD i 0) = some (fcs.getD i []) := by
  obtain ⟨-, h⟩ := mapM_inv _ _ _ e
  obtain ⟨y, h1, h2⟩ := h i (by simpa using hi)
  rw [List.getElem_range] at h1
  rw [h1, List.getD_eq_getElem?_getD, h2]
  rfl

theorem walk_mem {nd : Nat → Node} (fuel : Nat) {q p : Option Nat} {l : List Nat} (hl : Linked nd q l) (hp : p = l.head?) :
    ∀ i ∈ walk nd fuel p, i ∈ l := by
  induction fuel generalizing q p l with
  | zero => simp [walk]
  | succ fuel ih =>
    cases l with
    | nil => subst hp; simp [walk]
    | cons a l =>
      simp only [List.head?_cons] at hp
      subst hp
      obtain ⟨-, h2, h3⟩ := hl
      intro i hi
      unfold walk at hi
      rcases List.mem_cons.1 hi with rfl | hi
      · exact List.mem_cons_self ..
      · exact List.mem_cons_of_mem _ (ih h3 h2 i hi)

theorem foldl_update_frame {V : Type} (x : Nat → V) (l : List Nat) (out : Nat → V) (a : Nat) (h : a ∉ l) :
    l.foldl (fun f i => Function.update f i (x i)) out a = out a := by
  induction l generalizing out with
  | nil => rfl
  | cons i l ih =>
    simp only [List.mem_cons, not_or] at h
    rw [List.foldl_cons, ih _ h.2, Function.update_of_ne h.1]

/-- The random values for free columns touch neither pivot columns nor the dense part. -/
theorem freeCols_spec {V : Type} {c : Cfg} {tr : Tri} {m : Mat} {rnd : Option (Rnd V)} {out out' : Nat → V} (h : TriInv m c.n c.s tr)
    (e : freeCols c tr rnd out = some out') : (∀ a, a ∈ tr.triC ∨ c.s ≤ a → out' a = out a) ∧ (rnd = none → out' = out) := by
  unfold freeCols at e
  cases rnd with
  | none => cases e; exact ⟨fun _ _ => rfl, fun _ => rfl⟩
  | some rn =>
    simp only at e
    refine ⟨fun a ha => ?_, by simp⟩
    split at e
    · cases e
    cases hh : tr.ws.head[0]? with
    | none => rw [hh] at e; simp at e
    | some p =>
      rw [hh] at e
      simp only [Option.some.injEq] at e
      subst e
      obtain ⟨⟨L, hr, hk, hp⟩, -⟩ := h.good
      have hlen : 0 < tr.ws.head.length := by
        by_contra hn
        rw [List.getElem?_eq_none (by omega)] at hh
        cases hh
      rw [hr.head 0 hlen] at hh
      refine foldl_update_frame rn.col _ _ _ (fun hmem => ?_)
      have hin := walk_mem c.s (hr.link 0) (Option.some.inj hh).symm a hmem
      have hlt := hk 0 a hin
      rcases ha with ha | ha
      · exact ((hp a hlt).1 ha).2 0 hin
      · omega

variable {V : Type} [AddCommGroup V]

/-- The dense part of row `r`. -/
def Dn (mul : V → Block → V) (c : Cfg) (m : Mat) (x : Nat → V) (r : Nat) : V :=
  if c.binary then Db c.ds (fun j => x (c.s + j)) (m.d r) else Dg mul c.ds (fun j => x (c.s + j)) (m.d r)

theorem gap_row_value (h2 : ∀ x : V, x + x = 0) (S D v : Nat → V) (fc : List Nat) (r : Nat) (h1 : S r = (fc.map S).sum)
    (h3 : ∀ q ∈ fc, S q + D q = v q) (h4 : D r + (fc.map D).sum = v r + (fc.map v).sum) : S r + D r = v r := by
  have hs : (fc.map S).sum + (fc.map D).sum = (fc.map v).sum := by
    clear h1 h4
    induction fc with
    | nil => simp
    | cons q fc ih =>
      simp only [List.map_cons, List.sum_cons]
      rw [← ih (fun q hq => h3 q (List.mem_cons_of_mem _ hq)), ← h3 q (List.mem_cons_self ..)]
      abel
  have h5 : D r = v r + (fc.map v).sum + (fc.map D).sum := by rw [← h4, add_assoc, h2, add_zero]
  rw [h1, h5, ← hs]
  generalize (fc.map S).sum = a
  generalize (fc.map D).sum = b
  have : a + (v r + (a + b) + b) = (a + a) + (b + b) + v r := by abel
  rw [this, h2, h2, zero_add, zero_add]

/-- All rows have their values: from the triangle, the elimination and the solution for the gaps. -/
theorem all_rows (h2 : ∀ x : V, x + x = 0) {mul : V → Block → V} {c : Cfg} {m : Mat} {tr : Tri} (hr : RowsOk m c.n c.s)
    (hinv : TriInv m c.n c.s tr) (hall : ∀ r, r ∈ tr.triR ++ tr.gapR ↔ r < c.n) {v out : Nat → V} {fcs : List (List Nat)}
    (hfc : fcAll m tr tr.gapR.length = some fcs)
    (hz : (∀ a < c.s, a ∉ tr.triC → out a = 0) ∨ ∀ p ∈ tr.gapR.zip tr.gapF, m.row p.1 = m.row p.2)
    (htri : ∀ r ∈ tr.triR, ((m.row r).map out).sum + Dn mul c m out r = v r)
    (hgap : ∀ i < tr.gapR.length, Dn mul c m out (tr.gapR.getD i 0) + ((fcs.getD i []).map (Dn mul c m out)).sum
      = v (tr.gapR.getD i 0) + ((fcs.getD i []).map v).sum) :
    ∀ r < c.n, ((m.row r).map out).sum + Dn mul c m out r = v r := by
  intro r hrn
  rcases List.mem_append.1 ((hall r).2 hrn) with h | h
  · exact htri r h
  · obtain ⟨i, hi, rfl⟩ := List.getElem_of_mem h
    have hgl := hinv.glen
    have hg1 : tr.gapR.getD i 0 = tr.gapR[i] := by rw [List.getD_eq_getElem?_getD, List.getElem?_eq_getElem hi]; rfl
    have hg2 : tr.gapF.getD i 0 = tr.gapF[i]'(by omega) := by
      rw [List.getD_eq_getElem?_getD, List.getElem?_eq_getElem (by omega)]; rfl
    have hf := fcAll_get hfc i hi
    have hfirst : tr.gapF.getD i 0 ∈ tr.triR := hinv.first _ (by rw [hg2]; exact List.getElem_mem _)
    have hlt : ∀ q ∈ tr.triR ++ tr.gapR, q < c.n := fun q hq => (hall q).1 hq
    obtain ⟨f1, f2⟩ := fcRow_spec h2 hfirst (hr.nodup _ (by rw [hg1]; exact hrn)) hf
    rw [← hg1] at hrn ⊢
    refine gap_row_value h2 (fun r => ((m.row r).map out).sum) (Dn mul c m out) v (fcs.getD i []) _ ?_ (fun q hq => htri q (f1 q hq))
      (hgap i hi)
    have hcut : ∀ q < c.n, ((m.row q).map fun a => if a < c.s then out a else 0).sum = ((m.row q).map out).sum := by
      intro q hq
      congr 1
      exact List.map_congr_left (fun a ha => by rw [if_pos (hr.lt q hq a ha)])
    have := f2 (fun a => if a < c.s then out a else 0) (by
      rcases hz with hz | hz
      · left
        intro a ha
        split
        · exact hz a (by assumption) ha
        · rfl
      · right
        have hmem : (tr.gapR[i], tr.gapF[i]'(by omega)) ∈ tr.gapR.zip tr.gapF := by
          rw [List.mem_iff_getElem]
          exact ⟨i, by rw [List.length_zip]; omega, by rw [List.getElem_zip]⟩
        rw [hg1, hg2]
        exact hz _ hmem)
    rw [hcut _ hrn] at this
    rw [this]
    congr 1
    exact List.map_congr_left (fun q hq => hcut q (hlt q (List.mem_append_left _ (f1 q hq))))

theorem order_reverse {m : Mat} {n s : Nat} {tr : Tri} (h : TriInv m n s tr) :
    (tr.triR.zip tr.triC).reverse.Pairwise fun a b => b.2 ∉ m.row a.1 := List.pairwise_reverse.2 h.order

theorem zip_mem_of {tr : Tri} (h : tr.triR.length = tr.triC.length) {r : Nat} (hr : r ∈ tr.triR) :
    ∃ c, (r, c) ∈ tr.triR.zip tr.triC := by
  obtain ⟨i, hi, rfl⟩ := List.getElem_of_mem hr
  exact ⟨tr.triC[i]'(by omega), by
    rw [List.mem_iff_getElem]
    exact ⟨i, by rw [List.length_zip]; omega, by rw [List.getElem_zip]⟩⟩

/-- The triangle solved, from a buffer that is zero on the pivot columns. -/
theorem tri_solved (h2 : ∀ x : V, x + x = 0) {c : Cfg} {m : Mat} {tr : Tri} (hr : RowsOk m c.n c.s) (hinv : TriInv m c.n c.s tr)
    (hall : ∀ r, r ∈ tr.triR ++ tr.gapR ↔ r < c.n) {v out : Nat → V} (dense : (Nat → V) → Nat → V)
    (hdense : ∀ x x' r, (∀ a, c.s ≤ a → x a = x' a) → dense x r = dense x' r) (rhs : (Nat → V) → Nat → V)
    (hrhs : ∀ x r, rhs x r = v r + ((m.row r).map x).sum + dense x r) (h0 : ∀ a ∈ tr.triC, out a = 0) :
    (∀ r ∈ tr.triR, ((m.row r).map (triSolve rhs (tr.triR.zip tr.triC).reverse out)).sum
        + dense (triSolve rhs (tr.triR.zip tr.triC).reverse out) r = v r) ∧
      ∀ a, a ∉ tr.triC → triSolve rhs (tr.triR.zip tr.triC).reverse out a = out a := by
  constructor
  · intro r hrt
    obtain ⟨a, ha⟩ := zip_mem_of hinv.len hrt
    have hz : ∀ p ∈ (tr.triR.zip tr.triC).reverse, p ∈ tr.triR.zip tr.triC := fun p hp => List.mem_reverse.1 hp
    exact tri_rows h2 v m.row c.s dense hdense rhs hrhs _ (order_reverse hinv) (fun p hp => hinv.mem p (hz p hp))
      (fun p hp => hinv.clt _ (List.of_mem_zip (hz p hp)).2)
      (fun p hp => hr.nodup _ ((hall _).1 (List.mem_append_left _ (List.of_mem_zip (hz p hp)).1))) out
      (fun p hp => h0 _ (List.of_mem_zip (hz p hp)).2) (r, a) (List.mem_reverse.2 ha)
  · intro a ha
    refine triSolve_frame _ _ _ _ (fun hm => ha ?_)
    obtain ⟨p, hp, rfl⟩ := List.mem_map.1 hm
    exact (List.of_mem_zip (List.mem_reverse.1 hp)).2

/-- `encode` from a zero buffer: every row gets its value. The gf_128 form needs fewer than 256 gap rows; the randomised form needs gap
rows with the positions of their first rows. -/
theorem encodeTri_rows (h2 : ∀ x : V, x + x = 0) {mul : V → Block → V} (hmul : MulOk mul) {b : Nat} {c : Cfg} {st : St} {tr : Tri}
    (hst : StOk st c.n c.s) (hinv : TriInv st.m c.n c.s tr) (hall : ∀ r, r ∈ tr.triR ++ tr.gapR ↔ r < c.n)
    {rnd : Option (Rnd V)} {v out out' : Nat → V} (hout : ∀ a, out a = 0) (hg : c.binary = true ∨ tr.gapR.length < 256)
    (hrnd : rnd = none ∨ ∀ p ∈ tr.gapR.zip tr.gapF, st.m.row p.1 = st.m.row p.2)
    (e : encodeTri (grpOps mul b) c st tr rnd v out = some out') :
    (c.binary = true → c.ds ≤ 128) ∧ ∀ r < c.n, ((st.m.row r).map out').sum + Dn mul c st.m out' r = v r := by
  have hr := hst.rows
  unfold encodeTri at e
  cases hf : freeCols c tr rnd out with
  | none => rw [hf] at e; simp at e
  | some out1 =>
    rw [hf] at e
    simp only at e
    obtain ⟨f1, f2⟩ := freeCols_spec hinv hf
    have hpiv : ∀ a ∈ tr.triC, out1 a = 0 := fun a ha => (f1 a (Or.inl ha)).trans (hout a)
    have hden : ∀ j, out1 (c.s + j) = 0 := fun j => (f1 _ (Or.inr (by omega))).trans (hout _)
    have hnum : tr.triR.length + tr.gapR.length = c.n := by
      have hp : (tr.triR ++ tr.gapR).Perm (List.range c.n) :=
        (List.perm_ext_iff_of_nodup hinv.nodup List.nodup_range).2 (fun r => by rw [hall r, List.mem_range])
      have := hp.length_eq
      simpa using this
    have hmod : tr.gapR.length % 256 ≤ tr.gapR.length := Nat.mod_le _ _
    cases hb : c.binary with
    | true =>
      rw [hb, if_pos rfl] at e
      unfold backfillBin at e
      simp only at e
      split at e
      · cases e
      rename_i hds
      refine ⟨fun _ => by omega, ?_⟩
      have hds' : c.ds ≤ 128 := by omega
      have key : ∀ (gc : List Nat) (out2 : Nat → V), (∀ a < c.s, out2 a = out1 a) → gc.Nodup → (∀ x ∈ gc, x < c.ds) →
          (rnd = none → ∀ j < c.ds, j ∉ gc → out2 (c.s + j) = 0) →
          (∃ fcs, fcAll st.m tr (tr.gapR.length % 256) = some fcs ∧ ∀ i < tr.gapR.length % 256,
            Db c.ds (fun j => out2 (c.s + j)) (gapDense st.m (tr.gapR.getD i 0) (fcs.getD i []))
              = v (tr.gapR.getD i 0) + ((fcs.getD i []).map v).sum) →
          (if tr.triR.length < c.n - tr.gapR.length % 256 then none
            else some (triSolve (fun x r => binSum (grpOps mul b) c.ds (st.m.d r) (fun j => x (c.s + j))
                (spSum (grpOps mul b) x (v r) (st.m.row r)) (if rnd.isSome then List.range c.ds else gc))
              ((tr.triR.zip tr.triC).take (c.n - tr.gapR.length % 256)).reverse out2)) = some out' →
          ∀ r < c.n, ((st.m.row r).map out').sum + Dn mul c st.m out' r = v r := by
        intro gc out2 k1 k2 k3 k4 ⟨fcs, k5, k6⟩ e
        split at e
        · cases e
        rename_i hlen
        have hgeq : tr.gapR.length % 256 = tr.gapR.length := by omega
        rw [hgeq] at e k5 k6
        rw [List.take_of_length_le (by rw [List.length_zip]; omega)] at e
        simp only [Option.some.injEq] at e
        obtain ⟨t1, t2⟩ := tri_solved h2 hr hinv hall (v := v) (out := out2)
          (fun x r => ((if rnd.isSome then List.range c.ds else gc).map fun j => if bitAt c.ds (st.m.d r) j then x (c.s + j) else 0).sum)
          (fun x x' r h => by
            congr 1
            exact List.map_congr_left (fun j _ => by rw [h _ (by omega)]))
          (fun x r => binSum (grpOps mul b) c.ds (st.m.d r) (fun j => x (c.s + j))
                (spSum (grpOps mul b) x (v r) (st.m.row r)) (if rnd.isSome then List.range c.ds else gc))
          (fun x r => by rw [binSum_eq, spSum_eq])
          (fun a ha => (k1 a (hinv.clt a ha)).trans (hpiv a ha))
        rw [e] at t1 t2
        have hdd : ∀ j, out' (c.s + j) = out2 (c.s + j) := fun j =>
          t2 _ (fun ha => by have := hinv.clt _ ha; omega)
        have hDn : ∀ r, Dn mul c st.m out' r = Db c.ds (fun j => out2 (c.s + j)) (st.m.d r) := by
          intro r
          simp only [Dn, hb, if_true, hdd]
        have hsel : ∀ r, ((if rnd.isSome then List.range c.ds else gc).map fun j =>
            if bitAt c.ds (st.m.d r) j then out' (c.s + j) else 0).sum = Dn mul c st.m out' r := by
          intro r
          rw [hDn]
          simp only [hdd, Db]
          cases hrd : rnd with
          | some rn => simp
          | none =>
            simp only [Option.isSome_none, Bool.false_eq_true, if_false]
            rw [sum_split c.ds gc k2 k3, List.sum_eq_zero (l := List.map _ (List.filter _ _)), add_zero]
            intro y hy
            obtain ⟨j, hj, rfl⟩ := List.mem_map.1 hy
            rw [List.mem_filter, List.mem_range] at hj
            rw [k4 hrd j hj.1 (by simpa using hj.2)]
            simp
        refine all_rows h2 hr hinv hall k5 ?_ (fun r hr => by rw [← hsel]; exact t1 r hr) (fun i hi => ?_)
        · rcases hrnd with h | h
          · left
            intro a ha hna
            rw [t2 a hna, k1 a ha, f2 h, hout]
          · right; exact h
        · have := k6 i hi
          rw [gapDense_sum h2] at this
          rw [hDn, List.map_congr_left (fun q _ => hDn q)]
          exact this
      by_cases hg0 : tr.gapR.length % 256 = 0
      · rw [if_neg (by simpa using hg0)] at e
        split at e
        · simp at e
        rename_i x he
        split at he
        · cases he
        rename_i hx
        simp only [Option.some.injEq, Prod.mk.injEq] at he
        obtain ⟨rfl, rfl⟩ := he
        refine key [] (randFill c.s (List.range c.ds) rnd out1) (fun a ha => ?_) (by simp) (by simp) (fun h j hj _ => ?_) ⟨[], ?_, ?_⟩ e
        · unfold randFill
          cases rnd with
          | none => rfl
          | some rn => exact (fill_spec c.s rn.dense _ out1).2 a (fun j _ => by omega)
        · subst h
          exact hden j
        · rw [hg0]; rfl
        · rw [hg0]; simp
      · rw [if_pos hg0] at e
        cases hgb : gapsBin (grpOps mul b) c st.m tr (tr.gapR.length % 256) rnd v out1 with
        | none => rw [hgb] at e; simp at e
        | some p =>
          obtain ⟨gc, out2⟩ := p
          rw [hgb] at e
          simp only at e
          obtain ⟨fcs, s1, s2, s3, s4, s5, s6⟩ := gapsBin_spec h2 hds' (fun j _ => hden j) hgb
          exact key gc out2 s2 s3 s4 s5 ⟨fcs, s1, s6⟩ e
    | false =>
      rw [hb, if_neg (by simp)] at e
      refine ⟨by simp, ?_⟩
      have hgl : tr.gapR.length % 256 = tr.gapR.length := Nat.mod_eq_of_lt (hg.resolve_left (by simp [hb]))
      unfold backfillGf at e
      simp only [hgl] at e
      have key : ∀ (out2 : Nat → V), (∀ a < c.s, out2 a = out1 a) →
          (tr.gapR.length = 0 → rnd = none → ∀ j < c.ds, out2 (c.s + j) = 0) →
          (∃ fcs, fcAll st.m tr tr.gapR.length = some fcs ∧ ∀ i < tr.gapR.length,
            Dg mul c.ds (fun j => out2 (c.s + j)) (st.m.d (tr.gapR.getD i 0))
              + ((fcs.getD i []).map fun q => Dg mul c.ds (fun j => out2 (c.s + j)) (st.m.d q)).sum
              = v (tr.gapR.getD i 0) + ((fcs.getD i []).map v).sum) →
          (if (tr.gapR.length ≠ 0 ∨ rnd.isSome) ∧ c.ds = 0 ∧ tr.triR ≠ [] then none
            else some (triSolve (fun x r =>
                if tr.gapR.length ≠ 0 ∨ rnd.isSome then
                  gfSum (grpOps mul b) c.ds (st.m.d r) (fun j => x (c.s + j)) (spSum (grpOps mul b) x (v r) (st.m.row r))
                else spSum (grpOps mul b) x (v r) (st.m.row r)) (tr.triR.zip tr.triC).reverse out2)) = some out' →
          ∀ r < c.n, ((st.m.row r).map out').sum + Dn mul c st.m out' r = v r := by
        intro out2 k1 k4 ⟨fcs, k5, k6⟩ e
        split at e
        · cases e
        simp only [Option.some.injEq] at e
        obtain ⟨t1, t2⟩ := tri_solved h2 hr hinv hall (v := v) (out := out2)
          (fun x r => if tr.gapR.length ≠ 0 ∨ rnd.isSome then Dg mul c.ds (fun j => x (c.s + j)) (st.m.d r) else 0)
          (fun x x' r h => by
            split
            · unfold Dg
              congr 1
              exact List.map_congr_left (fun j _ => by
                have := h (c.s + j) (by omega)
                simp only [this])
            · rfl)
          (fun x r => if tr.gapR.length ≠ 0 ∨ rnd.isSome then
                  gfSum (grpOps mul b) c.ds (st.m.d r) (fun j => x (c.s + j)) (spSum (grpOps mul b) x (v r) (st.m.row r))
                else spSum (grpOps mul b) x (v r) (st.m.row r))
          (fun x r => by
            split
            · rw [gfSum_eq, spSum_eq]; rfl
            · rw [spSum_eq, add_zero])
          (fun a ha => (k1 a (hinv.clt a ha)).trans (hpiv a ha))
        rw [e] at t1 t2
        have hdd : ∀ j, out' (c.s + j) = out2 (c.s + j) := fun j =>
          t2 _ (fun ha => by have := hinv.clt _ ha; omega)
        have hDn : ∀ r, Dn mul c st.m out' r = Dg mul c.ds (fun j => out2 (c.s + j)) (st.m.d r) := by
          intro r
          simp only [Dn, hb, Bool.false_eq_true, if_false, hdd]
        have hsel : ∀ r, (if tr.gapR.length ≠ 0 ∨ rnd.isSome then Dg mul c.ds (fun j => out' (c.s + j)) (st.m.d r) else 0)
            = Dn mul c st.m out' r := by
          intro r
          rw [hDn]
          simp only [hdd]
          split
          · rfl
          · rename_i hno
            have hno := not_or.1 hno
            have hr0 : rnd = none := by simpa using hno.2
            unfold Dg
            rw [List.sum_eq_zero]
            intro y hy
            obtain ⟨j, hj, rfl⟩ := List.mem_map.1 hy
            simp only [k4 (not_not.1 hno.1) hr0 j (List.mem_range.1 hj), hmul.zero_left]
        refine all_rows h2 hr hinv hall k5 ?_ (fun r hr => by rw [← hsel]; exact t1 r hr) (fun i hi => ?_)
        · rcases hrnd with h | h
          · left
            intro a ha hna
            rw [t2 a hna, k1 a ha, f2 h, hout]
          · right; exact h
        · rw [hDn, List.map_congr_left (fun q _ => hDn q)]
          exact k6 i hi
      by_cases hg0 : tr.gapR.length = 0
      · rw [if_neg (by simpa using hg0)] at e
        simp only at e
        refine key (randFill c.s (List.range c.ds) rnd out1) (fun a ha => ?_) (fun _ h j hj => ?_) ⟨[], ?_, ?_⟩ e
        · unfold randFill
          cases rnd with
          | none => rfl
          | some rn => exact (fill_spec c.s rn.dense _ out1).2 a (fun j _ => by omega)
        · subst h
          exact hden j
        · rw [hg0]; rfl
        · rw [hg0]; simp
      · rw [if_pos hg0] at e
        cases hgb : gapsGf (grpOps mul b) c st.m tr tr.gapR.length rnd v out1 with
        | none => rw [hgb] at e; simp at e
        | some out2 =>
          rw [hgb] at e
          simp only at e
          obtain ⟨fcs, s1, s2, s3⟩ := gapsGf_spec hmul (fun j _ => hden j) hgb
          exact key out2 s2 (fun h => absurd h hg0) ⟨fcs, s1, s3⟩ e

end Kunlun.OKVS
