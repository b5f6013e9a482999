import Verif.Props.Okvs
import Mathlib.Data.Fintype.BigOperators
import Mathlib.Data.Fintype.Pi
/-!
Lemmas for the distribution of the vectors the OKVS makes: which positions are filled with random values, and that the rest follows
from them.
-/

namespace Kunlun.OKVS
open Kunlun Kunlun.FastDiv

theorem walk_all {nd : Nat → Node} (fuel : Nat) {q p : Option Nat} {l : List Nat} (hl : Linked nd q l) (hp : p = l.head?)
    (hf : l.length ≤ fuel) : walk nd fuel p = l := by
  induction fuel generalizing q p l with
  | zero =>
    have : l = [] := List.eq_nil_of_length_eq_zero (by omega)
    subst this
    rfl
  | succ fuel ih =>
    cases l with
    | nil => subst hp; rfl
    | cons a l =>
      simp only [List.head?_cons] at hp
      subst hp
      obtain ⟨-, h2, h3⟩ := hl
      unfold walk
      rw [ih h3 h2 (by simpa using hf)]

theorem foldl_update_val {V : Type} (x : Nat → V) (l : List Nat) (out : Nat → V) (a : Nat) (h : a ∈ l) :
    l.foldl (fun f i => Function.update f i (x i)) out a = x a := by
  induction l generalizing out with
  | nil => cases h
  | cons i l ih =>
    rw [List.foldl_cons]
    by_cases hl : a ∈ l
    · exact ih _ hl
    · have : a = i := by simpa [hl] using h
      subst this
      rw [foldl_update_frame _ _ _ _ hl, Function.update_self]

/-- After the triangulation the list of weight 0 holds every column that is no pivot: all of them get their random value. -/
theorem freeCols_value {V : Type} {c : Cfg} {tr : Tri} {m : Mat} {rn : Rnd V} {out out' : Nat → V} (h : TriInv m c.n c.s tr)
    (hend : tr.ws.head.length ≤ 1) (e : freeCols c tr (some rn) out = some out') : ∀ a < c.s, a ∉ tr.triC → out' a = rn.col a := by
  intro a ha hP
  unfold freeCols at e
  simp only at e
  split at e
  · cases e
  cases hh : tr.ws.head[0]? with
  | none => rw [hh] at e; simp at e
  | some p =>
    rw [hh] at e
    simp only [Option.some.injEq] at e
    subst e
    have h0 := good_end h.good hend a ha hP
    obtain ⟨⟨L, hr, hk, hp⟩, -⟩ := h.good
    have hmem := (hp a ha).2 hP
    rw [h0] at hmem
    have hlen := hr.lt hmem
    rw [hr.head 0 hlen] at hh
    have hle : (L 0).length ≤ c.s := by
      have := (hr.nodup 0).length_le_of_subset (l₂ := List.range c.s) (fun x hx => List.mem_range.2 (hk 0 x hx))
      simpa using this
    rw [walk_all c.s (hr.link 0) (Option.some.inj hh).symm hle]
    exact foldl_update_val rn.col _ _ a hmem

theorem triC_nodup {m : Mat} {n s : Nat} {tr : Tri} (h : TriInv m n s tr) : tr.triC.Nodup := by
  have h1 : tr.triC = (tr.triR.zip tr.triC).map Prod.snd := by rw [List.map_snd_zip (by rw [h.len])]
  rw [h1]
  unfold List.Nodup
  rw [List.pairwise_map]
  refine h.order.imp_of_mem (fun {a b} _ hb hab => ?_)
  rintro e
  exact hab (e ▸ h.mem b hb)

/-- Two vectors with the same row sums that agree outside the pivot columns are equal. -/
theorem tri_unique {V : Type} [AddCommGroup V] (row : Nat → List Nat) (s : Nat) (l : List (Nat × Nat))
    (hord : l.Pairwise fun a b => a.2 ∉ row b.1) (hmem : ∀ p ∈ l, p.2 ∈ row p.1) (hnd : ∀ p ∈ l, (row p.1).Nodup)
    (hlt : ∀ p ∈ l, ∀ a ∈ row p.1, a < s) (x y : Nat → V) (hoff : ∀ a < s, a ∉ l.map Prod.snd → x a = y a)
    (hsum : ∀ p ∈ l, ((row p.1).map x).sum = ((row p.1).map y).sum) : ∀ a < s, x a = y a := by
  induction l using List.reverseRecOn with
  | nil => intro a ha; exact hoff a ha (by simp)
  | append_singleton l p ih =>
    rw [List.pairwise_append] at hord
    obtain ⟨o1, -, o2⟩ := hord
    have hp : p ∈ l ++ [p] := by simp
    have hc : x p.2 = y p.2 := by
      have hs := hsum p hp
      have hperm := List.perm_cons_erase (hmem p hp)
      rw [(hperm.map x).sum_eq, (hperm.map y).sum_eq] at hs
      simp only [List.map_cons, List.sum_cons] at hs
      have : ((row p.1).erase p.2).map x = ((row p.1).erase p.2).map y := by
        refine List.map_congr_left (fun a ha => ?_)
        rw [(hnd p hp).mem_erase_iff] at ha
        refine hoff a (hlt p hp a ha.2) (fun hm => ?_)
        rw [List.map_append, List.mem_append] at hm
        rcases hm with hm | hm
        · obtain ⟨q, hq, e⟩ := List.mem_map.1 hm
          exact o2 q hq p (by simp) (e ▸ ha.2)
        · exact ha.1 (by simpa using hm)
      rw [this] at hs
      exact add_right_cancel hs
    refine ih o1 (fun q hq => hmem q (by simp [hq])) (fun q hq => hnd q (by simp [hq])) (fun q hq => hlt q (by simp [hq]))
      (fun a ha hm => ?_) (fun q hq => hsum q (by simp [hq]))
    by_cases e : a = p.2
    · rw [e]; exact hc
    · exact hoff a ha (by rw [List.map_append, List.mem_append]; simp only [List.map_cons, List.map_nil, List.mem_singleton]; tauto)

/-- Without gap rows the random positions of the result are the random values: free columns and dense part. -/
theorem encodeTri_random {V : Type} {o : ValOps V} {c : Cfg} {st : St} {tr : Tri} (hinv : TriInv st.m c.n c.s tr)
    (hend : tr.ws.head.length ≤ 1) (hg : tr.gapR = []) {rn : Rnd V} {v out out' : Nat → V}
    (e : encodeTri o c st tr (some rn) v out = some out') :
    (∀ a < c.s, a ∉ tr.triC → out' a = rn.col a) ∧ ∀ j < c.ds, out' (c.s + j) = rn.dense j := by
  unfold encodeTri at e
  cases hf : freeCols c tr (some rn) out with
  | none => rw [hf] at e; simp at e
  | some out1 =>
    rw [hf] at e
    simp only at e
    have f1 := freeCols_value hinv hend hf
    have key : ∀ rhs k out2, randFill c.s (List.range c.ds) (some rn) out1 = out2 →
        triSolve rhs ((tr.triR.zip tr.triC).take k).reverse out2 = out' →
        (∀ a < c.s, a ∉ tr.triC → out' a = rn.col a) ∧ ∀ j < c.ds, out' (c.s + j) = rn.dense j := by
      intro rhs k out2 e2 e3
      have fr : ∀ a, a ∉ tr.triC → out' a = out2 a := by
        intro a ha
        rw [← e3]
        refine triSolve_frame _ _ _ _ (fun hm => ha ?_)
        obtain ⟨p, hp, rfl⟩ := List.mem_map.1 hm
        exact (List.of_mem_zip (List.mem_of_mem_take (List.mem_reverse.1 hp))).2
      have hfill := fill_spec c.s rn.dense (List.range c.ds) out1
      have e2' : fill c.s rn.dense (List.range c.ds) out1 = out2 := e2
      rw [e2'] at hfill
      refine ⟨fun a ha hP => ?_, fun j hj => ?_⟩
      · rw [fr a hP, hfill.2 a (fun j _ => by omega), f1 a ha hP]
      · rw [fr _ (fun ha => by have := hinv.clt _ ha; omega), hfill.1 j (List.mem_range.2 hj)]
    cases hb : c.binary with
    | true =>
      rw [hb, if_pos rfl] at e
      unfold backfillBin at e
      simp only [hg, List.length_nil, Nat.zero_mod, ne_eq, not_true_eq_false, if_false] at e
      split at e
      · cases e
      split at e
      · cases e
      rename_i gc out2 h2
      split at h2
      · cases h2
      simp only [Option.some.injEq, Prod.mk.injEq] at h2
      split at e
      · cases e
      exact key _ _ _ h2.2 (Option.some.inj e)
    | false =>
      rw [hb] at e
      simp only [Bool.false_eq_true, if_false] at e
      unfold backfillGf at e
      simp only [hg, List.length_nil, Nat.zero_mod, ne_eq, not_true_eq_false, if_false] at e
      split at e
      · cases e
      have := Option.some.inj e
      rw [← List.take_length (l := tr.triR.zip tr.triC)] at this
      exact key _ _ _ rfl this

/-- Without gap rows success does not depend on the values or the random values. -/
theorem encodeTri_success {V : Type} {o : ValOps V} {c : Cfg} {st : St} {tr : Tri} (hg : tr.gapR = []) {rn rn' : Rnd V}
    {v v' out out' : Nat → V} (e : encodeTri o c st tr (some rn) v out ≠ none) : encodeTri o c st tr (some rn') v' out' ≠ none := by
  intro e'
  apply e
  unfold encodeTri freeCols backfillBin backfillGf at *
  simp only [hg, List.length_nil, Nat.zero_mod, ne_eq, not_true_eq_false, if_false] at e' ⊢
  split at e'
  · rename_i hf
    split at hf
    · rw [if_pos (by assumption)]
    rw [if_neg (by assumption)]
    cases hh : tr.ws.head[0]? with
    | none => rfl
    | some p => rw [hh] at hf; simp at hf
  · rename_i hf
    split at hf
    · cases hf
    rw [if_neg (by assumption)]
    cases hh : tr.ws.head[0]? with
    | none => rfl
    | some p =>
      simp only
      split at e'
      · rw [if_pos (by assumption)]
        split at e'
        · rw [if_pos (by assumption)]
        rw [if_neg (by assumption)]
        split at e'
        · rename_i h2
          split at h2
          · rw [if_pos (by assumption)]
          · cases h2
        · rename_i h2
          split at h2
          · cases h2
          · rw [if_neg (by assumption)]
            simp only
            split at e'
            · rw [if_pos (by assumption)]
            · cases e'
      · rw [if_neg (by assumption)]
        split at e'
        · rename_i h2; simpa using h2
        · cases e'

theorem addAt_frame {V : Type} (o : ValOps V) (s : Nat) (pos : Nat → Nat) (x : Nat → V) (g : Nat) (out : Nat → V) (a : Nat) (ha : a < s) :
    addAt o s pos x g out a = out a := by
  unfold addAt
  generalize List.range g = l
  induction l generalizing out with
  | nil => rfl
  | cons i l ih => rw [List.foldl_cons, ih, Function.update_of_ne (by omega)]

/-- Without a generator `encode` writes into pivot columns and the dense part only. -/
theorem encodeTri_plain {V : Type} {o : ValOps V} {c : Cfg} {st : St} {tr : Tri} {v out out' : Nat → V}
    (e : encodeTri o c st tr none v out = some out') (a : Nat) (ha : a < c.s) (hP : a ∉ tr.triC) : out' a = out a := by
  have key : ∀ rhs k (out2 : Nat → V), out2 a = out a → triSolve rhs ((tr.triR.zip tr.triC).take k).reverse out2 = out' → out' a = out a := by
    intro rhs k out2 e2 e3
    rw [← e3, ← e2]
    refine triSolve_frame _ _ _ _ (fun hm => hP ?_)
    obtain ⟨p, hp, rfl⟩ := List.mem_map.1 hm
    exact (List.of_mem_zip (List.mem_of_mem_take (List.mem_reverse.1 hp))).2
  unfold encodeTri freeCols at e
  simp only at e
  cases hb : c.binary with
  | true =>
    rw [hb, if_pos rfl] at e
    unfold backfillBin at e
    simp only at e
    split at e
    · cases e
    split at e
    · cases e
    rename_i gc out2 h2
    split at e
    · cases e
    refine key _ _ out2 ?_ (Option.some.inj e)
    split at h2
    · unfold gapsBin at h2
      split at h2
      · cases h2
      split at h2
      · cases h2
      split at h2
      · cases h2
      simp only at h2
      split at h2
      · cases h2
      simp only [Option.some.injEq, Prod.mk.injEq] at h2
      rw [← h2.2, addAt_frame _ _ _ _ _ _ _ ha]
      rfl
    · split at h2
      · cases h2
      simp only [Option.some.injEq, Prod.mk.injEq] at h2
      rw [← h2.2]; rfl
  | false =>
    rw [hb] at e
    simp only [Bool.false_eq_true, if_false] at e
    unfold backfillGf at e
    simp only at e
    split at e
    · cases e
    rename_i out2 h2
    split at e
    · cases e
    have e3 := Option.some.inj e
    rw [← List.take_length (l := tr.triR.zip tr.triC)] at e3
    refine key _ _ out2 ?_ e3
    split at h2
    · unfold gapsGf at h2
      split at h2
      · cases h2
      split at h2
      · cases h2
      simp only at h2
      split at h2
      · rw [← Option.some.inj h2, addAt_frame _ _ _ _ _ _ _ ha]
      · cases h2
    · rw [← Option.some.inj h2]; rfl

/-- Without a generator and without gap rows the dense part is not written. -/
theorem encodeTri_plain_dense {V : Type} {o : ValOps V} {c : Cfg} {st : St} {tr : Tri} (hinv : TriInv st.m c.n c.s tr)
    (hg : tr.gapR = []) {v out out' : Nat → V} (e : encodeTri o c st tr none v out = some out') (j : Nat) :
    out' (c.s + j) = out (c.s + j) := by
  have key : ∀ rhs k, triSolve rhs ((tr.triR.zip tr.triC).take k).reverse out = out' → out' (c.s + j) = out (c.s + j) := by
    intro rhs k e3
    rw [← e3]
    refine triSolve_frame _ _ _ _ (fun hm => ?_)
    obtain ⟨p, hp, hp2⟩ := List.mem_map.1 hm
    have := hinv.clt _ (List.of_mem_zip (List.mem_of_mem_take (List.mem_reverse.1 hp))).2
    omega
  unfold encodeTri freeCols at e
  simp only at e
  cases hb : c.binary with
  | true =>
    rw [hb, if_pos rfl] at e
    unfold backfillBin at e
    simp only [hg, List.length_nil, Nat.zero_mod, ne_eq, not_true_eq_false, if_false] at e
    split at e
    · cases e
    split at e
    · cases e
    rename_i gc out2 h2
    split at e
    · cases e
    split at h2
    · cases h2
    simp only [Option.some.injEq, Prod.mk.injEq] at h2
    rw [← h2.2] at e
    exact key _ _ (Option.some.inj e)
  | false =>
    rw [hb] at e
    simp only [Bool.false_eq_true, if_false] at e
    unfold backfillGf at e
    simp only [hg, List.length_nil, Nat.zero_mod, ne_eq, not_true_eq_false, if_false] at e
    split at e
    · cases e
    have e3 := Option.some.inj e
    rw [← List.take_length (l := tr.triR.zip tr.triC)] at e3
    exact key _ _ e3

/-- A column no key hits is no pivot. -/
theorem free_not_pivot {c : Cfg} {dvs : List Divider} {st : St} {tr : Tri} {dense : List Block} (hinv : TriInv st.m c.n c.s tr)
    (hlen : dense.length = c.n) (hrows : dense.mapM (sparse1 c.t c.w c.s dvs) = some st.m.rows)
    (hall : ∀ r, r ∈ tr.triR ++ tr.gapR ↔ r < c.n) {a : Nat}
    (hfree : ∀ d ∈ dense, ∀ row, sparse1 c.t c.w c.s dvs d = some row → a ∉ row) : a ∉ tr.triC := by
  intro ha
  obtain ⟨i, hi, rfl⟩ := List.getElem_of_mem ha
  have hp : (tr.triR[i]'(by rw [hinv.len]; exact hi), tr.triC[i]) ∈ tr.triR.zip tr.triC := by
    rw [List.mem_iff_getElem]
    exact ⟨i, by rw [List.length_zip, hinv.len]; omega, by rw [List.getElem_zip]⟩
  have hr := (hall _).1 (List.mem_append_left _ (List.of_mem_zip hp).1)
  obtain ⟨-, h⟩ := mapM_inv _ _ _ hrows
  obtain ⟨y, h1, h2⟩ := h _ (lt_of_lt_of_eq hr hlen.symm)
  refine hfree _ (List.getElem_mem _) y h1 ?_
  have := hinv.mem _ hp
  unfold Mat.row at this
  rw [List.getD_eq_getElem?_getD, h2] at this
  exact this

section grp
variable {V : Type} [AddCommGroup V]

theorem Dn_congr {mul : V → Block → V} {c : Cfg} {m : Mat} {x y : Nat → V} (h : ∀ j < c.ds, x (c.s + j) = y (c.s + j)) (r : Nat) :
    Dn mul c m x r = Dn mul c m y r := by
  unfold Dn Db Dg
  split
  · congr 1
    refine List.map_congr_left (fun j hj => ?_)
    simp only [h j (List.mem_range.1 hj)]
  · congr 1
    refine List.map_congr_left (fun j hj => ?_)
    simp only [h j (List.mem_range.1 hj)]

/-- Without gap rows: `encode` with the random values `rn` makes the vector `T` just if `T` decodes to the values and has the random
values at its free positions. -/
theorem gives_iff (h2 : ∀ x : V, x + x = 0) {mul : V → Block → V} (hmul : MulOk mul) {b : Nat} {c : Cfg} {dvs : List Divider}
    (hn : new c = some dvs) (hc : c.Ok) {junk : Nat → Node} {dense : List Block} {st : St} {values : List V} (hv : values.length = c.n)
    (e1 : setKeys c dvs junk dense = some st) {tr : Tri} (e2 : triangulate c st = some tr) (hg : tr.gapR = []) {rn0 : Rnd V}
    {v0 : Nat → V} (hok : encodeTri (grpOps mul b) c st tr (some rn0) v0 (fun _ => 0) ≠ none) (rn : Rnd V) (T : Nat → V) :
    (∃ out, encodeTri (grpOps mul b) c st tr (some rn) (fun r => values.getD r 0) (fun _ => 0) = some out ∧
      ∀ a < c.s + c.ds, out a = T a) ↔
    decode (grpOps mul b) c dvs T dense = some values ∧ (∀ a < c.s, a ∉ tr.triC → rn.col a = T a) ∧ ∀ j < c.ds, rn.dense j = T (c.s + j) := by
  obtain ⟨s1, s2, s3⟩ := setKeys_spec hn hc e1
  obtain ⟨t1, t2⟩ := triangulate_spec s1 e2
  obtain ⟨-, hend⟩ := triLoop_spec s1.rows s1.cols c.n (init_inv s1) e2
  have hrows : ∀ {out}, encodeTri (grpOps mul b) c st tr (some rn) (fun r => values.getD r 0) (fun _ => 0) = some out →
      (c.binary = true → c.ds ≤ 128) ∧ ∀ r < c.n, ((st.m.row r).map out).sum + Dn mul c st.m out r = values.getD r 0 := fun e =>
    encodeTri_rows h2 hmul s1 t1 t2 (fun _ => rfl) (Or.inr (by rw [hg]; simp)) (Or.inr (by rw [hg]; simp)) e
  have hlen : dense.length = c.n := by rw [← s2]; exact s1.dlen
  constructor
  · rintro ⟨out, e, hT⟩
    obtain ⟨q1, q2⟩ := hrows e
    obtain ⟨r1, r2⟩ := encodeTri_random t1 hend hg e
    refine ⟨decode_of_rows hn hc hlen hv s2 s3 s1.rows.ne q1 (fun r hr => ?_), fun a ha hP => ?_, fun j hj => ?_⟩
    · rw [← q2 r hr, Dn_congr (fun j hj => (hT _ (by omega)).symm)]
      congr 2
      refine List.map_congr_left (fun a ha => (hT a ?_).symm)
      have := s1.rows.lt r hr a ha
      omega
    · rw [← r1 a ha hP, hT a (by omega)]
    · rw [← r2 j hj, hT _ (by omega)]
  · rintro ⟨hd, hcol, hden⟩
    obtain ⟨out, e⟩ := Option.ne_none_iff_exists'.1 (encodeTri_success hg (rn' := rn) (v' := fun r => values.getD r 0)
      (out' := fun _ => 0) hok)
    obtain ⟨q1, q2⟩ := hrows e
    obtain ⟨r1, r2⟩ := encodeTri_random t1 hend hg e
    have hT : ∀ r < c.n, ((st.m.row r).map T).sum + Dn mul c st.m T r = values.getD r 0 := by
      have hd2 := decode_of_rows (b := b) (mul := mul) (out := T)
        (values := (List.range c.n).map fun r => ((st.m.row r).map T).sum + Dn mul c st.m T r) hn hc hlen (by simp) s2 s3
        s1.rows.ne q1 (fun r hr => by rw [List.getD_eq_getElem?_getD, List.getElem?_map, List.getElem?_range hr]; rfl)
      rw [hd] at hd2
      intro r hr
      rw [Option.some.inj hd2, List.getD_eq_getElem?_getD, List.getElem?_map, List.getElem?_range hr]
      rfl
    have hdd : ∀ j < c.ds, out (c.s + j) = T (c.s + j) := fun j hj => by rw [r2 j hj, hden j hj]
    have hz : ∀ p ∈ tr.triR.zip tr.triC, p.1 < c.n := fun p hp => (t2 _).1 (List.mem_append_left _ (List.of_mem_zip hp).1)
    have hs := tri_unique st.m.row c.s (tr.triR.zip tr.triC) t1.order t1.mem (fun p hp => s1.rows.nodup _ (hz p hp))
      (fun p hp => s1.rows.lt _ (hz p hp)) out T (fun a ha hP => by
        rw [List.map_snd_zip (by rw [t1.len])] at hP
        rw [r1 a ha hP, hcol a ha hP]) (fun p hp => by
        have w1 := q2 _ (hz p hp)
        have w2 := hT _ (hz p hp)
        rw [Dn_congr hdd] at w1
        exact add_right_cancel (w1.trans w2.symm))
    refine ⟨out, e, fun a ha => ?_⟩
    by_cases h : a < c.s
    · exact hs a h
    · have := hdd (a - c.s) (by omega)
      rwa [Nat.add_sub_cancel' (by omega)] at this

/-- Every vector decodes to something at the keys. -/
theorem decode_some {mul : V → Block → V} {b : Nat} {c : Cfg} {dvs : List Divider} (hn : new c = some dvs) (hc : c.Ok)
    {junk : Nat → Node} {dense : List Block} {st : St} (e1 : setKeys c dvs junk dense = some st) (hb : c.binary = true → c.ds ≤ 128)
    (T : Nat → V) : ∃ values, values.length = c.n ∧ decode (grpOps mul b) c dvs T dense = some values := by
  obtain ⟨s1, s2, s3⟩ := setKeys_spec hn hc e1
  exact ⟨(List.range c.n).map fun r => ((st.m.row r).map T).sum + Dn mul c st.m T r, by simp,
    decode_of_rows hn hc (by rw [← s2]; exact s1.dlen) (by simp) s2 s3 s1.rows.ne hb
      (fun r hr => by rw [List.getD_eq_getElem?_getD, List.getElem?_map, List.getElem?_range hr]; rfl)⟩

end grp

/-- The vectors that agree with `T` outside a set of positions. -/
theorem card_agree {N : Nat} {V : Type} [Fintype V] [DecidableEq V] (P : Finset (Fin N)) (T : Fin N → V) :
    (Finset.univ.filter fun ρ : Fin N → V => ∀ i, i ∉ P → ρ i = T i).card = Fintype.card V ^ P.card := by
  have : (Finset.univ.filter fun ρ : Fin N → V => ∀ i, i ∉ P → ρ i = T i)
      = Fintype.piFinset fun i => if i ∈ P then Finset.univ else {T i} := by
    ext ρ
    simp only [Finset.mem_filter, Finset.mem_univ, true_and, Fintype.mem_piFinset]
    refine forall_congr' (fun i => ?_)
    by_cases h : i ∈ P <;> simp [h]
  rw [this, Fintype.card_piFinset]
  have : ∀ i, (if i ∈ P then (Finset.univ : Finset V) else {T i}).card = if i ∈ P then Fintype.card V else 1 := by
    intro i; split <;> simp
  simp only [this]
  rw [Finset.prod_ite, Finset.prod_const, Finset.prod_const_one, mul_one]
  congr 2
  ext i; simp

end Kunlun.OKVS
