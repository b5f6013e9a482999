import Verif.Model.OkvsAgain
/-!
C101: an OKVS object that encodes more than once.
-/

namespace Kunlun.OKVS
open Kunlun Kunlun.FastDiv

/-! ### Without gap rows -/

/-- Without gap rows `encode` leaves the object as it is. -/
theorem encode_fresh_state {V : Type} (o : ValOps V) (c : Cfg) (st : St) (tr : Tri) (hg : tr.gapR.length % 256 = 0) (rnd : Option (Rnd V))
    (v out : Nat → V) (s' : Obj) (out' : Nat → V) (e : (Obj.fresh c st tr).encode o rnd v out = some (s', out')) :
    s' = Obj.fresh c st tr := by
  unfold Obj.encode at e
  cases h : (Obj.fresh c st tr).freeCols rnd out with
  | none => rw [h] at e; cases e
  | some out1 =>
    rw [h] at e
    simp only at e
    split at e
    · unfold Obj.backfillBin at e
      simp only [hg, ne_eq, not_true_eq_false, false_and, if_false] at e
      split at e
      · cases e
      split at e
      · cases e
      rename_i s2 out2 h2
      split at h2
      · cases h2
      simp only [Option.some.injEq, Prod.mk.injEq] at h2
      split at e
      · cases e
      simp only [Option.some.injEq, Prod.mk.injEq] at e
      rw [← e.1, ← h2.1]
    · unfold Obj.backfillGf at e
      simp only [hg, ne_eq, not_true_eq_false, false_and, if_false] at e
      split at e
      · cases e
      simp only [Option.some.injEq, Prod.mk.injEq] at e
      exact e.1.symm

/-- **C101** Without gap rows an object can encode any number of value lists for its keys; each vector decodes to its own list. -/
theorem okvs_encode_again_partial {V : Type} {o : ValOps V} (ho : o.Ok) {c : Cfg} {dvs : List Divider} (hn : new c = some dvs) (hc : c.Ok)
    {junk : Nat → Node} {key : AES.Key} {keys : List Block} {st : St} (e1 : setKeys c dvs junk (setDense key keys) = some st) {tr : Tri}
    (e2 : triangulate c st = some tr) (hg : tr.gapR = []) (lists : List (List V)) (hl : ∀ l ∈ lists, l.length = c.n) (outs : List (Nat → V))
    (e3 : (Obj.fresh c st tr).encodes o (lists.map fun l r => l.getD r o.zero) = some outs) :
    List.Forall₂ (fun values out => decode o c dvs out (setDense key keys) = some values) lists outs := by
  induction lists generalizing outs with
  | nil =>
    simp only [List.map_nil, Obj.encodes, Option.some.injEq] at e3
    rw [← e3]
    exact .nil
  | cons l lists ih =>
    rw [List.map_cons, Obj.encodes] at e3
    split at e3
    · cases e3
    rename_i s' out h
    obtain ⟨outs', h', rfl⟩ := Option.map_eq_some_iff.1 e3
    rw [encode_fresh_state o c st tr (by simp [hg]) none _ _ s' out h] at h'
    refine .cons ?_ (ih (fun x hx => hl x (List.mem_cons_of_mem _ hx)) outs' h')
    have h1 : encodeTri o c st tr none (fun r => l.getD r o.zero) (fun _ => o.zero) = some out := by
      rw [← fresh_encode, h]; rfl
    refine okvs_correct ho hn hc e1 (hl l (List.mem_cons_self ..)) (out := out) ?_ (.inr fun tr' h' => ?_)
    · unfold encode
      rw [e2]
      exact h1
    · rw [e2] at h'
      cases h'
      simp [hg]

/-! ### With gap rows, binary form -/

theorem triSolve_congr {V : Type} (f : V → (Nat → V) → Nat → V) (v v' : Nat → V) (l : List (Nat × Nat)) (out : Nat → V)
    (h : ∀ p ∈ l, v p.1 = v' p.1) : triSolve (fun x r => f (v r) x r) l out = triSolve (fun x r => f (v' r) x r) l out := by
  induction l generalizing out with
  | nil => rfl
  | cons p l ih =>
    unfold triSolve
    rw [h p (List.mem_cons_self ..)]
    exact ih _ (fun q hq => h q (List.mem_cons_of_mem _ hq))

/-- After an `encode` of the binary form with gap rows `gap_cols` is not empty, and keys and matrices are as before. -/
theorem encode_bin_state {V : Type} (o : ValOps V) (c : Cfg) (hb : c.binary = true) (st : St) (tr : Tri) (hg : tr.gapR.length % 256 ≠ 0)
    (rnd : Option (Rnd V)) (v out : Nat → V) (s' : Obj) (out' : Nat → V) (e : (Obj.fresh c st tr).encode o rnd v out = some (s', out')) :
    s'.gapC ≠ [] ∧ s'.c = c ∧ s'.m = st.m ∧ s'.tr = tr := by
  unfold Obj.encode at e
  cases h : (Obj.fresh c st tr).freeCols rnd out with
  | none => rw [h] at e; cases e
  | some out1 =>
    rw [h] at e
    simp only [hb, if_true] at e
    unfold Obj.backfillBin at e
    simp only [hg, ne_eq, not_false_eq_true, true_and, if_true] at e
    split at e
    · cases e
    rename_i hds
    split at e
    · cases e
    rename_i s2 out2 h2
    split at e
    · cases e
    simp only [Option.some.injEq, Prod.mk.injEq] at e
    rw [← e.1]
    unfold Obj.gapsBin at h2
    simp only at h2
    split at h2
    · cases h2
    rename_i hlim
    split at h2
    · cases h2
    split at h2
    · cases h2
    split at h2
    · cases h2
    rename_i gc inv hf
    simp only [Option.some.injEq, Prod.mk.injEq] at h2
    rw [← h2.1]
    refine ⟨fun hnil => ?_, rfl, rfl, rfl⟩
    simp only at hnil
    have hle : tr.gapR.length % 256 ≤ c.ds := by
      unfold Cfg.ds
      omega
    have hq := findCols_spec c.ds (by omega) _ _ (List.range (tr.gapR.length % 256)) List.pairwise_lt_range (by simpa using hle)
      (fun x hx => by have := List.mem_range.1 hx; omega) hf
    have := hq.2.1
    rw [hnil] at this
    simp only [List.length_nil, List.length_range] at this
    exact hg this.symm

/-- From then on `encode` does not look at the values of the gap rows. -/
theorem encode_bin_ignores {V : Type} (o : ValOps V) (s : Obj) (hb : s.c.binary = true) (hne : s.gapC ≠ []) (rnd : Option (Rnd V))
    (v v' out : Nat → V) (hv : ∀ r ∈ s.tr.triR, v r = v' r) : s.encode o rnd v out = s.encode o rnd v' out := by
  unfold Obj.encode
  cases s.freeCols rnd out with
  | none => rfl
  | some out1 =>
    simp only [hb, if_true]
    unfold Obj.backfillBin
    simp only [hne, and_false, if_false]
    split
    · rfl
    split
    · rfl
    rename_i s' out2 _
    split
    · rfl
    congr 2
    exact triSolve_congr (fun a x r => binSum o s.c.ds (s.m.d r) (fun j => x (s.c.s + j)) (spSum o x a (s.m.row r))
      (if rnd.isSome then List.range s.c.ds else s'.gapC)) v v' _ _
      (fun p hp => hv _ (List.of_mem_zip (List.mem_of_mem_take (List.mem_reverse.1 hp))).1)

/-- **C101**, violated: once a binary object with a gap row has encoded a list of values, the next `encode` gives the same vector for
two lists that differ in the value of this row, so that at most one of them is decoded. This is so for every object with a gap row, with
and without random filling. -/
theorem okvs_encode_again_wrong {V : Type} (o : ValOps V) {c : Cfg} (hb : c.binary = true) {dvs : List Divider} (hn : new c = some dvs)
    (hc : c.Ok) {junk : Nat → Node} {key : AES.Key} {keys : List Block} {st : St}
    (e1 : setKeys c dvs junk (setDense key keys) = some st) {tr : Tri} (e2 : triangulate c st = some tr) (hg : tr.gapR.length % 256 ≠ 0)
    (rnd rnd2 : Option (Rnd V)) (v0 out0 : Nat → V) (s' : Obj) (out1 : Nat → V)
    (e3 : (Obj.fresh c st tr).encode o rnd v0 out0 = some (s', out1)) (r : Nat) (hr : r ∈ tr.gapR) (values : List V)
    (hv : values.length = c.n) (y : V) (hy : values[r]? ≠ some y) (out : Nat → V) :
    (s'.encode o rnd2 (fun i => (values.set r y).getD i o.zero) out = s'.encode o rnd2 (fun i => values.getD i o.zero) out) ∧
    ¬ ((∃ p, s'.encode o rnd2 (fun i => values.getD i o.zero) out = some p ∧ decode o c dvs p.2 (setDense key keys) = some values) ∧
       ∃ p, s'.encode o rnd2 (fun i => (values.set r y).getD i o.zero) out = some p ∧
        decode o c dvs p.2 (setDense key keys) = some (values.set r y)) := by
  obtain ⟨s1, -, -⟩ := setKeys_spec hn hc e1
  obtain ⟨t1, t2⟩ := triangulate_spec s1 e2
  obtain ⟨q1, q2, -, q4⟩ := encode_bin_state o c hb st tr hg rnd v0 out0 s' out1 e3
  have heq : s'.encode o rnd2 (fun i => (values.set r y).getD i o.zero) out = s'.encode o rnd2 (fun i => values.getD i o.zero) out := by
    refine encode_bin_ignores o s' (by rw [q2, hb]) q1 rnd2 _ _ out (fun i hi => ?_)
    rw [q4] at hi
    have hne : r ≠ i := by
      rintro rfl
      exact (List.nodup_append.1 t1.nodup).2.2 r hi r hr rfl
    simp [List.getD_eq_getElem?_getD, hne]
  refine ⟨heq, ?_⟩
  rintro ⟨⟨p, h1, h2⟩, p', h3, h4⟩
  rw [heq, h1] at h3
  cases h3
  rw [h2, Option.some.injEq] at h4
  have hlt : r < values.length := by
    rw [hv]; exact (t2 r).1 (List.mem_append_right _ hr)
  apply hy
  rw [h4]
  simp [hlt]

/-! ### Examples -/

/-- A run on the keys of `smallDense`: encode several lists with one object and decode the outputs. -/
def againRun (c : Cfg) (lists : List (List Block)) : Option (Nat × List (List Block)) :=
  (new c).bind fun dvs => (setKeys c dvs (fun _ => ⟨0, none, none⟩) smallDense).bind fun st =>
    (triangulate c st).bind fun tr =>
      ((Obj.fresh c st tr).encodes blockOps (lists.map fun l r => l.getD r 0#128)).bind fun outs =>
        (outs.mapM fun out => decode blockOps c dvs out smallDense).map fun ds => (tr.gapR.length, ds)

/-- The hypotheses of `okvs_encode_again_wrong` are met: one gap row, and the second of two equal lists comes back wrong. -/
theorem againRun_bin : againRun smallCfg [[10#128, 11#128, 12#128], [10#128, 11#128, 12#128]]
    = some (1, [[10#128, 11#128, 12#128], [10#128, 6#128, 12#128]]) := by decide +kernel

theorem againRun_gf : againRun smallGf [[10#128, 11#128, 12#128], [10#128, 11#128, 12#128]]
    = some (1, [[10#128, 11#128, 12#128], [10#128, 234918735920033960124848461857606284236#128, 12#128]]) := by decide +kernel

/-- **C101**, violated for the `gf_128` form: the lists `FC_1` are appended to on every call, so that they cancel in the second one. The
first vector decodes to its values, the second one to others. -/
theorem okvs_encode_again_wrong_gf : ∃ (c : Cfg) (dvs : List Divider) (st : St) (tr : Tri) (key : AES.Key) (keys values : List Block)
    (out1 out2 : Nat → Block), c.binary = false ∧ new c = some dvs ∧ c.Ok ∧
      setKeys c dvs (fun _ => ⟨0, none, none⟩) (setDense key keys) = some st ∧ triangulate c st = some tr ∧ keys.Nodup ∧
      values.length = c.n ∧
      (Obj.fresh c st tr).encodes blockOps [fun r => values.getD r 0#128, fun r => values.getD r 0#128] = some [out1, out2] ∧
      decode blockOps c dvs out1 (setDense key keys) = some values ∧
      ∃ got, decode blockOps c dvs out2 (setDense key keys) = some got ∧ got ≠ values := by
  have h := againRun_gf
  unfold againRun at h
  obtain ⟨dvs, h1, h⟩ := Option.bind_eq_some_iff.1 h
  obtain ⟨st, h2, h⟩ := Option.bind_eq_some_iff.1 h
  obtain ⟨tr, h3, h⟩ := Option.bind_eq_some_iff.1 h
  obtain ⟨outs, h4, h⟩ := Option.bind_eq_some_iff.1 h
  obtain ⟨ds, h5, h⟩ := Option.map_eq_some_iff.1 h
  simp only [Prod.mk.injEq] at h
  obtain ⟨i1, i2⟩ := mapM_inv _ _ _ h5
  rw [h.2] at i1 i2
  match outs, i1 with
  | [o1, o2], _ =>
    obtain ⟨y1, d1, g1⟩ := i2 0 (by simp)
    obtain ⟨y2, d2, g2⟩ := i2 1 (by simp)
    cases g1
    cases g2
    exact ⟨smallGf, dvs, st, tr, _, [0#128, 3#128, 6#128], [10#128, 11#128, 12#128], o1, o2, rfl, h1, smallGf_ok, h2, h3, by decide, rfl,
      h4, d1, _, d2, by decide⟩

end Kunlun.OKVS
