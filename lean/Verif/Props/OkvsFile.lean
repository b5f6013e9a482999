import Verif.Model.OkvsFile
import Verif.Props.OkvsAgain
/-!
C102: an OKVS object that is written to a file and read back.
-/

namespace Kunlun.OKVS
open Kunlun Kunlun.FastDiv

/-- The rows of an object after `set_keys` have `sparse_weight` entries below `sparse_size`. -/
theorem setKeys_rows {c : Cfg} {dvs : List Divider} {junk : Nat → Node} {dense : List Block} {st : St} (hn : new c = some dvs)
    (hc : c.Ok) (e : setKeys c dvs junk dense = some st) : ∀ row ∈ st.m.rows, row.length = c.w ∧ ∀ x ∈ row, x < c.s := by
  obtain ⟨-, -, hd⟩ := new_spec hn
  obtain ⟨-, -, s3⟩ := setKeys_spec hn hc e
  obtain ⟨i1, i2⟩ := mapM_inv _ _ _ s3
  intro row hrow
  obtain ⟨i, hi, rfl⟩ := List.mem_iff_getElem.1 hrow
  obtain ⟨y, h1, h2⟩ := i2 i (by omega)
  obtain ⟨r, q1, q2, -, q4⟩ := okvs_row_distinct c.t c.w c.s hc.fits dvs hd (dense[i]'(by omega))
  rw [List.getElem?_eq_getElem hi, Option.some.injEq] at h2
  rw [h2]
  rw [h1, Option.some.injEq] at q1
  rw [q1]
  exact ⟨q2, q4⟩

theorem rows_flatMap (m : Mat) (n w : Nat) (enc : Nat → Bytes) (hl : m.rows.length = n) (hw : ∀ row ∈ m.rows, row.length = w) :
    ((List.range n).flatMap fun i => ((m.row i).take w).flatMap enc) = m.rows.flatMap fun row => row.flatMap enc := by
  have : (List.range n).map (fun i => ((m.row i).take w).flatMap enc) = m.rows.map fun row => row.flatMap enc := by
    apply List.ext_getElem
    · simp [hl]
    · intro i h1 h2
      simp only [List.length_map] at h1 h2
      simp only [List.getElem_map, List.getElem_range, Mat.row, List.getD_eq_getElem?_getD, List.getElem?_eq_getElem h2, Option.getD_some]
      rw [List.take_of_length_le (hw _ (List.getElem_mem h2)).le]
  rw [List.flatMap_def, List.flatMap_def, this]

theorem dense_flatMap (m : Mat) (n : Nat) (enc : Block → Bytes) (hl : m.dense.length = n) :
    ((List.range n).flatMap fun i => enc (m.d i)) = m.dense.flatMap enc := by
  have : (List.range n).map (fun i => enc (m.d i)) = m.dense.map enc := by
    apply List.ext_getElem
    · simp [hl]
    · intro i h1 h2
      simp only [List.length_map] at h1 h2
      simp [Mat.d, List.getD_eq_getElem?_getD, h2]
  rw [List.flatMap_def, List.flatMap_def, this]

theorem walk_length (nd : Nat → Node) (fuel : Nat) (p : Option Nat) : (walk nd fuel p).length ≤ fuel := by
  induction fuel generalizing p with
  | zero => simp [walk]
  | succ k ih =>
    cases p with
    | none => simp [walk]
    | some i =>
      have := ih (nd i).next
      simp only [walk, List.length_cons]
      omega

/-- What is read is what was written, if there are no gap rows. -/
theorem read_write {c : Cfg} {dvs : List Divider} (hn : new c = some dvs) (hc : c.Ok) (hw : c.w < 256) {junk junk' : Nat → Node}
    {dense : List Block} {st : St} (e1 : setKeys c dvs junk dense = some st) {tr : Tri} (hinv : TriInv st.m c.n c.s tr)
    (hg : tr.gapR = []) (size : Nat → Nat → Nat → Nat × Nat) (hs : size c.n c.w c.ssp = (c.s, c.gLim)) :
    ∃ f p, (Obj.fresh c st tr).write = some f ∧ tr.ws.head[0]? = some p ∧
      readObject c.t c.binary c.ssp size junk' f = some ⟨c, st.m, ⟨⟨junk', List.replicate 200 none⟩, fun _ => false, tr.triR, tr.triC, [], []⟩,
        [], [], 0, walk tr.ws.node c.s p⟩ := by
  obtain ⟨-, hnb, hd⟩ := new_spec hn
  obtain ⟨s1, -, -⟩ := setKeys_spec hn hc e1
  have hrows := setKeys_rows hn hc e1
  have hsb := hc.fits.hs
  obtain ⟨L, hL, hLt, -⟩ := hinv.good.ex
  have hlen : 0 < tr.ws.head.length := List.length_pos_iff.2 hinv.good.tail.1
  have hp := hL.head 0 hlen
  have hzl : ∀ i ∈ walk tr.ws.node c.s (L 0).head?, i < c.s := fun i hi => hLt 0 i (walk_mem c.s (hL.link 0) rfl i hi)
  have hzn := walk_length tr.ws.node c.s (L 0).head?
  have hgf : tr.gapF = [] := by
    have := hinv.glen
    rw [hg] at this
    exact List.length_eq_zero_iff.1 this.symm
  have htl : tr.triR.length ≤ c.n := by
    have h1 : tr.triR.Nodup := (List.nodup_append.1 hinv.nodup).1
    have h2 := (List.subperm_of_subset h1 (fun x hx => List.mem_range.2 (hinv.lt x (List.mem_append_left _ hx)))).length_le
    simpa using h2
  have hdm : tr.triR.length % 2 ^ c.t.bits = tr.triR.length := Nat.mod_eq_of_lt (by omega)
  cases hW : (Obj.fresh c st tr).write with
  | none =>
    unfold Obj.write at hW
    simp [hp, hg, hgf] at hW
  | some f =>
    refine ⟨f, (L 0).head?, rfl, hp, ?_⟩
    unfold Obj.write at hW
    simp only [hp, hg, hgf, hdm, List.length_nil, Nat.zero_mod, Nat.lt_irrefl, or_self, if_false, Option.some.injEq] at hW
    rw [← hW]
    rw [rows_flatMap st.m c.n c.w _ s1.rows.len (fun r hr => (hrows r hr).1), dense_flatMap st.m c.n _ s1.dlen,
      List.take_of_length_le le_rfl, List.take_of_length_le hinv.len.ge]
    unfold readObject
    rw [get_put _ _ hnb]
    simp only [Option.bind_some]
    rw [getN_put _ _ (by norm_num; exact hw)]
    simp only [Option.bind_some]
    rw [getN_put _ _ (by split <;> norm_num)]
    simp only [Option.bind_some, ne_eq, not_true_eq_false, if_false]
    rw [get_put _ _ (by omega)]
    simp only [Option.bind_some]
    rw [getN_put _ _ (by norm_num)]
    simp only [Option.bind_some, hs, hd, reduceCtorEq, if_false]
    have hr := rep_put (rep c.t.get c.w) (fun row : List Nat => row.flatMap c.t.put) st.m.rows
      (fun row hrow rest => by
        rw [← (hrows row hrow).1]
        exact rep_idx c.t row (fun x hx => by have := (hrows row hrow).2 x hx; omega) rest)
    rw [s1.rows.len] at hr
    rw [hr]
    simp only [Option.bind_some]
    have hr := rep_put getBlock Block.toBytes st.m.dense (fun b _ rest => getBlock_put b rest)
    rw [s1.dlen] at hr
    rw [hr]
    simp only [Option.bind_some]
    rw [rep_idx c.t tr.triR (fun x hx => by have := hinv.lt x (List.mem_append_left _ hx); omega)]
    simp only [Option.bind_some]
    rw [hinv.len, rep_idx c.t tr.triC (fun x hx => by have := hinv.clt x hx; omega)]
    simp only [Option.bind_some, rep, List.take_nil, List.flatMap_nil, List.nil_append]
    rw [get_put _ _ (by omega)]
    simp only [Option.bind_some]
    have hz := rep_idx c.t (walk tr.ws.node c.s (L 0).head?) (fun x hx => by have := hzl x hx; omega) []
    rw [List.append_nil] at hz
    rw [hz]
    rfl

/-- **C102** An object without gap rows that has encoded once is written completely: read into a new object with the same security
parameter, it encodes any further values, with and without random filling, so that they are decoded. -/
theorem okvs_file_partial {V : Type} {o : ValOps V} (ho : o.Ok) {c : Cfg} {dvs : List Divider} (hn : new c = some dvs) (hc : c.Ok)
    (hw : c.w < 256) (hpos : 0 < c.n) {junk junk' : Nat → Node} {key : AES.Key} {keys : List Block} {st : St}
    (e1 : setKeys c dvs junk (setDense key keys) = some st) {rnd : Option (Rnd V)} {v0 out0 out1 : Nat → V} {s1 : Obj} {tr : Tri}
    (e2 : triangulate c st = some tr) (hg : tr.gapR = []) (e3 : (Obj.fresh c st tr).encode o rnd v0 out0 = some (s1, out1))
    (size : Nat → Nat → Nat → Nat × Nat) (hs : size c.n c.w c.ssp = (c.s, c.gLim)) :
    ∃ f s2, s1.write = some f ∧ readObject c.t c.binary c.ssp size junk' f = some s2 ∧
      (∀ rnd v out, (s2.encodeRead o rnd v out).map (·.2) = encodeTri o c st tr rnd v out) ∧
      ∀ (rnd2 : Option (Rnd V)) (values : List V) (p : Obj × (Nat → V)), values.length = c.n →
        s2.encodeRead o rnd2 (fun r => values.getD r o.zero) (fun _ => o.zero) = some p →
        decode o c dvs p.2 (setDense key keys) = some values := by
  obtain ⟨k1, -, -⟩ := setKeys_spec hn hc e1
  obtain ⟨t1, t2⟩ := triangulate_spec k1 e2
  have hst := encode_fresh_state o c st tr (by simp [hg]) rnd v0 out0 s1 out1 e3
  obtain ⟨f, p, h1, h2, h3⟩ := read_write hn hc hw e1 (junk' := junk') t1 hg size hs
  have hne : tr.triR ≠ [] := by
    intro h
    have := (t2 0).2 hpos
    rw [h, hg] at this
    cases this
  have key : ∀ rnd v out, ((⟨c, st.m, ⟨⟨junk', List.replicate 200 none⟩, fun _ => false, tr.triR, tr.triC, [], []⟩,
        [], [], 0, walk tr.ws.node c.s p⟩ : Obj).encodeRead o rnd v out).map (·.2) = encodeTri o c st tr rnd v out := by
    intro rnd v out
    unfold Obj.encodeRead
    simp only [hne, if_false]
    unfold Obj.encode encodeTri
    have hf : ((⟨c, st.m, ⟨⟨junk', List.replicate 200 none⟩, fun _ => false, tr.triR, tr.triC, [], []⟩,
        [], [], 0, walk tr.ws.node c.s p⟩ : Obj)).freeCols rnd out = freeCols c tr rnd out := by
      unfold Obj.freeCols freeCols
      cases rnd with
      | none => rfl
      | some rn =>
        simp only [h2]
        rfl
    rw [hf]
    cases freeCols c tr rnd out with
    | none => rfl
    | some out =>
      simp only
      unfold Obj.backfillBin backfillBin Obj.backfillGf backfillGf
      simp only [hg, List.length_nil, Nat.zero_mod, ne_eq, not_true_eq_false, false_and, if_false, false_or]
      cases c.binary with
      | true =>
        simp only [if_true]
        by_cases hA : 128 < c.ds
        · simp only [if_pos hA, Option.map_none]
        · simp only [if_neg hA]
          by_cases hB : rnd.isSome = true ∧ 1 < o.blocks ∧ 0 < c.ds
          · simp only [if_pos hB, Option.map_none]
          · simp only [if_neg hB]
            by_cases hC : tr.triR.length < c.n - 0
            · simp only [if_pos hC, Option.map_none]
            · simp only [if_neg hC, Option.map_some]
      | false =>
        simp only [Bool.false_eq_true, if_false]
        by_cases hC : rnd.isSome = true ∧ c.ds = 0 ∧ ¬ tr.triR = []
        · simp only [if_pos hC, Option.map_none]
        · simp only [if_neg hC, Option.map_some]
  refine ⟨f, _, by rw [hst, h1], h3, key, fun rnd2 values p hv hp => ?_⟩
  have h4 := key rnd2 (fun r => values.getD r o.zero) (fun _ => o.zero)
  rw [hp] at h4
  refine okvs_randomised_partial ho hn hc e1 hv (rnd := rnd2) (out := p.2) ?_ (.inr fun tr' h' => ?_) (fun tr' h' => ?_)
  · unfold encode
    rw [e2]
    exact h4.symm
  · rw [e2] at h'
    cases h'
    simp [hg]
  · rw [e2] at h'
    cases h'
    simp [hg]

/-- **C102**, violated: the file of a binary object with gap rows cannot be read; `gap_rows_first_row` of the receiving object is not
resized. This is so for every object, however it was used. -/
theorem okvs_file_gap_rows_unreadable (s : Obj) (hn : s.c.n < 2 ^ s.c.t.bits) (hw : s.c.w < 256) (hg : s.tr.gapR.length % 256 ≠ 0)
    (f : Bytes) (e : s.write = some f) (ssp : Nat) (size : Nat → Nat → Nat → Nat × Nat) (junk : Nat → Node) :
    readObject s.c.t s.c.binary ssp size junk f = none := by
  unfold Obj.write at e
  simp only at e
  split at e
  · cases e
  split at e
  · cases e
  rw [Option.some.injEq] at e
  rw [← e]
  unfold readObject
  rw [get_put _ _ hn]
  simp only [Option.bind_some]
  rw [getN_put _ _ (by norm_num; exact hw)]
  simp only [Option.bind_some]
  rw [getN_put _ _ (by split <;> norm_num)]
  simp only [Option.bind_some, ne_eq, not_true_eq_false, if_false]
  rw [get_put _ _ (Nat.mod_lt _ (by positivity))]
  simp only [Option.bind_some]
  rw [getN_put _ _ (by norm_num; exact Nat.mod_lt _ (by norm_num))]
  simp only [Option.bind_some, hg, not_false_eq_true, if_true]
  split
  · rfl
  · simp

/-- **C102**, violated: an object of the `gf_128` form with gap rows cannot even be written; `gap_cols` is never filled in this form. -/
theorem okvs_file_gap_rows_unwritable {V : Type} (o : ValOps V) (c : Cfg) (hb : c.binary = false) (st : St) (tr : Tri)
    (hg : tr.gapR.length % 256 ≠ 0) (rnd : Option (Rnd V)) (v out : Nat → V) (s' : Obj) (out' : Nat → V)
    (e : (Obj.fresh c st tr).encode o rnd v out = some (s', out')) : s'.write = none := by
  have key : s'.gapC = [] ∧ s'.tr = tr := by
    unfold Obj.encode at e
    cases h : (Obj.fresh c st tr).freeCols rnd out with
    | none => rw [h] at e; cases e
    | some out1 =>
      rw [h] at e
      simp only [hb, Bool.false_eq_true, if_false] at e
      unfold Obj.backfillGf at e
      simp only [hg, ne_eq, not_false_eq_true, true_and, if_true] at e
      split at e
      · cases e
      rename_i s2 out2 h2
      split at e
      · cases e
      simp only [Option.some.injEq, Prod.mk.injEq] at e
      rw [← e.1]
      unfold Obj.gapsGf at h2
      simp only at h2
      split at h2
      · cases h2
      split at h2
      · cases h2
      simp only [ne_eq, not_true_eq_false, false_and, if_false] at h2
      generalize (if rnd.isSome = true then c.ds else tr.gapR.length % 256) = len at h2
      split at h2
      · simp only [Option.some.injEq, Prod.mk.injEq] at h2
        rw [← h2.1]
        exact ⟨rfl, rfl⟩
      · cases h2
  unfold Obj.write
  rw [key.1, key.2]
  simp only [List.length_nil]
  rw [if_pos (.inl (by omega))]

/-- **C102**, violated: an object that was written before its first `encode` never encodes after it was read. -/
theorem okvs_file_unencoded {V : Type} (o : ValOps V) {c : Cfg} {dvs : List Divider} (hn : new c = some dvs) (hc : c.Ok)
    (hw : c.w < 256) {junk junk' : Nat → Node} {key : AES.Key} {keys : List Block} {st : St}
    (e1 : setKeys c dvs junk (setDense key keys) = some st) (size : Nat → Nat → Nat → Nat × Nat)
    (hs : size c.n c.w c.ssp = (c.s, c.gLim)) :
    ∃ f s2, (Obj.fresh c st ⟨st.ws, fun _ => false, [], [], [], []⟩).write = some f ∧
      readObject c.t c.binary c.ssp size junk' f = some s2 ∧ s2.c = c ∧ ∀ (rnd : Option (Rnd V)) v out, s2.encodeRead o rnd v out = none := by
  obtain ⟨k1, -, -⟩ := setKeys_spec hn hc e1
  obtain ⟨f, p, h1, -, h3⟩ := read_write hn hc hw e1 (junk' := junk') (init_inv k1) rfl size hs
  exact ⟨f, _, h1, h3, rfl, fun rnd v out => rfl⟩

/-! ### Examples -/

/-- Two keys, no gap row: written, read and used, without and with random filling. -/
def fileRun (c : Cfg) (key : AES.Key) (keys : List Block) (rnd : Option (Rnd Block)) (v1 v2 : List Block) : Option (Option (List Block)) :=
  (new c).bind fun dvs => (setKeys c dvs (fun _ => ⟨0, none, none⟩) (setDense key keys)).bind fun st =>
    (triangulate c st).bind fun tr =>
      ((Obj.fresh c st tr).encode blockOps none (fun r => v1.getD r 0#128) fun _ => 0#128).bind fun p =>
        some ((p.1.write).bind fun f =>
          (readObject c.t c.binary c.ssp (fun _ _ _ => (c.s, c.gLim)) (fun _ => ⟨9, some 1, none⟩) f).bind fun s2 =>
            (s2.encodeRead blockOps rnd (fun r => v2.getD r 0#128) fun _ => 0#128).bind fun q =>
              decode blockOps c dvs q.2 (setDense key keys))

example : fileRun ⟨.u8, false, 3, 2, 5, 1, 1⟩ (AES.genEncKey 0#128) [0#128, 6#128] (some smallRnd) [10#128, 11#128] [20#128, 21#128]
    = some (some [20#128, 21#128]) := by decide +kernel

/-- The keys of `smallDense` have a gap row: the first `encode` succeeds, the file cannot be used. -/
example : fileRun smallCfg (AES.genEncKey 0#128) [0#128, 3#128, 6#128] none [10#128, 11#128, 12#128] [20#128, 21#128, 22#128]
    = some none := by decide +kernel

example : fileRun smallGf (AES.genEncKey 0#128) [0#128, 3#128, 6#128] none [10#128, 11#128, 12#128] [20#128, 21#128, 22#128]
    = some none := by decide +kernel

/-- The binary object is written (`okvs_file_gap_rows_unreadable` applies to it). -/
example : ((new smallCfg).bind fun dvs => (setKeys smallCfg dvs (fun _ => ⟨0, none, none⟩) smallDense).bind fun st =>
    (triangulate smallCfg st).bind fun tr =>
      ((Obj.fresh smallCfg st tr).encode blockOps none (fun _ => 5#128) fun _ => 0#128).bind fun p =>
        p.1.write.map fun f => (f.length, p.1.tr.gapR.length)) = some (75, 1) := by decide +kernel

end Kunlun.OKVS
