import Verif.Model.OkvsRekey
/-!
C104: an OKVS object that is given new keys, or that decoded single keys before.
-/

namespace Kunlun.OKVS
open Kunlun Kunlun.FastDiv

/-- The rows of a list of keys: all computed, each of `sparse_weight` different columns. -/
theorem rows_spec {c : Cfg} {dvs : List Divider} (hn : new c = some dvs) (hc : c.Ok) (dense : List Block) (hl : dense.length = c.n) :
    ∃ rows, sparseAll c.t c.w c.s dvs c.n dense = some rows ∧ dense.mapM (sparse1 c.t c.w c.s dvs) = some rows ∧
      rows.flatten.length = c.n * c.w ∧ (∀ r ∈ rows, r.length = c.w ∧ r.Nodup) ∧ ∀ x ∈ rows.flatten, x < c.s := by
  obtain ⟨hw, -, hd⟩ := new_spec hn
  have key : ∀ l : List Block, ∃ rows, l.mapM (sparse1 c.t c.w c.s dvs) = some rows ∧ rows.flatten.length = l.length * c.w ∧
      (∀ r ∈ rows, r.length = c.w ∧ r.Nodup) ∧ ∀ x ∈ rows.flatten, x < c.s := by
    intro l
    induction l with
    | nil => exact ⟨[], rfl, by simp, by simp, by simp⟩
    | cons d l ih =>
      obtain ⟨rows, h1, h2, h3, h4⟩ := ih
      obtain ⟨r, g1, g2, g3, g4⟩ := okvs_row_distinct c.t c.w c.s hc.fits dvs hd d
      refine ⟨r :: rows, by simp [g1, h1], ?_, ?_, ?_⟩
      · rw [List.flatten_cons, List.length_append, h2, g2, List.length_cons, Nat.succ_mul]; omega
      · intro q hq
        rcases List.mem_cons.1 hq with rfl | hq
        · exact ⟨g2, g3⟩
        · exact h3 q hq
      · intro x hx
        rw [List.flatten_cons, List.mem_append] at hx
        exact hx.elim (g4 x) (h4 x)
  obtain ⟨rows, h1, h2, h3, h4⟩ := key dense
  exact ⟨rows, by rw [← hl, okvs_rows_all c.t c.w c.s hc.fits hc.small dvs hd, h1], h1, by rw [h2, hl], h3, h4⟩

/-- **C104** On a new object whose columns have not been counted, `set_keys` stays inside its memory and gives the rows and lists that C55
starts from. (`decode` leaves the counts alone.) -/
theorem okvs_set_keys_fresh_partial {c : Cfg} {dvs : List Divider} (hn : new c = some dvs) (hc : c.Ok) (junk : Nat → Node) (dense : List Block) :
    setKeysOn c dvs (fun _ => 0) (WS.fresh junk) dense = setKeys c dvs junk dense := by
  unfold setKeysOn setKeys
  by_cases hl : dense.length = c.n
  · obtain ⟨rows, h1, -, h2, -, h3⟩ := rows_spec hn hc dense hl
    rw [if_neg (by simpa using hl), if_neg (by simpa using hl), h1]
    simp only [Nat.zero_add]
    have hw : (fun x => colWeights rows x) = colWeights rows := rfl
    rw [hw, hcolsAllAt_eq]
    · rfl
    · intro x
      by_cases hx : colWeights rows x = 0
      · exact Or.inr hx
      · left
        have hf : colWeights rows = fun z => rows.flatten.count z := funext fun z => colWeights_eq rows z
        have hxs : x < c.s := by
          rw [hf] at hx
          exact h3 x (List.count_pos_iff.1 (Nat.pos_of_ne_zero hx))
        rw [← colStart_succ, ← h2, ← colStart_count rows.flatten c.s h3, hf]
        exact colStart_mono _ hxs
  · rw [if_pos hl, if_pos hl]

/-- **C104, the violation** When a column was counted before that lies below some column of the new keys, `set_keys` writes behind the memory
of `h_cols`. -/
theorem okvs_set_keys_overflow {c : Cfg} {dvs : List Divider} (hn : new c = some dvs) (hc : c.Ok) (cw0 : Nat → Nat) (ws : WS) (dense : List Block)
    {d : Block} (hd : d ∈ dense) {row : List Nat} (hrow : sparse1 c.t c.w c.s dvs d = some row) {x y : Nat} (hx : cw0 x ≠ 0) (hy : y ∈ row)
    (h : x < y) : setKeysOn c dvs cw0 ws dense = none := by
  unfold setKeysOn
  split
  · rfl
  rename_i hl
  obtain ⟨rows, h1, h1', h2, -, h3⟩ := rows_spec hn hc dense (by simpa using hl)
  rw [h1]
  simp only
  have hmem : y ∈ rows.flatten := by
    obtain ⟨i1, i2⟩ := mapM_inv _ _ _ h1'
    obtain ⟨i, hi, rfl⟩ := List.getElem_of_mem hd
    obtain ⟨q, g1, g2⟩ := i2 i hi
    rw [hrow] at g1
    cases g1
    exact List.mem_flatten.2 ⟨row, List.mem_of_getElem? g2, hy⟩
  rw [← h2, hcolsAllAt_none hx hmem h]
  split <;> first | rfl | (split <;> simp_all)

/-- Two different columns of a row, in order. -/
theorem row_two {l : List Nat} (h : 2 ≤ l.length) (hn : l.Nodup) : ∃ x ∈ l, ∃ y ∈ l, x < y := by
  match l, h, hn with
  | a :: b :: l, _, hn =>
    have hne : a ≠ b := fun e => (List.nodup_cons.1 hn).1 (e ▸ List.mem_cons_self ..)
    rcases Nat.lt_or_gt_of_ne hne with h | h
    · exact ⟨a, by simp, b, by simp, h⟩
    · exact ⟨b, by simp, a, by simp, h⟩

/-- **C104, the violation** Keys set, then keys set again that share one with the first ones (for instance the same keys), whatever was done
in between: the second `set_keys` writes behind its memory. -/
theorem okvs_set_keys_twice {c : Cfg} {dvs : List Divider} (hn : new c = some dvs) (hc : c.Ok) {junk : Nat → Node} {dense dense' : List Block} {st : St}
    (e : setKeys c dvs junk dense = some st) {d : Block} (hd : d ∈ dense) (hd' : d ∈ dense') (ws : WS) :
    setKeysOn c dvs (colWeights st.m.rows) ws dense' = none := by
  obtain ⟨hw, -, hdv⟩ := new_spec hn
  obtain ⟨-, -, hrows⟩ := setKeys_spec hn hc e
  obtain ⟨row, g1, g2, g3, -⟩ := okvs_row_distinct c.t c.w c.s hc.fits dvs hdv d
  obtain ⟨x, hx, y, hy, hxy⟩ := row_two (by omega) g3
  refine okvs_set_keys_overflow hn hc _ ws dense' hd' g1 (x := x) ?_ hy hxy
  rw [colWeights_eq]
  refine (List.count_pos_iff.2 ?_).ne'
  obtain ⟨i1, i2⟩ := mapM_inv _ _ _ hrows
  obtain ⟨i, hi, rfl⟩ := List.getElem_of_mem hd
  obtain ⟨q, k1, k2⟩ := i2 i hi
  rw [g1] at k1
  cases k1
  exact List.mem_flatten.2 ⟨row, List.mem_of_getElem? k2, hx⟩

/-- **C104, the violation** Once an object has encoded, `set_keys` with any keys reads outside `weight_set`. -/
theorem okvs_set_keys_after_encode {c : Cfg} {dvs : List Divider} (hn : new c = some dvs) (hc : c.Ok) (h0 : 0 < c.n) {st : St} {tr : Tri}
    (e : triangulate c st = some tr) (cw0 : Nat → Nat) (dense : List Block) : setKeysOn c dvs cw0 tr.ws dense = none := by
  unfold setKeysOn
  split
  · rfl
  rename_i hl
  have hl : dense.length = c.n := by simpa using hl
  obtain ⟨hw, -, hdv⟩ := new_spec hn
  obtain ⟨rows, h1, -, h2, -, h3⟩ := rows_spec hn hc dense hl
  rw [h1]
  simp only
  have hpos : 0 < rows.flatten.length := by rw [h2]; exact Nat.mul_pos h0 (by omega)
  obtain ⟨x, hx⟩ := List.exists_mem_of_length_pos hpos
  have hlen := triLoop_ends c.n e
  rw [weightStatisticOn_none (h3 x hx)]
  · split <;> rfl
  · have := List.count_pos_iff.2 hx
    rw [← colWeights_eq] at this
    omega

/-- **C104, the violation** An object that decodes one of its keys by `decode_1` before `set_keys` loses its memory bounds as well. -/
theorem okvs_decode_1_first {c : Cfg} {dvs : List Divider} (hn : new c = some dvs) (hc : c.Ok) {ds : List Block} {cw : Nat → Nat}
    (e : decodeOnes c dvs (fun _ => 0) ds = some cw) (ws : WS) {dense : List Block} {d : Block} (hd : d ∈ ds) (hd' : d ∈ dense) :
    setKeysOn c dvs cw ws dense = none := by
  obtain ⟨hw, -, hdv⟩ := new_spec hn
  obtain ⟨row, g1, g2, g3, -⟩ := okvs_row_distinct c.t c.w c.s hc.fits dvs hdv d
  obtain ⟨x, hx, y, hy, hxy⟩ := row_two (by omega) g3
  refine okvs_set_keys_overflow hn hc _ ws dense hd' g1 (x := x) ?_ hy hxy
  obtain ⟨rows, hr, hcw⟩ := decodeOnes_eq c dvs ds _ _ e
  rw [hcw, Nat.zero_add]
  refine (List.count_pos_iff.2 ?_).ne'
  obtain ⟨i1, i2⟩ := mapM_inv _ _ _ hr
  obtain ⟨i, hi, rfl⟩ := List.getElem_of_mem hd
  obtain ⟨q, k1, k2⟩ := i2 i hi
  rw [g1] at k1
  cases k1
  exact List.mem_flatten.2 ⟨row, List.mem_of_getElem? k2, hx⟩

/-! ### Examples -/

/-- The object of `smallDense` takes its keys and is triangulated (C55), but not twice. -/
def rekeyRun : Option (Bool × Bool × Bool × Bool) :=
  (new smallCfg).bind fun dvs =>
    let junk : Nat → Node := fun _ => ⟨0, none, none⟩
    (setKeysOn smallCfg dvs (fun _ => 0) (WS.fresh junk) smallDense).bind fun st =>
      (triangulate smallCfg st).bind fun tr => (decodeOnes smallCfg dvs (fun _ => 0) [smallDense.getD 1 0#128]).map fun cw =>
        ((setKeysOn smallCfg dvs (colWeights st.m.rows) st.ws smallDense).isSome, (setKeysOn smallCfg dvs (colWeights st.m.rows) tr.ws smallDense).isSome,
          (setKeysOn smallCfg dvs cw (WS.fresh junk) smallDense).isSome, (setKeysOn smallCfg dvs (fun _ => 0) (WS.fresh junk) smallDense).isSome)

theorem rekeyRun_eq : rekeyRun = some (false, false, false, true) := by decide +kernel

/-- The hypotheses of `okvs_set_keys_overflow` are met by real keys: a column counted by `decode_1` lies below a column of a new key. -/
example : ((new smallCfg).bind fun dvs => (decodeOnes smallCfg dvs (fun _ => 0) [smallDense.getD 1 0#128]).bind fun cw =>
    (sparse1 .u8 3 4 dvs (smallDense.getD 0 0#128)).map fun row => row.any fun y => (List.range y).any fun x => cw x ≠ 0) = some true := by
  decide +kernel

end Kunlun.OKVS
