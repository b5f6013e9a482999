import Verif.Props.Okvs
/-!
paxos.hpp `set_keys` on an object that has been used before. `col_weights` is never set back: it is written by `set_sparse_1` and
`set_sparse_32`, which add one for every entry of a row unless `is_decoding` is set (lines 879, 913, 985, 1017, 1039), and only `decode`
sets that flag (line 2338). `weight_set` has 200 entries in a new object (line 581) and is cut by `weight_statistic` (line 1127) and by
`triangulate`. The model follows the build without assertions; with assertions the sum of line 1203 stops the program whenever
`col_weights` was not zero.
-/

namespace Kunlun.OKVS
open Kunlun Kunlun.FastDiv

/-- paxos.hpp:1103-1104: the first place of column `x` in the memory of `h_cols`. -/
def colStart (cw : Nat → Nat) (x : Nat) : Nat := ((List.range x).map cw).sum

/-- paxos.hpp:1141-1149, one row: `h_cols[col][col_weights_now[col]++] = row`. The memory of `h_cols` is the end of `storage` and has
`cap` entries (lines 561-566, 578); a write behind it is the outcome `none`. -/
def hcolsRowAt (cw : Nat → Nat) (cap r : Nat) : List Nat → (Nat → List Nat) → Option (Nat → List Nat)
  | [], h => some h
  | c :: cs, h =>
    if (h c).length < cw c ∧ colStart cw c + (h c).length < cap then hcolsRowAt cw cap r cs (Function.update h c (h c ++ [r])) else none

/-- paxos.hpp:1134-1150 `init_hcols`, rows numbered from `r`. -/
def hcolsAllAt (cw : Nat → Nat) (cap : Nat) : Nat → List (List Nat) → (Nat → List Nat) → Option (Nat → List Nat)
  | _, [], h => some h
  | r, row :: rows, h => (hcolsRowAt cw cap r row h).bind (hcolsAllAt cw cap (r + 1) rows)

/-- paxos.hpp:1092-1131 `weight_statistic`, from the `weight_nodes` and `weight_set` there are. An entry of `weight_set` outside the
vector is the outcome `none`. -/
def weightStatisticOn (ws : WS) (cw : Nat → Nat) (k : Nat) : Option WS :=
  match addCols cw ws k with
  | none => none
  | some s => some ⟨s.node, s.head.take (maxWeight cw k + 1)⟩

/-- paxos.hpp:1153-1212 `set_keys` on an object with the counts `cw0` in `col_weights` and the lists `ws`. -/
def setKeysOn (c : Cfg) (dvs : List Divider) (cw0 : Nat → Nat) (ws : WS) (dense : List Block) : Option St :=
  if dense.length ≠ c.n then none
  else
    match sparseAll c.t c.w c.s dvs c.n dense with
    | none => none
    | some rows =>
      if rows.flatten.all (· < c.s) then
        match weightStatisticOn ws (fun x => cw0 x + colWeights rows x) c.s,
          hcolsAllAt (fun x => cw0 x + colWeights rows x) (c.n * c.w) 0 rows fun _ => [] with
        | some ws', some h => some ⟨⟨dense, rows⟩, h, ws'⟩
        | _, _ => none
      else none

/-- The lists of a new object (paxos.hpp:579-581). -/
def WS.fresh (junk : Nat → Node) : WS := ⟨junk, List.replicate 200 none⟩

/-- paxos.hpp:1964-2036 `decode_1` called by itself, as far as it changes the object: `set_sparse_1` counts the columns of the key. -/
def decodeOne (c : Cfg) (dvs : List Divider) (cw0 : Nat → Nat) (d : Block) : Option (Nat → Nat) :=
  (sparse1 c.t c.w c.s dvs d).map fun row x => cw0 x + row.count x

/-- Several calls of `decode_1`. -/
def decodeOnes (c : Cfg) (dvs : List Divider) (cw0 : Nat → Nat) : List Block → Option (Nat → Nat)
  | [] => some cw0
  | d :: ds => (decodeOne c dvs cw0 d).bind fun cw => decodeOnes c dvs cw ds

/-! ### Lemmas -/

theorem colStart_succ (cw : Nat → Nat) (x : Nat) : colStart cw (x + 1) = colStart cw x + cw x := by
  simp [colStart, List.range_succ]

theorem colStart_mono (cw : Nat → Nat) {x y : Nat} (h : x ≤ y) : colStart cw x ≤ colStart cw y := by
  induction y, h using Nat.le_induction with
  | base => exact le_rfl
  | succ y _ ih => rw [colStart_succ]; omega

theorem colStart_add (f g : Nat → Nat) (x : Nat) : colStart (fun z => f z + g z) x = colStart f x + colStart g x := by
  induction x with
  | zero => simp [colStart]
  | succ x ih => rw [colStart_succ, colStart_succ, colStart_succ, ih]; omega

theorem colStart_pos {f : Nat → Nat} {x y : Nat} (h : x < y) (hx : f x ≠ 0) : 0 < colStart f y := by
  have := colStart_mono f (show x + 1 ≤ y from h)
  rw [colStart_succ] at this
  omega

/-- The counts of a list of columns below `k` add up to its length. -/
theorem colStart_count (l : List Nat) (k : Nat) (h : ∀ x ∈ l, x < k) : colStart (fun x => l.count x) k = l.length := by
  induction l with
  | nil => unfold colStart; simp
  | cons a l ih =>
    have h1 : (fun x => (a :: l).count x) = fun x => l.count x + [a].count x := by
      funext x
      rw [← List.count_append, List.count_append]
      simp only [List.count_cons, List.count_nil]
      omega
    have h2 : ∀ k, a < k → colStart (fun x => [a].count x) k = 1 := by
      intro k hk
      induction k, hk using Nat.le_induction with
      | base =>
        rw [colStart_succ]
        have : colStart (fun x => [a].count x) a = 0 := by
          unfold colStart
          refine List.sum_eq_zero fun n hn => ?_
          obtain ⟨x, hx, rfl⟩ := List.mem_map.1 hn
          have := List.mem_range.1 hx
          exact List.count_eq_zero_of_not_mem (by simp; omega)
        rw [this]
        simp
      | succ k hk ih =>
        rw [colStart_succ, ih]
        have : [a].count k = 0 := List.count_eq_zero_of_not_mem (by simp; omega)
        omega
    rw [h1, colStart_add, ih (fun x hx => h x (List.mem_cons_of_mem _ hx)), h2 k (h a (List.mem_cons_self ..)), List.length_cons]

theorem hcolsRowAt_fits {cw : Nat → Nat} {cap r : Nat} (row : List Nat) {h h' : Nat → List Nat} (e : hcolsRowAt cw cap r row h = some h')
    (c : Nat) : (h' c).length = (h c).length + row.count c ∧ (row.count c ≠ 0 → colStart cw c + (h' c).length ≤ cap) := by
  induction row generalizing h with
  | nil => cases e; simp
  | cons a row ih =>
    unfold hcolsRowAt at e
    split at e
    · rename_i hp
      obtain ⟨i1, i2⟩ := ih e
      by_cases hc : c = a
      · subst hc
        simp only [Function.update_self, List.length_append, List.length_singleton] at i1
        refine ⟨by rw [List.count_cons_self]; omega, fun _ => ?_⟩
        by_cases h0 : row.count c = 0
        · omega
        · exact i2 h0
      · rw [Function.update_of_ne hc] at i1
        rw [List.count_cons_of_ne (fun e => hc e.symm)]
        exact ⟨i1, i2⟩
    · cases e

theorem hcolsAllAt_fits {cw : Nat → Nat} {cap : Nat} (rows : List (List Nat)) (k : Nat) {h h' : Nat → List Nat}
    (e : hcolsAllAt cw cap k rows h = some h') (c : Nat) :
    (h' c).length = (h c).length + rows.flatten.count c ∧ (rows.flatten.count c ≠ 0 → colStart cw c + (h' c).length ≤ cap) := by
  induction rows generalizing k h with
  | nil => cases e; simp
  | cons a rows ih =>
    unfold hcolsAllAt at e
    obtain ⟨h1, g1, g2⟩ := Option.bind_eq_some_iff.1 e
    obtain ⟨i1, i2⟩ := ih (k + 1) g2
    obtain ⟨j1, j2⟩ := hcolsRowAt_fits a g1 c
    rw [List.flatten_cons, List.count_append]
    refine ⟨by omega, fun hne => ?_⟩
    by_cases h0 : rows.flatten.count c = 0
    · have := j2 (by omega)
      omega
    · exact i2 h0

/-- The rows fit only if no column below the last one had been counted before. -/
theorem hcolsAllAt_none {cw0 : Nat → Nat} {rows : List (List Nat)} {x y : Nat} (hx : cw0 x ≠ 0) (hy : y ∈ rows.flatten) (h : x < y) (k : Nat) :
    hcolsAllAt (fun z => cw0 z + colWeights rows z) rows.flatten.length k rows (fun _ => []) = none := by
  cases e : hcolsAllAt (fun z => cw0 z + colWeights rows z) rows.flatten.length k rows (fun _ => []) with
  | none => rfl
  | some h' =>
    exfalso
    obtain ⟨m, hm, hmax⟩ : ∃ m ∈ rows.flatten, ∀ z ∈ rows.flatten, z ≤ m := by
      have hne : rows.flatten.toFinset.Nonempty := ⟨y, List.mem_toFinset.2 hy⟩
      refine ⟨rows.flatten.toFinset.max' hne, List.mem_toFinset.1 (Finset.max'_mem _ hne), fun z hz => ?_⟩
      exact Finset.le_max' _ _ (List.mem_toFinset.2 hz)
    have hcnt : rows.flatten.count m ≠ 0 := (List.count_pos_iff.2 hm).ne'
    obtain ⟨i1, i2⟩ := hcolsAllAt_fits rows k e m
    have i2 := i2 hcnt
    have hw : colWeights rows = fun z => rows.flatten.count z := funext fun z => colWeights_eq rows z
    have ht := colStart_count rows.flatten (m + 1) (fun z hz => Nat.lt_succ_of_le (hmax z hz))
    rw [colStart_succ] at ht
    rw [colStart_add, hw] at i2
    have := colStart_pos (lt_of_lt_of_le h (hmax y hy)) hx
    simp only [List.length_nil, Nat.zero_add] at i1
    omega

theorem hcolsRowAt_eq {cw : Nat → Nat} {cap : Nat} (hf : ∀ c, colStart cw c + cw c ≤ cap ∨ cw c = 0) (r : Nat) (row : List Nat)
    (h : Nat → List Nat) : hcolsRowAt cw cap r row h = hcolsRow cw r row h := by
  induction row generalizing h with
  | nil => rfl
  | cons a row ih =>
    unfold hcolsRowAt hcolsRow
    rw [ih]
    refine if_congr ⟨And.left, fun hl => ⟨hl, ?_⟩⟩ rfl rfl
    rcases hf a with h1 | h1 <;> omega

theorem hcolsAllAt_eq {cw : Nat → Nat} {cap : Nat} (hf : ∀ c, colStart cw c + cw c ≤ cap ∨ cw c = 0) (rows : List (List Nat)) (k : Nat)
    (h : Nat → List Nat) : hcolsAllAt cw cap k rows h = hcolsAll cw k rows h := by
  induction rows generalizing k h with
  | nil => rfl
  | cons a rows ih =>
    unfold hcolsAllAt hcolsAll
    rw [hcolsRowAt_eq hf]
    congr 1
    exact funext fun h' => ih (k + 1) h'

theorem addCol_length {s s' : WS} {c w : Nat} (e : addCol s c w = some s') : s'.head.length = s.head.length ∧ w < s.head.length := by
  have hw : w < s.head.length := by
    by_contra hge
    unfold addCol at e
    rw [List.getElem?_eq_none (by omega)] at e
    cases e
  refine ⟨?_, hw⟩
  unfold addCol at e
  split at e
  · cases e
  · cases e; simp
  · cases e; simp

theorem addCols_length {cw : Nat → Nat} {s s' : WS} (k : Nat) (e : addCols cw s k = some s') :
    s'.head.length = s.head.length ∧ ∀ c < k, cw c < s.head.length := by
  induction k generalizing s' with
  | zero => cases e; simp
  | succ k ih =>
    unfold addCols at e
    split at e
    · cases e
    rename_i s1 h1
    obtain ⟨i1, i2⟩ := ih h1
    obtain ⟨j1, j2⟩ := addCol_length e
    refine ⟨by omega, fun c hc => ?_⟩
    rcases Nat.lt_succ_iff_lt_or_eq.1 hc with h | h
    · exact i2 c h
    · subst h; omega

theorem weightStatisticOn_none {ws : WS} {cw : Nat → Nat} {k x : Nat} (hx : x < k) (h : ws.head.length ≤ cw x) :
    weightStatisticOn ws cw k = none := by
  unfold weightStatisticOn
  cases e : addCols cw ws k with
  | none => rfl
  | some s => exact absurd ((addCols_length k e).2 x hx) (by omega)

theorem triLoop_ends {st : St} (fuel : Nat) {tr tr' : Tri} (e : triLoop st fuel tr = some tr') : tr'.ws.head.length ≤ 1 := by
  induction fuel generalizing tr with
  | zero =>
    unfold triLoop at e
    split at e
    · cases e; assumption
    · cases e
  | succ fuel ih =>
    unfold triLoop at e
    split at e
    · cases e; assumption
    · split at e
      · cases e
      · obtain ⟨t, -, h2⟩ := Option.bind_eq_some_iff.1 e
        exact ih h2

theorem decodeOnes_eq (c : Cfg) (dvs : List Divider) (ds : List Block) (cw0 cw : Nat → Nat) (e : decodeOnes c dvs cw0 ds = some cw) :
    ∃ rows, ds.mapM (sparse1 c.t c.w c.s dvs) = some rows ∧ ∀ x, cw x = cw0 x + rows.flatten.count x := by
  induction ds generalizing cw0 with
  | nil => cases e; exact ⟨[], rfl, by simp⟩
  | cons d ds ih =>
    unfold decodeOnes at e
    obtain ⟨cw1, h1, h2⟩ := Option.bind_eq_some_iff.1 e
    obtain ⟨row, g1, rfl⟩ := Option.map_eq_some_iff.1 h1
    obtain ⟨rows, r1, r2⟩ := ih _ h2
    refine ⟨row :: rows, by simp [g1, r1], fun x => ?_⟩
    rw [r2, List.flatten_cons, List.count_append]
    omega

end Kunlun.OKVS
