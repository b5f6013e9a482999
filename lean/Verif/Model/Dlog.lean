import Verif.Model.Group
/-!
Model of `pke/calculate_dlog.hpp`: parallel baby-step giant-step search.

`key` is `ECPoint::ToUint64` (a 64-bit hash of the encoding), an arbitrary function. `pow(2, n)` is exact in double precision
for the exponents used and modelled by `2 ^ n`; the `int` loop counters are assumed not to overflow (fewer than `2^31` steps).
-/

namespace Kunlun.Dlog

open Kunlun

variable {G : Type} [AddCommGroup G] [DecidableEq G]

/-- calculate_dlog.hpp:29 -/
def buildTaskNum : Nat := 64
/-- calculate_dlog.hpp:30 -/
def searchTaskNum : Nat := 64

/-- calculate_dlog.hpp:48-62 `CheckDlogParameters`: `false` is `exit(EXIT_FAILURE)`. -/
def checkParams (rangeLen tradeoff : Nat) : Bool :=
  ¬ (rangeLen / 2 < tradeoff) ∧ ¬ (rangeLen / 2 + tradeoff < 6) ∧ ¬ (rangeLen / 2 - tradeoff < 6)

/-- calculate_dlog.hpp:114, 198, 307 `BABYSTEP_NUM`. -/
def babyNum (rangeLen tradeoff : Nat) : Nat := 2 ^ (rangeLen / 2 + tradeoff)
/-- calculate_dlog.hpp:142, 308 `GIANTSTEP_NUM`. -/
def giantNum (rangeLen tradeoff : Nat) : Nat := 2 ^ (rangeLen / 2 - tradeoff)
/-- calculate_dlog.hpp:148, 310 `SLICED_GIANTSTEP_NUM`. -/
def slicedGiant (rangeLen tradeoff : Nat) : Nat := giantNum rangeLen tradeoff / searchTaskNum

/-- calculate_dlog.hpp:87-96 `BuildSlicedKeyTable`: the keys one task writes, starting at point `p`. -/
def sliceKeys (key : G → BitVec 64) (g : G) : Nat → G → List (BitVec 64)
  | 0, _ => []
  | n + 1, p => key p :: sliceKeys key g n (p + g)

/-- The content of the table file. -/
structure TableFile (G : Type) where
  keys : List (BitVec 64)
  giant : G
  anchors : List G

/-- calculate_dlog.hpp:109-187 `BuildSaveTable`. The tasks write disjoint slices of the buffer, so their concatenation is the
buffer whatever the thread schedule. -/
def buildTable (key : G → BitVec 64) (g : G) (rangeLen tradeoff : Nat) : TableFile G :=
  let sliced := babyNum rangeLen tradeoff / buildTaskNum
  let giant := -((babyNum rangeLen tradeoff : ℤ) • g)
  let gg := (slicedGiant rangeLen tradeoff : ℤ) • giant
  { keys := (List.range buildTaskNum).flatMap fun i => sliceKeys key g sliced (((i * sliced : Nat) : ℤ) • g)
    giant := giant
    anchors := (List.range searchTaskNum).map fun i => ((i : Nat) : ℤ) • gg }

/-- The process-wide variables of lines 35-42. -/
structure Globals (G : Type) where
  giant : G
  anchors : List G
  map : BitVec 64 → Option Nat

/-- The globals when the program starts (`giantstep` default constructed). -/
def Globals.init : Globals G := ⟨0, [], fun _ => none⟩

/-- ec_point.hpp:293-306: reading a point back. The encoding of infinity is rejected by `EC_POINT_oct2point` at full length
and leaves the target unchanged. -/
def readPoint (old written : G) : G := if written = 0 then old else written

/-- calculate_dlog.hpp:246-250: the hash map filled with the keys, later indices overwrite; `i` is the next index. -/
def fillMap (m : BitVec 64 → Option Nat) : Nat → List (BitVec 64) → (BitVec 64 → Option Nat)
  | _, [] => m
  | i, k :: ks => fillMap (fun k' => if k' = k then some i else m k') (i + 1) ks

/-- calculate_dlog.hpp:194-271 `LoadTable` (the map is not cleared first; `vec_searchanchor` is resized with default points). -/
def loadTable (gl : Globals G) (f : TableFile G) : Globals G :=
  { giant := readPoint gl.giant f.giant
    anchors := f.anchors.mapIdx fun i p => readPoint (gl.anchors[i]?.getD 0) p
    map := fillMap gl.map 0 f.keys }

/-- Where one search task (iteration of the loop of line 327) currently is. -/
inductive Task (G : Type) where
  | idle
  | run (k : Nat) (target : G)
  | found (baby k : Nat)
  | wrote
  | done
  deriving DecidableEq

/-- Shared state of the search of lines 305-339. -/
structure Search (G : Type) where
  tasks : List (Task G)
  find : Bool
  x : ℤ

/-- calculate_dlog.hpp:275-300 `SearchSlicedRange` and the body of the loop of line 327: one step of task `i`. `stale` lets a read of the unsynchronised flag `FIND` miss an earlier write. Reading
`vec_searchanchor[i]` is inside the vector after `LoadTable`. -/
def step (gl : Globals G) (key : G → BitVec 64) (h : G) (S B : Nat) (st : Search G) (i : Nat) (stale : Bool) : Search G :=
  let find := st.find && !stale
  match st.tasks[i]? with
  | none => st
  | some .done => st
  | some .idle =>
    -- line 328; line 279
    if find then { st with tasks := st.tasks.set i .done }
    else { st with tasks := st.tasks.set i (.run 0 (h + gl.anchors[i]?.getD 0)) }
  | some (.run k t) =>
    -- lines 282-298
    if ¬ k < S then { st with tasks := st.tasks.set i .done }
    else if find then { st with tasks := st.tasks.set i .done }
    else match gl.map (key t) with
      | none => { st with tasks := st.tasks.set i (.run (k + 1) (t + gl.giant)) }
      | some b => { st with tasks := st.tasks.set i (.found b k) }
  | some (.found b k) =>
    -- line 332
    { st with tasks := st.tasks.set i .wrote, x := (b : ℤ) + ((k + i * S : Nat) : ℤ) * (B : ℤ) }
  | some .wrote =>
    -- line 333
    { st with tasks := st.tasks.set i .done, find := true }

/-- Any interleaving: the list of (task, stale flag) pairs in execution order; any number of threads. -/
def runSchedule (gl : Globals G) (key : G → BitVec 64) (h : G) (S B : Nat) : List (Nat × Bool) → Search G → Search G
  | [], st => st
  | (i, s) :: rest, st => runSchedule gl key h S B rest (step gl key h S B st i s)

/-- calculate_dlog.hpp:305-339 `ShanksDLOG` under a schedule: `none` while some task has not finished. `x0` is the value of the
output variable before the call. (The empty-map check of line 317 cannot fire after `LoadTable` with at least one key.) -/
def shanks (gl : Globals G) (key : G → BitVec 64) (h : G) (rangeLen tradeoff : Nat) (x0 : ℤ)
    (sched : List (Nat × Bool)) : Option (Bool × ℤ) :=
  let st := runSchedule gl key h (slicedGiant rangeLen tradeoff) (babyNum rangeLen tradeoff) sched
    ⟨List.replicate searchTaskNum .idle, false, x0⟩
  if st.tasks.all (· = .done) then some (st.find, st.x) else none

/-! ### Lemmas -/

theorem sliceKeys_eq (key : G → BitVec 64) (g : G) : ∀ (n : Nat) (s : Nat),
    sliceKeys key g n ((s : ℤ) • g) = (List.range n).map fun i => key (((s + i : Nat) : ℤ) • g)
  | 0, _ => rfl
  | n + 1, s => by
    rw [sliceKeys, List.range_succ_eq_map, List.map_cons, List.map_map]
    congr 1
    have : ((s : ℤ) • g + g) = (((s + 1 : Nat) : ℤ)) • g := by push_cast; module
    rw [this, sliceKeys_eq key g n (s + 1)]
    apply List.map_congr_left
    intro i _
    simp only [Function.comp, Nat.succ_eq_add_one]
    congr 3
    omega

theorem range_flatMap (n m : Nat) {α : Type} (f : Nat → α) :
    (List.range n).flatMap (fun i => (List.range m).map fun j => f (i * m + j)) = (List.range (n * m)).map f := by
  induction n with
  | zero => simp
  | succ n ih =>
    rw [List.range_succ, List.flatMap_append, ih, Nat.succ_mul, List.range_add, List.map_append]
    simp [List.map_map, Function.comp_def]

/-- The built key table lists the keys of `0·g, 1·g, …`. -/
theorem buildTable_keys (key : G → BitVec 64) (g : G) (L T : Nat) (h : 6 ≤ L / 2 + T) :
    (buildTable key g L T).keys = (List.range (babyNum L T)).map fun i => key (((i : Nat) : ℤ) • g) := by
  have hd : buildTaskNum * (babyNum L T / buildTaskNum) = babyNum L T := by
    apply Nat.mul_div_cancel'
    exact Nat.pow_dvd_pow 2 (m := 6) h
  simp only [buildTable, sliceKeys_eq]
  rw [range_flatMap buildTaskNum _ (fun i => key (((i : Nat) : ℤ) • g)), hd]

/-- A key in the filled map belongs to some listed entry. -/
theorem fillMap_some (m : BitVec 64 → Option Nat) : ∀ (ks : List (BitVec 64)) (i : Nat) (k : BitVec 64) (b : Nat),
    fillMap m i ks k = some b → (∃ j, ks[j]? = some k ∧ b = i + j) ∨ m k = some b := by
  intro ks
  induction ks generalizing m with
  | nil => intro i k b h; exact Or.inr h
  | cons a ks ih =>
    intro i k b h
    rcases ih _ (i + 1) k b h with ⟨j, hj, hb⟩ | hm
    · exact Or.inl ⟨j + 1, by simpa using hj, by omega⟩
    · split at hm
      · rename_i hk
        exact Or.inl ⟨0, by simp [hk], by simp_all⟩
      · exact Or.inr hm

/-- A listed key is in the map. -/
theorem fillMap_isSome (m : BitVec 64 → Option Nat) : ∀ (ks : List (BitVec 64)) (i : Nat) (k : BitVec 64),
    (k ∈ ks ∨ (m k).isSome) → (fillMap m i ks k).isSome := by
  intro ks
  induction ks generalizing m with
  | nil => intro i k h; simpa [fillMap] using h
  | cons a ks ih =>
    intro i k h
    apply ih
    rcases h with h | h
    · rcases List.mem_cons.1 h with rfl | h
      · right; simp
      · left; exact h
    · right
      split
      · rfl
      · exact h

/-- What `LoadTable` of a freshly built table leaves in the globals. -/
structure Loaded (key : G → BitVec 64) (g : G) (L T : Nat) (gl : Globals G) : Prop where
  giant : gl.giant = -((babyNum L T : ℤ) • g)
  anchor : ∀ i, i < searchTaskNum →
    gl.anchors[i]? = some (-(((i * slicedGiant L T * babyNum L T : Nat) : ℤ) • g))
  map_some : ∀ k b, gl.map k = some b → b < babyNum L T ∧ key ((b : ℤ) • g) = k
  map_has : ∀ i, i < babyNum L T → (gl.map (key ((i : ℤ) • g))).isSome

/-- `vec_searchanchor[0]` is infinity or absent: true at program start and after every load. -/
def AnchorOK (gl : Globals G) : Prop := gl.anchors[0]?.getD 0 = 0

theorem anchorOK_init : AnchorOK (Globals.init : Globals G) := rfl

omit [DecidableEq G] in
theorem buildTable_anchors (key : G → BitVec 64) (g : G) (L T i : Nat) (hi : i < searchTaskNum) :
    (buildTable key g L T).anchors[i]? = some (-(((i * slicedGiant L T * babyNum L T : Nat) : ℤ) • g)) := by
  simp only [buildTable, List.getElem?_map, List.getElem?_range hi, Option.map_some, Option.some.injEq]
  push_cast
  module

/-- exponential_elgamal.hpp:154-170 and twisted_exponential_elgamal.hpp:160-176 `Initialize`: check the parameters, build the
table unless the file exists (which also sets the global auxiliary points, calculate_dlog.hpp:151-161), then load it. An existing
file is assumed to be the one `BuildSaveTable` wrote for the same base and parameters (its name is derived from them).
`none` is the `exit` of the parameter check. -/
def initTable (gl : Globals G) (key : G → BitVec 64) (g : G) (L T : Nat) (fileExists : Bool) : Option (Globals G) :=
  if checkParams L T then
    let f := buildTable key g L T
    let gl' := if fileExists then gl else { gl with giant := f.giant, anchors := f.anchors }
    some (loadTable gl' f)
  else none

theorem readPoint_self (p : G) : readPoint p p = p := by
  unfold readPoint; split <;> simp_all

theorem readPoint_zero (p : G) : readPoint 0 p = p := by
  unfold readPoint; split <;> simp_all

theorem loaded_of_initTable (key : G → BitVec 64) (g : G) (L T : Nat) (ex : Bool) (gl : Globals G)
    (h : initTable Globals.init key g L T ex = some gl) : Loaded key g L T gl := by
  unfold initTable at h
  split at h
  · rename_i hc
    simp only [Option.some.injEq] at h
    have hc' : 6 ≤ L / 2 + T := by
      unfold checkParams at hc
      simp only [decide_eq_true_eq] at hc
      omega
    have hkeys := buildTable_keys key g L T hc'
    subst h
    refine ⟨?_, ?_, ?_, ?_⟩
    · cases ex
      · simp only [loadTable, Bool.false_eq_true, if_false, readPoint_self]; rfl
      · simp only [loadTable, if_true, Globals.init, readPoint_zero]; rfl
    · intro i hi
      rw [← buildTable_anchors key g L T i hi]
      simp only [loadTable, List.getElem?_mapIdx]
      have hb := buildTable_anchors key g L T i hi
      rw [hb]
      simp only [Option.map_some, Option.some.injEq]
      cases ex
      · simp only [Bool.false_eq_true, if_false, hb, Option.getD_some, readPoint_self]
      · simp only [if_true, Globals.init, List.getElem?_nil, Option.getD_none, readPoint_zero]
    · intro k b hkb
      have : fillMap (fun _ => none) 0 (buildTable key g L T).keys k = some b := by
        cases ex <;> exact hkb
      rcases fillMap_some _ _ _ _ _ this with ⟨j, hj, hb⟩ | hm
      · rw [hkeys, List.getElem?_map] at hj
        simp only [Option.map_eq_some_iff] at hj
        obtain ⟨a, ha, hk⟩ := hj
        have hjl : j < babyNum L T := by
          by_contra hn
          rw [List.getElem?_eq_none (by simpa using hn)] at ha
          cases ha
        rw [List.getElem?_range hjl] at ha
        simp only [Option.some.injEq] at ha
        subst ha
        have : b = j := by omega
        subst this
        exact ⟨hjl, hk⟩
      · cases hm
    · intro i hi
      have : (fillMap (fun _ => none) 0 (buildTable key g L T).keys (key ((i : ℤ) • g))).isSome := by
        apply fillMap_isSome
        left
        rw [hkeys, List.mem_map]
        exact ⟨i, List.mem_range.2 hi, rfl⟩
      cases ex <;> exact this
  · cases h

/-- A table hit: giant step `c` (counted over all tasks) meets baby step `b`. -/
def Hit (gl : Globals G) (key : G → BitVec 64) (g h : G) (S B c b : Nat) : Prop :=
  c < searchTaskNum * S ∧ gl.map (key (h - ((c * B : Nat) : ℤ) • g)) = some b

/-- A value the search may write. -/
def Valid (gl : Globals G) (key : G → BitVec 64) (g h : G) (S B : Nat) (x : ℤ) : Prop :=
  ∃ c b, Hit gl key g h S B c b ∧ x = (b : ℤ) + (c : ℤ) * (B : ℤ)

/-- Invariant of task `i` in state `t`. -/
def TaskOK (gl : Globals G) (key : G → BitVec 64) (g h : G) (S B : Nat) (st : Search G) (i : Nat) : Task G → Prop
  | .idle => True
  | .run k t => k ≤ S ∧ t = h - (((i * S + k) * B : Nat) : ℤ) • g ∧
      ∀ k', k' < k → gl.map (key (h - (((i * S + k') * B : Nat) : ℤ) • g)) = none
  | .found b k => k < S ∧ gl.map (key (h - (((i * S + k) * B : Nat) : ℤ) • g)) = some b
  | .wrote => Valid gl key g h S B st.x
  | .done => st.find = true ∨ ∀ k', k' < S → gl.map (key (h - (((i * S + k') * B : Nat) : ℤ) • g)) = none

/-- Invariant of the search. -/
structure SearchOK (gl : Globals G) (key : G → BitVec 64) (g h : G) (S B : Nat) (st : Search G) : Prop where
  len : st.tasks.length = searchTaskNum
  find : st.find = true → Valid gl key g h S B st.x
  task : ∀ i t, st.tasks[i]? = some t → TaskOK gl key g h S B st i t

theorem taskOK_mono {gl : Globals G} {key : G → BitVec 64} {g h : G} {S B : Nat} {st st' : Search G} {i : Nat} {t : Task G}
    (hx : Valid gl key g h S B st.x → Valid gl key g h S B st'.x) (hf : st.find = true → st'.find = true)
    (ht : TaskOK gl key g h S B st i t) : TaskOK gl key g h S B st' i t := by
  cases t with
  | idle => trivial
  | run k t => exact ht
  | found b k => exact ht
  | wrote => exact hx ht
  | done => exact ht.imp hf id

theorem searchOK_set {gl : Globals G} {key : G → BitVec 64} {g h : G} {S B : Nat} {st : Search G} {i : Nat} {t : Task G}
    {x' : ℤ} {f' : Bool}
    (ok : SearchOK gl key g h S B st)
    (hx : Valid gl key g h S B st.x → Valid gl key g h S B x') (hf : st.find = true → f' = true)
    (hv : f' = true → Valid gl key g h S B x')
    (ht : TaskOK gl key g h S B ⟨st.tasks.set i t, f', x'⟩ i t) :
    SearchOK gl key g h S B ⟨st.tasks.set i t, f', x'⟩ := by
  refine ⟨by simp [ok.len], hv, ?_⟩
  intro j t' hj
  simp only [List.getElem?_set] at hj
  split at hj
  · rename_i hij
    split at hj
    · simp only [Option.some.injEq] at hj
      subst hj
      subst hij
      exact ht
    · cases hj
  · exact taskOK_mono (st := st) hx hf (ok.task j t' hj)

theorem step_ok {gl : Globals G} {key : G → BitVec 64} {g h : G} {L T : Nat} (hl : Loaded key g L T gl)
    {st : Search G} (ok : SearchOK gl key g h (slicedGiant L T) (babyNum L T) st) (i : Nat) (s : Bool) :
    SearchOK gl key g h (slicedGiant L T) (babyNum L T) (step gl key h (slicedGiant L T) (babyNum L T) st i s) := by
  unfold step
  simp only
  have hlen : ∀ t, st.tasks[i]? = some t → i < searchTaskNum := by
    intro t ht
    by_contra hn
    rw [List.getElem?_eq_none (by rw [ok.len]; omega)] at ht
    cases ht
  have hfind : (st.find && !s) = true → st.find = true := by
    cases st.find <;> simp
  have hcS : ∀ k, i < searchTaskNum → k < slicedGiant L T →
      i * slicedGiant L T + k < searchTaskNum * slicedGiant L T := by
    intro k hi hk
    calc i * slicedGiant L T + k < (i + 1) * slicedGiant L T := by rw [Nat.succ_mul]; omega
      _ ≤ _ := Nat.mul_le_mul_right _ hi
  cases hc : st.tasks[i]? with
  | none => exact ok
  | some t =>
    have hi := hlen t hc
    have htk := ok.task i t hc
    cases t with
    | done => exact ok
    | idle =>
      simp only
      split
      · rename_i hf
        exact searchOK_set ok id id ok.find (Or.inl (hfind hf))
      · refine searchOK_set ok id id ok.find ⟨Nat.zero_le _, ?_, by intro k' hk'; omega⟩
        rw [hl.anchor i hi]
        simp only [Option.getD_some, Nat.add_zero]
        rw [sub_eq_add_neg]
    | run k t =>
      obtain ⟨hk, ht, hno⟩ := htk
      simp only
      split
      · rename_i hkS
        have : k = slicedGiant L T := by omega
        subst this
        exact searchOK_set ok id id ok.find (Or.inr hno)
      · rename_i hkS
        split
        · rename_i hf
          exact searchOK_set ok id id ok.find (Or.inl (hfind hf))
        · cases hm : gl.map (key t) with
          | none =>
            refine searchOK_set ok id id ok.find ⟨by omega, ?_, ?_⟩
            · rw [ht, hl.giant]
              push_cast
              module
            · intro k' hk'
              rcases Nat.lt_or_eq_of_le (Nat.le_of_lt_succ hk') with h1 | h1
              · exact hno k' h1
              · rw [h1, ← ht]; exact hm
          | some b =>
            refine searchOK_set ok id id ok.find ⟨by omega, ?_⟩
            rw [← ht]; exact hm
    | found b k =>
      obtain ⟨hk, hm⟩ := htk
      have hv : Valid gl key g h (slicedGiant L T) (babyNum L T)
          ((b : ℤ) + ((k + i * slicedGiant L T : Nat) : ℤ) * (babyNum L T : ℤ)) := by
        refine ⟨i * slicedGiant L T + k, b, ⟨hcS k hi hk, hm⟩, ?_⟩
        push_cast
        ring
      exact searchOK_set ok (fun _ => hv) id (fun _ => hv) hv
    | wrote =>
      exact searchOK_set ok id (fun _ => rfl) (fun _ => htk) (Or.inl rfl)

theorem runSchedule_ok {gl : Globals G} {key : G → BitVec 64} {g h : G} {L T : Nat} (hl : Loaded key g L T gl) :
    ∀ (sched : List (Nat × Bool)) (st : Search G), SearchOK gl key g h (slicedGiant L T) (babyNum L T) st →
      SearchOK gl key g h (slicedGiant L T) (babyNum L T)
        (runSchedule gl key h (slicedGiant L T) (babyNum L T) sched st)
  | [], _, ok => ok
  | (i, s) :: rest, _, ok => runSchedule_ok hl rest _ (step_ok hl ok i s)

/-- Outcome of the search in terms of table hits, for any key function and any schedule. -/
theorem shanks_hits {gl : Globals G} {key : G → BitVec 64} {g h : G} {L T : Nat} (hl : Loaded key g L T gl) (x0 : ℤ)
    (sched : List (Nat × Bool)) (f : Bool) (x : ℤ) (hr : shanks gl key h L T x0 sched = some (f, x)) :
    (f = true → Valid gl key g h (slicedGiant L T) (babyNum L T) x) ∧
    (f = false → ∀ c b, ¬ Hit gl key g h (slicedGiant L T) (babyNum L T) c b) := by
  have ok0 : SearchOK gl key g h (slicedGiant L T) (babyNum L T)
      (⟨List.replicate searchTaskNum .idle, false, x0⟩ : Search G) := by
    refine ⟨by simp, by simp, ?_⟩
    intro i t ht
    simp only [List.getElem?_replicate] at ht
    split at ht
    · cases ht; trivial
    · cases ht
  have ok := runSchedule_ok hl sched _ ok0
  unfold shanks at hr
  simp only at hr
  generalize runSchedule gl key h (slicedGiant L T) (babyNum L T) sched _ = st at *
  split at hr
  · rename_i hall
    simp only [Option.some.injEq, Prod.mk.injEq] at hr
    obtain ⟨rfl, rfl⟩ := hr
    refine ⟨ok.find, ?_⟩
    rintro hf c b ⟨hc, hm⟩
    have hS : 0 < slicedGiant L T := by
      rcases Nat.eq_zero_or_pos (slicedGiant L T) with h0 | h0
      · rw [h0] at hc; simp at hc
      · exact h0
    have hi : c / slicedGiant L T < searchTaskNum := by
      rw [Nat.div_lt_iff_lt_mul hS]; exact hc
    have hlt : c / slicedGiant L T < st.tasks.length := by rw [ok.len]; exact hi
    have hd : st.tasks[c / slicedGiant L T]? = some .done := by
      rw [List.getElem?_eq_getElem hlt]
      have := List.all_eq_true.1 hall _ (List.getElem_mem hlt)
      simp only [decide_eq_true_eq] at this
      rw [this]
    rcases ok.task _ _ hd with h1 | h1
    · rw [hf] at h1; cases h1
    · have h2 := h1 (c % slicedGiant L T) (Nat.mod_lt _ hS)
      rw [Nat.mul_comm (c / _), Nat.div_add_mod] at h2
      rw [hm] at h2
      cases h2
  · cases hr

end Kunlun.Dlog
