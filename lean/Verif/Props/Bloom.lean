import Verif.Model.BloomSalts
/-!
Properties C01, C02, C03, C71: Bloom filter.
-/

namespace Kunlun.Bloom

open Kunlun

/-- A call made by the user of a filter: insertion of a key, with the execution order `sched` of the parallel loop inside it,
or `Clear`. -/
inductive Op where
  | insert (x : Bytes) (sched : List Nat)
  | clear

/-- One call on the object. -/
def step (H : UInt32 → Bytes → UInt32) (f : Filter) : Op → Option Filter
  | .insert x sched => insertSched H f x sched
  | .clear => some (clear f)

/-- A history of calls. -/
def run (H : UInt32 → Bytes → UInt32) (f : Filter) (ops : List Op) : Option Filter := ops.foldlM (step H) f

/-- Specification: effect of one call on the list of keys inserted since the last `Clear`. -/
def liveStep (ks : List Bytes) : Op → List Bytes
  | .insert x _ => ks ++ [x]
  | .clear => []

/-- Specification: the keys inserted since the last `Clear`. -/
def live (ops : List Op) : List Bytes := ops.foldl liveStep []

/-- Every insertion executes each loop iteration exactly once, in some order. -/
def ValidOps (n : Nat) (ops : List Op) : Prop :=
  ∀ op ∈ ops, match op with
    | .insert _ sched => sched.Perm (List.range n)
    | .clear => True

theorem step_spec {H} {f : Filter} (g : Good f) {ks : List Bytes} (r : Repr H f ks) (op : Op)
    (hv : ValidOps f.hashNum [op]) :
    ∃ f', step H f op = some f' ∧ Good f' ∧ f'.hashNum = f.hashNum ∧ f'.vecSalt = f.vecSalt ∧
      f'.tableSize = f.tableSize ∧
      Repr H f' (liveStep ks op) := by
  cases op with
  | insert x sched =>
    obtain ⟨f', h1, h2, h3, h4⟩ := insert_spec g r x sched (hv (.insert x sched) (by simp))
    exact ⟨f', h1, h2, by rw [h3], by rw [h3], by rw [h3], h4⟩
  | clear =>
    obtain ⟨h1, h2⟩ := clear_spec (H := H) g
    exact ⟨clear f, rfl, h1, rfl, rfl, rfl, h2⟩

theorem run_spec {H} (ops : List Op) {f : Filter} (g : Good f) {ks : List Bytes} (r : Repr H f ks)
    (hv : ValidOps f.hashNum ops) :
    ∃ f', run H f ops = some f' ∧ Good f' ∧ f'.hashNum = f.hashNum ∧ f'.vecSalt = f.vecSalt ∧
      f'.tableSize = f.tableSize ∧
      Repr H f' (ops.foldl liveStep ks) := by
  induction ops generalizing f ks with
  | nil => exact ⟨f, rfl, g, rfl, rfl, rfl, r⟩
  | cons op ops ih =>
    obtain ⟨f1, h1, g1, e1, e2, e3, r1⟩ := step_spec g r op (fun o ho => hv o (by simp at ho; simp [ho]))
    obtain ⟨f2, h2, g2, e4, e5, e6, r2⟩ := ih g1 r1 (by rw [e1]; exact fun o ho => hv o (by simp [ho]))
    exact ⟨f2, by simp [run, List.foldlM_cons, h1]; exact h2, g2, by omega, by rw [e5, e2], by omega, r2⟩

/-- **Full behaviour.** After any history on a new filter with a usable table size, under any execution order of the parallel
loops, `Contain x` answers true exactly when every hash position of `x` is a hash position of some live key; the calls never
leave the table. -/
theorem bloom_contain_iff (H : UInt32 → Bytes → UInt32) {rnd : List UInt32} {maxElem n : Nat} {raw : UInt32} {f0 : Filter}
    (hnew : new rnd maxElem n raw = some f0) (hraw : 0 < raw.toNat ∧ raw.toNat ≤ 2 ^ 32 - 8)
    (ops : List Op) (hv : ValidOps n ops) :
    ∃ f, run H f0 ops = some f ∧
      ∀ (x : Bytes) (sched : List (Nat × Bool)), (sched.map (·.1)).Perm (List.range n) →
        ∃ b, containSched H f x sched = some b ∧
          (b = true ↔ ∀ s ∈ f0.vecSalt, ∃ k ∈ live ops, ∃ s' ∈ f0.vecSalt,
            (H s' k).toNat % f0.tableSize = (H s x).toNat % f0.tableSize) := by
  obtain ⟨g0, r0⟩ := new_good (H := H) hnew hraw.1 hraw.2
  have hn : f0.hashNum = n := by
    unfold new at hnew
    simp only [Option.bind_eq_bind, Option.bind_eq_some_iff, Option.pure_def, Option.some.injEq] at hnew
    obtain ⟨v, _, rfl⟩ := hnew
    rfl
  obtain ⟨f, h1, g, e1, e2, e3, r⟩ := run_spec ops g0 r0 (by rw [hn]; exact hv)
  refine ⟨f, h1, ?_⟩
  intro x sched hs
  obtain ⟨b, hb, hiff⟩ := contain_spec g r x sched (by rw [e1, hn]; exact hs)
  exact ⟨b, hb, by rw [hiff, e2, e3]; rfl⟩

/-- **C01.** No false negatives: every live key is reported, for every hash function, every history and every execution order
of the parallel loops in insertion and query. -/
theorem bloom_no_false_negatives (H : UInt32 → Bytes → UInt32) {rnd : List UInt32} {maxElem n : Nat} {raw : UInt32}
    {f0 : Filter} (hnew : new rnd maxElem n raw = some f0) (hraw : 0 < raw.toNat ∧ raw.toNat ≤ 2 ^ 32 - 8)
    (ops : List Op) (hv : ValidOps n ops) :
    ∃ f, run H f0 ops = some f ∧
      ∀ x ∈ live ops, ∀ sched : List (Nat × Bool), (sched.map (·.1)).Perm (List.range n) →
        containSched H f x sched = some true := by
  obtain ⟨f, h1, h2⟩ := bloom_contain_iff H hnew hraw ops hv
  refine ⟨f, h1, fun x hx sched hs => ?_⟩
  obtain ⟨b, hb, hiff⟩ := h2 x sched hs
  rw [hb, hiff.mpr (fun s hs => ⟨x, hx, s, hs, rfl⟩)]

/-- **C01** for the container overload: all atomic updates of all elements interleaved arbitrarily. -/
theorem bloom_parallel_insert_no_false_negatives (H : UInt32 → Bytes → UInt32) {f : Filter} (g : Good f)
    (xs : List Bytes) (sched : List (Bytes × Nat))
    (hs : sched.Perm (xs.flatMap fun x => (List.range f.hashNum).map (x, ·))) :
    ∃ f', insertParallel H f xs.length sched = some f' ∧ ∀ x ∈ xs, contain H f' x = some true := by
  have hlt : ∀ p ∈ sched, p.2 < f.hashNum := by
    intro p hp
    have := hs.mem_iff.mp hp
    simp only [List.mem_flatMap, List.mem_map, List.mem_range] at this
    obtain ⟨x, _, i, hi, rfl⟩ := this
    exact hi
  obtain ⟨f', h1, g', h3, h4⟩ := insertParallel_spec (H := H) g xs.length sched hlt
  refine ⟨f', h1, fun x hx => ?_⟩
  have hn : f'.hashNum = f.hashNum := by rw [h3]
  unfold contain containSched
  rw [containSched_spec g' x _ (by simp) true, Bool.true_and]
  congr 1
  rw [decide_eq_true_eq]
  intro p hp
  simp only [List.mem_map, List.mem_range] at hp
  obtain ⟨i, hi, rfl⟩ := hp
  have hpe : posAt H f' x i = posAt H f x i := by
    unfold posAt
    have e1 : f'.vecSalt = f.vecSalt := by rw [h3]
    have e2 : f'.tableSize = f.tableSize := by rw [h3]
    rw [e1, e2]
  rw [h4, if_pos]
  refine ⟨(x, i), hs.mem_iff.mpr ?_, hpe.symm⟩
  simp only [List.mem_flatMap, List.mem_map, List.mem_range]
  exact ⟨x, hx, i, by omega, rfl⟩

/-- **C02.** Two histories with the same set of live keys answer every query identically, whatever the orders, repetitions and
thread schedules were. -/
theorem bloom_depends_on_key_set (H : UInt32 → Bytes → UInt32) {rnd : List UInt32} {maxElem n : Nat} {raw : UInt32}
    {f0 : Filter} (hnew : new rnd maxElem n raw = some f0) (hraw : 0 < raw.toNat ∧ raw.toNat ≤ 2 ^ 32 - 8)
    (ops ops' : List Op) (hv : ValidOps n ops) (hv' : ValidOps n ops')
    (hset : ∀ k, k ∈ live ops ↔ k ∈ live ops') :
    ∃ f f', run H f0 ops = some f ∧ run H f0 ops' = some f' ∧
      ∀ (x : Bytes) (s s' : List (Nat × Bool)), (s.map (·.1)).Perm (List.range n) →
        (s'.map (·.1)).Perm (List.range n) → containSched H f x s = containSched H f' x s' := by
  obtain ⟨f, h1, h2⟩ := bloom_contain_iff H hnew hraw ops hv
  obtain ⟨f', h1', h2'⟩ := bloom_contain_iff H hnew hraw ops' hv'
  refine ⟨f, f', h1, h1', fun x s s' hs hs' => ?_⟩
  obtain ⟨b, hb, hi⟩ := h2 x s hs
  obtain ⟨b', hb', hi'⟩ := h2' x s' hs'
  rw [hb, hb']
  congr 1
  rw [Bool.eq_iff_iff, hi, hi']
  simp only [hset]

/-- **C02** (monotone part). Further insertions never turn a positive answer into a negative one. -/
theorem bloom_monotone (H : UInt32 → Bytes → UInt32) {rnd : List UInt32} {maxElem n : Nat} {raw : UInt32}
    {f0 : Filter} (hnew : new rnd maxElem n raw = some f0) (hraw : 0 < raw.toNat ∧ raw.toNat ≤ 2 ^ 32 - 8)
    (ops : List Op) (hv : ValidOps n ops) (y : Bytes) (sy : List Nat) (hsy : sy.Perm (List.range n)) :
    ∃ f f', run H f0 ops = some f ∧ run H f0 (ops ++ [.insert y sy]) = some f' ∧
      ∀ (x : Bytes) (s : List (Nat × Bool)), (s.map (·.1)).Perm (List.range n) →
        containSched H f x s = some true → containSched H f' x s = some true := by
  obtain ⟨f, h1, h2⟩ := bloom_contain_iff H hnew hraw ops hv
  obtain ⟨f', h1', h2'⟩ := bloom_contain_iff H hnew hraw (ops ++ [.insert y sy]) (by
    intro o ho
    rw [List.mem_append] at ho
    rcases ho with ho | ho
    · exact hv o ho
    · simp at ho; subst ho; exact hsy)
  refine ⟨f, f', h1, h1', fun x s hs ht => ?_⟩
  obtain ⟨b, hb, hi⟩ := h2 x s hs
  obtain ⟨b', hb', hi'⟩ := h2' x s hs
  rw [hb] at ht
  rw [hb']
  congr 1
  rw [hi']
  intro s hs
  obtain ⟨k, hk, rest⟩ := hi.mp (Option.some.inj ht) s hs
  exact ⟨k, by simp [live, List.foldl_append, liveStep] at hk ⊢; exact Or.inl hk, rest⟩

/-- **C02** (`Clear` part). Any history that ends with `Clear` answers like a new filter. -/
theorem bloom_clear_is_new (H : UInt32 → Bytes → UInt32) {rnd : List UInt32} {maxElem n : Nat} {raw : UInt32}
    {f0 : Filter} (hnew : new rnd maxElem n raw = some f0) (hraw : 0 < raw.toNat ∧ raw.toNat ≤ 2 ^ 32 - 8)
    (ops : List Op) (hv : ValidOps n ops) :
    ∃ f, run H f0 (ops ++ [.clear]) = some f ∧
      ∀ (x : Bytes) (s : List (Nat × Bool)), (s.map (·.1)).Perm (List.range n) →
        containSched H f x s = containSched H f0 x s := by
  obtain ⟨f, f', h1, h2, h3⟩ := bloom_depends_on_key_set H hnew hraw (ops ++ [.clear]) [] (by
    intro o ho
    rw [List.mem_append] at ho
    rcases ho with ho | ho
    · exact hv o ho
    · simp at ho; subst ho; trivial) (by intro o ho; cases ho) (by simp [live, List.foldl_append, liveStep])
  cases h2
  exact ⟨f, h1, fun x s hs => h3 x s s hs hs⟩

/-- **C02** (threads). A parallel container insertion under any interleaving leaves exactly the object that inserting the
elements one after the other leaves. -/
theorem bloom_parallel_eq_sequential (H : UInt32 → Bytes → UInt32) {f : Filter} (g : Good f) (xs : List Bytes)
    (sched : List (Bytes × Nat)) (hc : f.inserted < 2 ^ 64)
    (hs : sched.Perm (xs.flatMap fun x => (List.range f.hashNum).map (x, ·))) :
    insertParallel H f xs.length sched = insertAll H f xs ∧ (insertAll H f xs).isSome := by
  have hlt : ∀ p ∈ sched, p.2 < f.hashNum := by
    intro p hp
    have := hs.mem_iff.mp hp
    simp only [List.mem_flatMap, List.mem_map, List.mem_range] at this
    obtain ⟨x, _, i, hi, rfl⟩ := this
    exact hi
  have seq : ∀ (ys : List Bytes) (f : Filter), Good f → f.inserted < 2 ^ 64 → ∃ f', insertAll H f ys = some f' ∧
      f'.bitTable.length = f.bitTable.length ∧
      f' = { f with bitTable := f'.bitTable, inserted := (f.inserted + ys.length) % 2 ^ 64 } ∧
      ∀ j, tbit f'.bitTable j =
        if ∃ y ∈ ys, ∃ i < f.hashNum, posAt H f y i = j then some true else tbit f.bitTable j := by
    intro ys
    induction ys with
    | nil =>
      intro f g hc
      refine ⟨f, rfl, rfl, ?_, by simp⟩
      simp [Nat.mod_eq_of_lt hc]
    | cons y ys ih =>
      intro f g hc
      obtain ⟨f1, h1, g1, e1, s1⟩ := insertParallel_spec (H := H) g 1 ((List.range f.hashNum).map (y, ·)) (by simp)
      have hc1 : f1.inserted < 2 ^ 64 := by rw [e1]; exact Nat.mod_lt _ (by decide)
      obtain ⟨f2, h2, l2, e2, s2⟩ := ih f1 g1 hc1
      have hn1 : f1.hashNum = f.hashNum := by rw [e1]
      have hp1 : ∀ z i, posAt H f1 z i = posAt H f z i := by
        intro z i
        unfold posAt
        have a : f1.vecSalt = f.vecSalt := by rw [e1]
        have b : f1.tableSize = f.tableSize := by rw [e1]
        rw [a, b]
      refine ⟨f2, ?_, ?_, ?_, ?_⟩
      · unfold insertAll
        rw [List.foldlM_cons]
        have : insert H f y = some f1 := by
          unfold insert; rw [insertSched_eq_parallel]; exact h1
        rw [this]; exact h2
      · rw [l2, g1.tlen, g.tlen]
        have b : f1.tableSize = f.tableSize := by rw [e1]
        rw [b]
      · have hi : f1.inserted = (f.inserted + 1) % 2 ^ 64 := by rw [e1]
        rw [e2, e1]
        simp only [Filter.mk.injEq, true_and, and_true, List.length_cons]
        omega
      · intro j
        rw [s2, s1, hn1]
        simp only [hp1]
        by_cases a : ∃ z ∈ ys, ∃ i < f.hashNum, posAt H f z i = j
        · rw [if_pos a, if_pos]
          obtain ⟨z, hz, rest⟩ := a
          exact ⟨z, by simp [hz], rest⟩
        · rw [if_neg a]
          by_cases b : ∃ i < f.hashNum, posAt H f y i = j
          · rw [if_pos, if_pos]
            · exact ⟨y, by simp, b⟩
            · obtain ⟨i, hi, e⟩ := b
              exact ⟨(y, i), by simp [hi], e⟩
          · rw [if_neg, if_neg]
            · rintro ⟨z, hz, i, hi, e⟩
              rw [List.mem_cons] at hz
              rcases hz with rfl | hz
              · exact b ⟨i, hi, e⟩
              · exact a ⟨z, hz, i, hi, e⟩
            · rintro ⟨p, hp, e⟩
              simp only [List.mem_map, List.mem_range] at hp
              obtain ⟨i, hi, rfl⟩ := hp
              exact b ⟨i, hi, e⟩
  obtain ⟨f1, h1, g1, e1, s1⟩ := insertParallel_spec (H := H) g xs.length sched hlt
  obtain ⟨f2, h2, l2, e2, s2⟩ := seq xs f g hc
  refine ⟨?_, by simp [h2]⟩
  rw [h1, h2]
  congr 1
  have ht : f1.bitTable = f2.bitTable := by
    apply bytes_ext_tbit
    · rw [l2, g1.tlen, g.tlen]
      have b : f1.tableSize = f.tableSize := by rw [e1]
      rw [b]
    · intro j
      rw [s1, s2]
      congr 1
      apply propext
      constructor
      · rintro ⟨p, hp, e⟩
        have := hs.mem_iff.mp hp
        simp only [List.mem_flatMap, List.mem_map, List.mem_range] at this
        obtain ⟨x, hx, i, hi, rfl⟩ := this
        exact ⟨x, hx, i, hi, e⟩
      · rintro ⟨x, hx, i, hi, e⟩
        refine ⟨(x, i), hs.mem_iff.mpr ?_, e⟩
        simp only [List.mem_flatMap, List.mem_map, List.mem_range]
        exact ⟨x, hx, i, hi, rfl⟩
  rw [e1, e2, ht]

/-- The ranges of the C++ member types, and the salts belonging to the stored seed. -/
structure Storable (rnd : List UInt32) (f : Filter) : Prop where
  hn : f.hashNum < 2 ^ 32
  ts : f.tableSize < 2 ^ 32
  pe : f.projected < 2 ^ 64
  ie : f.inserted < 2 ^ 64
  tlen : f.bitTable.length = f.tableSize / 8
  salts : genUniqueSaltVector rnd f.hashNum f.randomSeed = some f.vecSalt

theorem resize_length (t : Bytes) (n : Nat) : (resize t n).length = n := by
  simp [resize]; omega

theorem store_all {t b : Bytes} (h : b.length = t.length) : store t 0 b = some b := by
  simp [store, h]

/-- **C03.** Writing into a buffer of at least `ObjectSize()` bytes succeeds, leaves the bytes after `ObjectSize()` alone, and
reading the buffer back into *any* filter object restores the written object exactly (hence every answer).  `rnd` is the
stream `rand()` yields after `srand(random_seed)`; it is only used for more than 128 hash functions. -/
theorem bloom_object_round_trip {rnd : List UInt32} {f : Filter} (w : Storable rnd f) (buf : Bytes)
    (hbuf : objectSize f ≤ buf.length) :
    ∃ buf', writeObject f buf = some buf' ∧ buf'.length = buf.length ∧
      buf'.drop (objectSize f) = buf.drop (objectSize f) ∧
      ∀ g : Filter, readObject rnd g buf' = some f := by
  unfold objectSize at *
  obtain ⟨b1, h1⟩ := store_isSome (m := buf) (off := 0) (b := leBytes 4 f.randomSeed.toNat) (by simp; omega)
  have l1 := store_length h1
  obtain ⟨b2, h2⟩ := store_isSome (m := b1) (off := 4) (b := leBytes 4 f.hashNum) (by simp; omega)
  have l2 := store_length h2
  obtain ⟨b3, h3⟩ := store_isSome (m := b2) (off := 8) (b := leBytes 4 f.tableSize) (by simp; omega)
  have l3 := store_length h3
  obtain ⟨b4, h4⟩ := store_isSome (m := b3) (off := 12) (b := leBytes 8 f.projected) (by simp; omega)
  have l4 := store_length h4
  obtain ⟨b5, h5⟩ := store_isSome (m := b4) (off := 20) (b := leBytes 8 f.inserted) (by simp; omega)
  have l5 := store_length h5
  have hbody : load f.bitTable 0 (f.tableSize / 8) = some f.bitTable := by
    rw [load_eq_some (by rw [w.tlen]; omega), ← w.tlen]; simp
  obtain ⟨b6, h6⟩ := store_isSome (m := b5) (off := 28) (b := f.bitTable) (by rw [w.tlen]; omega)
  have l6 := store_length h6
  refine ⟨b6, by simp [writeObject, h1, h2, h3, h4, h5, hbody, h6], by omega, ?_, ?_⟩
  · apply List.ext_getElem?
    intro i
    rw [List.getElem?_drop, List.getElem?_drop, store_getElem? h6, store_getElem? h5, store_getElem? h4,
      store_getElem? h3, store_getElem? h2, store_getElem? h1]
    have := w.tlen
    simp only [leBytes_length]
    rw [if_neg (by omega), if_neg (by omega), if_neg (by omega), if_neg (by omega), if_neg (by omega), if_neg (by omega)]
  · intro g
    have r6 : load b6 28 (f.tableSize / 8) = some f.bitTable := by
      have := load_store_same h6; rwa [w.tlen] at this
    have r5 : load b6 20 8 = some (leBytes 8 f.inserted) := by
      rw [load_store_disjoint h6 (by omega)]
      simpa using load_store_same h5
    have r4 : load b6 12 8 = some (leBytes 8 f.projected) := by
      rw [load_store_disjoint h6 (by omega), load_store_disjoint h5 (by omega)]
      simpa using load_store_same h4
    have r3 : load b6 8 4 = some (leBytes 4 f.tableSize) := by
      rw [load_store_disjoint h6 (by omega), load_store_disjoint h5 (by omega), load_store_disjoint h4 (by omega)]
      simpa using load_store_same h3
    have r2 : load b6 4 4 = some (leBytes 4 f.hashNum) := by
      rw [load_store_disjoint h6 (by omega), load_store_disjoint h5 (by omega), load_store_disjoint h4 (by omega),
        load_store_disjoint h3 (by omega)]
      simpa using load_store_same h2
    have r1 : load b6 0 4 = some (leBytes 4 f.randomSeed.toNat) := by
      rw [load_store_disjoint h6 (by omega), load_store_disjoint h5 (by omega), load_store_disjoint h4 (by omega),
        load_store_disjoint h3 (by omega), load_store_disjoint h2 (by omega)]
      simpa using load_store_same h1
    have v1 : ofLE (leBytes 4 f.randomSeed.toNat) = f.randomSeed.toNat := ofLE_leBytes _ _ f.randomSeed.toNat_lt
    have v2 : ofLE (leBytes 4 f.hashNum) = f.hashNum := ofLE_leBytes _ _ w.hn
    have v3 : ofLE (leBytes 4 f.tableSize) = f.tableSize := ofLE_leBytes _ _ w.ts
    have v4 : ofLE (leBytes 8 f.projected) = f.projected := ofLE_leBytes _ _ w.pe
    have v5 : ofLE (leBytes 8 f.inserted) = f.inserted := ofLE_leBytes _ _ w.ie
    have hst : store (resize g.bitTable (f.tableSize / 8)) 0 f.bitTable = some f.bitTable :=
      store_all (by rw [resize_length, w.tlen])
    simp [readObject, r1, r2, r3, r4, r5, r6, v1, v2, v3, v4, v5, w.salts, hst]

/-- **C03** for files: reading the written file into any object restores the object. -/
theorem bloom_file_round_trip {rnd : List UInt32} {f : Filter} (w : Storable rnd f) (g : Filter) :
    readFile rnd g (writeFile f) = some f := by
  obtain ⟨buf', h1, h2, h3, h4⟩ := bloom_object_round_trip w (List.replicate (objectSize f) 0) (by simp)
  have e : buf' = writeFile f := by
    have hbody : load f.bitTable 0 (f.tableSize / 8) = some f.bitTable := by
      rw [load_eq_some (by rw [w.tlen]; omega), ← w.tlen]; simp
    apply List.ext_getElem?
    unfold writeObject at h1
    simp only [Option.bind_eq_bind, Option.bind_eq_some_iff, hbody, Option.some.injEq, exists_eq_left'] at h1
    obtain ⟨b1, s1, b2, s2, b3, s3, b4, s4, b5, s5, s6⟩ := h1
    have ht := w.tlen
    intro i
    rw [store_getElem? s6, store_getElem? s5, store_getElem? s4, store_getElem? s3, store_getElem? s2,
      store_getElem? s1]
    simp only [leBytes_length, writeFile]
    by_cases c6 : 28 ≤ i
    · rw [List.getElem?_append_right (by simp; omega)]
      simp only [List.length_append, leBytes_length]
      by_cases c7 : i < 28 + f.bitTable.length
      · rw [if_pos (by omega)]
      · rw [if_neg (by omega), if_neg (by omega), if_neg (by omega), if_neg (by omega), if_neg (by omega),
          if_neg (by omega), List.getElem?_eq_none (by simp [objectSize]; omega), List.getElem?_eq_none (by omega)]
    · rw [List.getElem?_append_left (by simp; omega), if_neg (by omega)]
      by_cases c5 : 20 ≤ i
      · rw [List.getElem?_append_right (by simp; omega), if_pos (by omega)]; simp
      · rw [List.getElem?_append_left (by simp; omega), if_neg (by omega)]
        by_cases c4 : 12 ≤ i
        · rw [List.getElem?_append_right (by simp; omega), if_pos (by omega)]; simp
        · rw [List.getElem?_append_left (by simp; omega), if_neg (by omega)]
          by_cases c3 : 8 ≤ i
          · rw [List.getElem?_append_right (by simp; omega), if_pos (by omega)]; simp
          · rw [List.getElem?_append_left (by simp; omega), if_neg (by omega)]
            by_cases c2 : 4 ≤ i
            · rw [List.getElem?_append_right (by simp; omega), if_pos (by omega)]; simp
            · rw [List.getElem?_append_left (by simp; omega), if_neg (by omega), if_pos (by omega)]; simp
  rw [← e]
  exact h4 g

/-- Filters made by the constructor (with in-range arguments) and changed by any history are storable. -/
theorem new_storable {rnd : List UInt32} {maxElem n : Nat} {raw : UInt32} {f0 : Filter}
    (hnew : new rnd maxElem n raw = some f0) (hn : n < 2 ^ 32) (hm : maxElem < 2 ^ 64) : Storable rnd f0 := by
  unfold new at hnew
  simp only [Option.bind_eq_bind, Option.bind_eq_some_iff, Option.pure_def, Option.some.injEq] at hnew
  obtain ⟨v, hv, rfl⟩ := hnew
  exact ⟨hn, UInt32.toNat_lt _, hm, by show 0 < 2 ^ 64; decide, by simp, hv⟩

theorem saltLoop_nodup {n : Nat} (rnd v r : List UInt32) (hv : v.Nodup) (h : saltLoop n rnd v = some r) :
    r.Nodup := by
  induction rnd generalizing v with
  | nil =>
    unfold saltLoop at h
    split at h
    · cases h; exact hv
    · cases h
  | cons x xs ih =>
    unfold saltLoop at h
    split at h
    · cases h; exact hv
    · simp only at h
      split at h
      · exact ih v hv h
      · split at h
        · exact ih v hv h
        · rename_i hx
          exact ih (v ++ [x]) (by
            rw [List.nodup_append]
            refine ⟨hv, by simp, ?_⟩
            intro a ha b hb hab
            simp at hb
            subst hb; subst hab
            exact hx ha) h

/-- **C71.** A constructed filter has exactly `hash_num` salts and they are pairwise distinct, for every number of hash
functions and every `rand()` stream. -/
theorem bloom_salts_distinct {rnd : List UInt32} {maxElem n : Nat} {raw : UInt32} {f0 : Filter}
    (hnew : new rnd maxElem n raw = some f0) : f0.vecSalt.length = n ∧ f0.vecSalt.Nodup := by
  unfold new at hnew
  simp only [Option.bind_eq_bind, Option.bind_eq_some_iff, Option.pure_def, Option.some.injEq] at hnew
  obtain ⟨v, hv, rfl⟩ := hnew
  refine ⟨genSalts_length hv, ?_⟩
  unfold genUniqueSaltVector at hv
  split at hv
  · rename_i h
    obtain ⟨w, hw, hn⟩ := salts_table n h
    rw [hv] at hw
    cases hw
    exact hn
  · exact saltLoop_nodup rnd _ _ predefinedSalt_nodup hv

/-- The constructor never fails for at most 128 hash functions (the number is the statistical security parameter). -/
theorem new_isSome (rnd : List UInt32) (maxElem n : Nat) (raw : UInt32) (hn : n ≤ 128) :
    (new rnd maxElem n raw).isSome := by
  obtain ⟨v, hv, _⟩ := salts_table n hn
  unfold new genUniqueSaltVector
  rw [if_pos hn, hv]
  rfl

/-- The distinctness does depend on the seed: with `random_seed = 0` (possible after `ReadObject` of foreign bytes) five hash
functions contain a repeated one. -/
theorem bloom_salts_repeat_for_seed_zero :
    ∃ v, genUniqueSaltVector [] 5 0 = some v ∧ ¬ v.Nodup := by
  refine ⟨_, rfl, ?_⟩
  decide

/-- A requested table size of zero, or one that wraps around 32 bits, makes the first query divide by zero. -/
theorem bloom_zero_table_is_undefined (H : UInt32 → Bytes → UInt32) (x : Bytes) :
    ((new [] 0 40 0).bind (fun f => insert H f x) = none) ∧
      ((new [] 0 40 0xFFFFFFFF).bind (fun f => insert H f x) = none) := by
  have key : ∀ raw : UInt32, roundTableSize raw = 0 → (new [] 0 40 raw).bind (fun f => insert H f x) = none := by
    intro raw hr
    cases hf : new [] 0 40 raw with
    | none => rfl
    | some f =>
      have hlen := (bloom_salts_distinct hf).1
      unfold new at hf
      simp only [Option.bind_eq_bind, Option.bind_eq_some_iff, Option.pure_def, Option.some.injEq] at hf
      obtain ⟨v, hv, rfl⟩ := hf
      simp only [Option.bind_some, insert, insertSched, bitIndices, hr]
      rw [show (List.range 40) = 0 :: (List.range 40).tail from rfl, List.mapM_cons]
      have : bitIndex H ⟨constructorSeed, 40, v, 0, List.replicate (0 / 8) 0, 0, 0⟩ x 0 = none := by
        unfold bitIndex
        cases v[0]? <;> simp
      rw [this]
      rfl
  exact ⟨key 0 (by decide), key 0xFFFFFFFF (by decide)⟩

/-! Non-vacuity. -/

example : ∃ f0, new [] 10 40 576 = some f0 ∧ 0 < (576 : UInt32).toNat ∧ (576 : UInt32).toNat ≤ 2 ^ 32 - 8 ∧ Good f0 ∧
    Storable [] f0 := by
  obtain ⟨f0, h⟩ := Option.isSome_iff_exists.mp (new_isSome [] 10 40 576 (by decide))
  exact ⟨f0, h, by decide, by decide, (new_good (H := fun _ _ => 0) h (by decide) (by decide)).1,
    new_storable h (by decide) (by decide)⟩

example : ValidOps 3 [.insert [1] [0, 1, 2], .clear, .insert [7, 8] [2, 0, 1]] := by
  intro o ho
  simp at ho
  rcases ho with rfl | rfl | rfl <;> decide

end Kunlun.Bloom
