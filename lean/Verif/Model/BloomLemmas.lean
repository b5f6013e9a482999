import Verif.Model.Bloom
/-! Helper lemmas for the Bloom filter model. -/

namespace Kunlun.Bloom

open Kunlun

theorem mask_testBit_aux : ∀ a, a < 256 → ∀ k, k < 8 →
    ((UInt8.ofNat a &&& bitMask k) == bitMask k) = a.testBit k := by decide +kernel

theorem mask_or_aux : ∀ j, j < 8 → ∀ k, k < 8 → (bitMask j).toNat.testBit k = decide (j = k) := by
  decide +kernel

theorem mask_testBit (b : UInt8) (k : Nat) (hk : k < 8) :
    ((b &&& bitMask k) == bitMask k) = b.toNat.testBit k := by
  have := mask_testBit_aux b.toNat b.toNat_lt k hk
  simpa using this

/-- bit `idx` of a byte table -/
def tbit (t : Bytes) (idx : Nat) : Option Bool := (t[idx / 8]?).map (fun b => b.toNat.testBit (idx % 8))

theorem bitSet_eq (t : Bytes) (idx : Nat) : bitSet t idx = tbit t idx := by
  unfold bitSet tbit
  cases h : t[idx / 8]? with
  | none => rfl
  | some b => simp [mask_testBit b (idx % 8) (Nat.mod_lt _ (by decide))]

theorem orBit_spec (t : Bytes) (idx : Nat) (h : idx / 8 < t.length) :
    ∃ t', orBit t idx = some t' ∧ t'.length = t.length ∧
      ∀ j, tbit t' j = if j = idx then some true else tbit t j := by
  obtain ⟨b, hb⟩ : ∃ b, t[idx / 8]? = some b := ⟨_, List.getElem?_eq_getElem h⟩
  refine ⟨t.set (idx / 8) (b ||| bitMask (idx % 8)), by simp [orBit, hb], by simp, ?_⟩
  intro j
  unfold tbit
  by_cases hj : j / 8 = idx / 8
  · rw [hj, List.getElem?_set_self h, hb]
    simp only [Option.map_some, UInt8.toNat_or, Nat.testBit_or]
    rw [mask_or_aux _ (Nat.mod_lt _ (by decide)) _ (Nat.mod_lt _ (by decide))]
    by_cases hj2 : j = idx
    · subst hj2; simp
    · have : ¬ idx % 8 = j % 8 := by omega
      simp [hj2, this]
  · rw [List.getElem?_set_ne (Ne.symm hj)]
    have : j ≠ idx := fun h => hj (by rw [h])
    rw [if_neg this]

theorem foldlM_orBit_spec (idxs : List Nat) (t : Bytes) (h : ∀ i ∈ idxs, i / 8 < t.length) :
    ∃ t', idxs.foldlM orBit t = some t' ∧ t'.length = t.length ∧
      ∀ j, tbit t' j = if j ∈ idxs then some true else tbit t j := by
  induction idxs generalizing t with
  | nil => exact ⟨t, rfl, rfl, by simp⟩
  | cons i is ih =>
    obtain ⟨t1, h1, hl1, hs1⟩ := orBit_spec t i (h i (by simp))
    obtain ⟨t2, h2, hl2, hs2⟩ := ih t1 (fun k hk => by rw [hl1]; exact h k (by simp [hk]))
    refine ⟨t2, by simp [List.foldlM_cons, h1, h2], by omega, ?_⟩
    intro j
    rw [hs2, hs1]
    by_cases a : j ∈ is <;> by_cases b : j = i <;> simp [a, b]

theorem bytes_ext_tbit {t u : Bytes} (hl : t.length = u.length) (h : ∀ j, tbit t j = tbit u j) : t = u := by
  apply List.ext_getElem?
  intro p
  by_cases hp : p < t.length
  · have hp' : p < u.length := by omega
    rw [List.getElem?_eq_getElem hp, List.getElem?_eq_getElem hp']
    congr 1
    apply UInt8.toNat_inj.mp
    apply Nat.eq_of_testBit_eq
    intro k
    by_cases hk : k < 8
    · have := h (8 * p + k)
      unfold tbit at this
      have e1 : (8 * p + k) / 8 = p := by omega
      have e2 : (8 * p + k) % 8 = k := by omega
      rw [e1, e2, List.getElem?_eq_getElem hp, List.getElem?_eq_getElem hp'] at this
      simpa using this
    · have lt1 : (t[p]).toNat < 2 ^ k :=
        Nat.lt_of_lt_of_le (UInt8.toNat_lt _) (Nat.pow_le_pow_right (by decide) (by omega : 8 ≤ k))
      have lt2 : (u[p]).toNat < 2 ^ k :=
        Nat.lt_of_lt_of_le (UInt8.toNat_lt _) (Nat.pow_le_pow_right (by decide) (by omega : 8 ≤ k))
      rw [Nat.testBit_lt_two_pow lt1, Nat.testBit_lt_two_pow lt2]
  · rw [List.getElem?_eq_none (by omega), List.getElem?_eq_none (by omega)]

/-- Consistency of the members, established by the constructor. -/
structure Good (f : Filter) : Prop where
  tpos : 0 < f.tableSize
  t8 : f.tableSize % 8 = 0
  tlen : f.bitTable.length = f.tableSize / 8
  slen : f.vecSalt.length = f.hashNum

/-- The bit position of `x` for salt `s`. -/
def pos (H : UInt32 → Bytes → UInt32) (m : Nat) (s : UInt32) (x : Bytes) : Nat := (H s x).toNat % m

theorem bitIndex_eq {H} {f : Filter} (g : Good f) (x : Bytes) {i : Nat} (hi : i < f.vecSalt.length) :
    bitIndex H f x i = some (pos H f.tableSize f.vecSalt[i] x) := by
  unfold bitIndex
  have := g.tpos
  simp [List.getElem?_eq_getElem hi, pos]
  omega

theorem pos_lt {H} {f : Filter} (g : Good f) (s x) : pos H f.tableSize s x / 8 < f.bitTable.length := by
  have h1 : pos H f.tableSize s x < f.tableSize := Nat.mod_lt _ g.tpos
  have := g.t8
  rw [g.tlen]; omega

theorem mapM_some {α β} (g : α → Option β) (h : α → β) (l : List α) (hl : ∀ a ∈ l, g a = some (h a)) :
    l.mapM g = some (l.map h) := by
  induction l with
  | nil => rfl
  | cons a as ih =>
    rw [List.mapM_cons, hl a (by simp), ih (fun b hb => hl b (by simp [hb]))]
    rfl

/-- Total version of `bitIndex` used only inside proofs. -/
def posAt (H : UInt32 → Bytes → UInt32) (f : Filter) (x : Bytes) (i : Nat) : Nat :=
  pos H f.tableSize (f.vecSalt.getD i 0) x

theorem bitIndex_posAt {H} {f : Filter} (g : Good f) (x : Bytes) {i : Nat} (hi : i < f.hashNum) :
    bitIndex H f x i = some (posAt H f x i) := by
  have hi' : i < f.vecSalt.length := by rw [g.slen]; exact hi
  rw [bitIndex_eq g x hi', posAt, List.getD_eq_getElem?_getD, List.getElem?_eq_getElem hi']
  rfl

theorem posAt_mem {H} {f : Filter} (g : Good f) (x : Bytes) {i : Nat} (hi : i < f.hashNum) :
    ∃ s ∈ f.vecSalt, posAt H f x i = pos H f.tableSize s x := by
  have hi' : i < f.vecSalt.length := by rw [g.slen]; exact hi
  refine ⟨f.vecSalt[i], List.getElem_mem _, ?_⟩
  rw [posAt, List.getD_eq_getElem?_getD, List.getElem?_eq_getElem hi']
  rfl

theorem exists_posAt {H} {f : Filter} (g : Good f) (x : Bytes) {s : UInt32} (hs : s ∈ f.vecSalt) :
    ∃ i < f.hashNum, posAt H f x i = pos H f.tableSize s x := by
  obtain ⟨i, hi, rfl⟩ := List.getElem_of_mem hs
  refine ⟨i, by rw [← g.slen]; exact hi, ?_⟩
  rw [posAt, List.getD_eq_getElem?_getD, List.getElem?_eq_getElem hi]
  rfl

/-- Effect of any interleaving of the atomic updates of several insertions. -/
theorem insertParallel_spec {H} {f : Filter} (g : Good f) (n : Nat) (sched : List (Bytes × Nat))
    (hs : ∀ p ∈ sched, p.2 < f.hashNum) :
    ∃ f', insertParallel H f n sched = some f' ∧ Good f' ∧
      f' = { f with bitTable := f'.bitTable, inserted := (f.inserted + n) % 2 ^ 64 } ∧
      ∀ j, tbit f'.bitTable j =
        if ∃ p ∈ sched, posAt H f p.1 p.2 = j then some true else tbit f.bitTable j := by
  have hm : sched.mapM (fun p => bitIndex H f p.1 p.2) = some (sched.map (fun p => posAt H f p.1 p.2)) :=
    mapM_some _ _ _ (fun p hp => bitIndex_posAt g p.1 (hs p hp))
  obtain ⟨t', h1, h2, h3⟩ := foldlM_orBit_spec (sched.map (fun p => posAt H f p.1 p.2)) f.bitTable (by
    intro i hi
    obtain ⟨p, hp, rfl⟩ := List.mem_map.mp hi
    obtain ⟨s, _, e⟩ := posAt_mem (H := H) g p.1 (hs p hp)
    rw [e]; exact pos_lt g _ _)
  refine ⟨{ f with bitTable := t', inserted := (f.inserted + n) % 2 ^ 64 }, ?_, ⟨g.tpos, g.t8, ?_, g.slen⟩, rfl, ?_⟩
  · simp [insertParallel, hm, h1]
  · simp [h2, g.tlen]
  · intro j
    rw [h3]
    simp only [List.mem_map]

theorem insertSched_eq_parallel {H} (f : Filter) (x : Bytes) (sched : List Nat) :
    insertSched H f x sched = insertParallel H f 1 (sched.map (x, ·)) := by
  unfold insertSched insertParallel bitIndices
  rw [List.mapM_map]
  rfl

theorem containStep_spec {H} {f : Filter} (g : Good f) (x : Bytes) (c : Bool) (p : Nat × Bool)
    (hp : p.1 < f.hashNum) :
    containStep H f x c p = some (c && decide (tbit f.bitTable (posAt H f x p.1) = some true)) := by
  obtain ⟨b, hb⟩ : ∃ b, tbit f.bitTable (posAt H f x p.1) = some b := by
    obtain ⟨s, _, e⟩ := posAt_mem (H := H) g x hp
    have := pos_lt (H := H) g s x
    rw [e, tbit, List.getElem?_eq_getElem this]
    exact ⟨_, rfl⟩
  unfold containStep
  rw [bitIndex_posAt g x hp]
  cases c <;> cases b <;> cases hp2 : p.2 <;> simp [bitSet_eq, hb]

theorem containSched_spec {H} {f : Filter} (g : Good f) (x : Bytes) (sched : List (Nat × Bool))
    (hs : ∀ p ∈ sched, p.1 < f.hashNum) (c : Bool) :
    sched.foldlM (containStep H f x) c =
    some (c && decide (∀ p ∈ sched, tbit f.bitTable (posAt H f x p.1) = some true)) := by
  induction sched generalizing c with
  | nil => simp
  | cons p ps ih =>
    rw [List.foldlM_cons, containStep_spec g x c p (hs p (by simp)), Option.bind_eq_bind, Option.bind_some,
      ih (fun q hq => hs q (List.mem_cons_of_mem p hq))]
    simp only [List.forall_mem_cons, Bool.decide_and, Bool.and_assoc]

/-- The bits of the table are exactly the positions of the keys `ks`. -/
def Repr (H : UInt32 → Bytes → UInt32) (f : Filter) (ks : List Bytes) : Prop :=
  ∀ j, tbit f.bitTable j = some true ↔ ∃ k ∈ ks, ∃ s ∈ f.vecSalt, pos H f.tableSize s k = j

theorem insert_spec {H} {f : Filter} (g : Good f) {ks : List Bytes} (r : Repr H f ks) (x : Bytes)
    (sched : List Nat) (hsched : sched.Perm (List.range f.hashNum)) :
    ∃ f', insertSched H f x sched = some f' ∧ Good f' ∧
      f' = { f with bitTable := f'.bitTable, inserted := (f.inserted + 1) % 2 ^ 64 } ∧ Repr H f' (ks ++ [x]) := by
  rw [insertSched_eq_parallel]
  obtain ⟨f', h1, h2, h3, h4⟩ := insertParallel_spec (H := H) g 1 (sched.map (x, ·)) (by
    intro p hp
    obtain ⟨i, hi, rfl⟩ := List.mem_map.mp hp
    exact List.mem_range.mp (hsched.mem_iff.mp hi))
  refine ⟨f', h1, h2, h3, ?_⟩
  intro j
  rw [h4]
  have hv : f'.vecSalt = f.vecSalt := by rw [h3]
  have ht : f'.tableSize = f.tableSize := by rw [h3]
  rw [hv, ht]
  constructor
  · intro h
    split at h
    · rename_i hex
      obtain ⟨p, hp, e⟩ := hex
      obtain ⟨i, hi, rfl⟩ := List.mem_map.mp hp
      obtain ⟨s, hs, e2⟩ := posAt_mem (H := H) g x (List.mem_range.mp (hsched.mem_iff.mp hi))
      exact ⟨x, by simp, s, hs, by rw [← e2, e]⟩
    · obtain ⟨k, hk, rest⟩ := (r j).mp h
      exact ⟨k, by simp [hk], rest⟩
  · rintro ⟨k, hk, s, hs, e⟩
    split
    · rfl
    · rename_i hne
      rw [List.mem_append] at hk
      rcases hk with hk | hk
      · exact (r j).mpr ⟨k, hk, s, hs, e⟩
      · simp at hk
        subst hk
        exfalso
        apply hne
        obtain ⟨i, hi, e2⟩ := exists_posAt (H := H) g k hs
        exact ⟨(k, i), List.mem_map.mpr ⟨i, hsched.mem_iff.mpr (List.mem_range.mpr hi), rfl⟩, by rw [e2, e]⟩

theorem contain_spec {H} {f : Filter} (g : Good f) {ks : List Bytes} (r : Repr H f ks) (x : Bytes)
    (sched : List (Nat × Bool)) (hsched : (sched.map (·.1)).Perm (List.range f.hashNum)) :
    ∃ b, containSched H f x sched = some b ∧
      (b = true ↔ ∀ s ∈ f.vecSalt, ∃ k ∈ ks, ∃ s' ∈ f.vecSalt, pos H f.tableSize s' k = pos H f.tableSize s x) := by
  have hlt : ∀ p ∈ sched, p.1 < f.hashNum := fun p hp =>
    List.mem_range.mp (hsched.mem_iff.mp (List.mem_map.mpr ⟨p, hp, rfl⟩))
  refine ⟨_, containSched_spec g x sched hlt true, ?_⟩
  rw [Bool.true_and, decide_eq_true_eq]
  constructor
  · intro h s hs
    obtain ⟨i, hi, e⟩ := exists_posAt (H := H) g x hs
    obtain ⟨p, hp, rfl⟩ := List.mem_map.mp (hsched.mem_iff.mpr (List.mem_range.mpr hi))
    rw [← e]
    exact (r _).mp (h p hp)
  · intro h p hp
    obtain ⟨s, hs, e⟩ := posAt_mem (H := H) g x (hlt p hp)
    rw [e]
    exact (r _).mpr (h s hs)

theorem clear_spec {H} {f : Filter} (g : Good f) : Good (clear f) ∧ Repr H (clear f) [] := by
  refine ⟨⟨g.tpos, g.t8, by simp [clear, g.tlen], g.slen⟩, ?_⟩
  intro j
  simp [clear, tbit, Option.map_eq_some_iff]

theorem roundTableSize_eq (raw : UInt32) (h : raw.toNat ≤ 2 ^ 32 - 8) :
    roundTableSize raw = (raw.toNat + 7) / 8 * 8 := by
  unfold roundTableSize
  have h1 : (raw + 7).toNat = raw.toNat + 7 := by
    rw [UInt32.toNat_add]
    have : (7 : UInt32).toNat = 7 := rfl
    rw [this, Nat.mod_eq_of_lt (by omega)]
  rw [UInt32.toNat_shiftLeft, UInt32.toNat_shiftRight, h1]
  have e : (3 : UInt32).toNat % 32 = 3 := rfl
  rw [e, Nat.shiftRight_eq_div_pow, Nat.shiftLeft_eq]
  omega

theorem saltStep_length {seed : UInt32} {v v' : List UInt32} {i : Nat} (h : saltStep seed v i = some v') :
    v'.length = v.length := by
  unfold saltStep at h
  simp only [Option.bind_eq_bind, Option.bind_eq_some_iff, Option.pure_def, Option.some.injEq] at h
  obtain ⟨a, _, b, _, rfl⟩ := h
  simp

theorem foldlM_saltStep_length {seed : UInt32} (is : List Nat) {v v' : List UInt32}
    (h : is.foldlM (saltStep seed) v = some v') : v'.length = v.length := by
  induction is generalizing v with
  | nil => cases h; rfl
  | cons i is ih =>
    rw [List.foldlM_cons] at h
    simp only [Option.bind_eq_bind, Option.bind_eq_some_iff] at h
    obtain ⟨w, h1, h2⟩ := h
    rw [ih h2, saltStep_length h1]

theorem saltLoop_length {n : Nat} (rnd v r : List UInt32) (hv : v.length ≤ n) (h : saltLoop n rnd v = some r) :
    r.length = n := by
  induction rnd generalizing v with
  | nil =>
    unfold saltLoop at h
    split at h
    · cases h; omega
    · cases h
  | cons x xs ih =>
    unfold saltLoop at h
    split at h
    · cases h; omega
    · simp only at h
      split at h
      · exact ih v hv h
      · split at h
        · exact ih v hv h
        · exact ih (v ++ [x]) (by simp; omega) h

theorem genSalts_length {rnd : List UInt32} {n : Nat} {seed : UInt32} {v : List UInt32}
    (h : genUniqueSaltVector rnd n seed = some v) : v.length = n := by
  unfold genUniqueSaltVector at h
  split at h
  · rw [foldlM_saltStep_length _ h]
    simp [predefinedSalt]; omega
  · exact saltLoop_length rnd _ _ (by simp [predefinedSalt]; omega) h

theorem new_good {H} {rnd : List UInt32} {maxElem n : Nat} {raw : UInt32} {f : Filter}
    (h : new rnd maxElem n raw = some f) (h1 : 0 < raw.toNat) (h2 : raw.toNat ≤ 2 ^ 32 - 8) :
    Good f ∧ Repr H f [] := by
  unfold new at h
  simp only [Option.bind_eq_bind, Option.bind_eq_some_iff, Option.pure_def, Option.some.injEq] at h
  obtain ⟨v, hv, rfl⟩ := h
  refine ⟨⟨?_, ?_, by simp, genSalts_length hv⟩, ?_⟩
  · simp only; rw [roundTableSize_eq raw h2]; omega
  · simp only; rw [roundTableSize_eq raw h2]; omega
  · intro j
    simp [tbit, List.getElem?_replicate]

end Kunlun.Bloom
