import Verif.Model.Omp
import Mathlib.Tactic.ByContra
import Mathlib.Tactic.Tauto
import Mathlib.Tactic.NormNum
/-!
# C91: a parallel loop computes what the same loop computes without the pragma
-/

namespace Kunlun
namespace Omp

variable {A V : Type} [DecidableEq A]

theorem exec_store (p : Body A V) {R W : A → Prop} (h : p.Within R W) (m : Mem A V) (a : A) (v : V)
    (hr : ¬ R a) (hw : ¬ W a) : p.exec (m.store a v) = (p.exec m).store a v := by
  induction p generalizing m with
  | done => rfl
  | read b k ih =>
    obtain ⟨h1, h2⟩ := h
    have hb : b ≠ a := by
      rintro rfl
      exact h1.elim hr hw
    have e : m.store a v b = m b := by simp [Mem.store, hb]
    simp only [Body.exec, e]
    exact ih _ (h2 _) m
  | write b w k ih =>
    obtain ⟨h1, h2⟩ := h
    have hb : b ≠ a := by
      rintro rfl
      exact hw h1
    have e : (m.store a v).store b w = (m.store b w).store a v := by
      funext c
      by_cases h1 : c = b <;> by_cases h2 : c = a <;> simp_all [Mem.store]
    simp only [Body.exec, e]
    exact ih h2 _

theorem exec_get (p : Body A V) {R W : A → Prop} (h : p.Within R W) (m : Mem A V) (a : A) (hw : ¬ W a) :
    p.exec m a = m a := by
  induction p generalizing m with
  | done => rfl
  | read b k ih => exact ih _ (h.2 _) m
  | write b w k ih =>
    obtain ⟨h1, h2⟩ := h
    simp only [Body.exec, ih h2]
    have hb : a ≠ b := by
      rintro rfl
      exact hw h1
    simp [Mem.store, hb]

theorem within_step {p : Body A V} {R W : A → Prop} (h : p.Within R W) (m : Mem A V) : (p.step m).1.Within R W := by
  cases p with
  | done => exact trivial
  | read b k => exact h.2 _
  | write b w k => exact h.2

/-- One access made earlier than the loop order says does not change the outcome of the loop. -/
theorem sequential_step : ∀ (ps : List (Body A V)) (m : Mem A V) (i : Nat), RaceFree ps →
    sequential (stepAt ps m i).1 (stepAt ps m i).2 = sequential ps m
  | [], m, i, _ => by simp [stepAt]
  | p :: ps, m, 0, _ => by
    cases p <;> simp [stepAt, sequential, Body.step, Body.exec]
  | p :: ps, m, i + 1, hf => by
    obtain ⟨R, W, hw, hd⟩ := hf
    have hf' : RaceFree ps := by
      refine ⟨fun j => R (j + 1), fun j => W (j + 1), fun j q hq => hw (j + 1) q (by simpa using hq), ?_⟩
      intro a b ha hb hab
      exact hd (a + 1) (b + 1) (by simpa using ha) (by simpa using hb) (by omega)
    have ih := sequential_step ps (p.exec m) i hf'
    have hp := hw 0 p (by simp)
    cases hq : ps[i]? with
    | none => simp [stepAt, hq]
    | some q =>
      have hlt : i < ps.length := by
        by_contra hn
        rw [List.getElem?_eq_none (by omega)] at hq
        cases hq
      have hqw := hw (i + 1) q (by simpa using hq)
      have hdis := hd (i + 1) 0 (by simpa using hlt) (by simp) (by omega)
      have hdis' := hd 0 (i + 1) (by simp) (by simpa using hlt) (by omega)
      simp only [stepAt, hq] at ih
      simp only [stepAt, List.getElem?_cons_succ, hq, List.set_cons_succ, sequential]
      rw [← ih]
      cases q with
      | done => simp [Body.step]
      | read a k =>
        have : p.exec m a = m a := exec_get p hp m a (fun h => by
          have := hdis' a h
          exact hqw.1.elim this.1 this.2)
        simp [Body.step, this]
      | write a v k =>
        have := hdis a hqw.1
        simp only [Body.step]
        rw [exec_store p hp m a v this.1 this.2]

theorem raceFree_step {ps : List (Body A V)} (h : RaceFree ps) (m : Mem A V) (i : Nat) : RaceFree (stepAt ps m i).1 := by
  unfold stepAt
  cases hq : ps[i]? with
  | none => exact h
  | some q =>
    obtain ⟨R, W, hw, hd⟩ := h
    refine ⟨R, W, ?_, ?_⟩
    · intro j p hp
      by_cases hij : i = j
      · subst hij
        rw [List.getElem?_set] at hp
        simp only [if_true] at hp
        split at hp
        · obtain rfl := Option.some.inj hp
          exact within_step (hw i q hq) m
        · cases hp
      · rw [List.getElem?_set_ne hij] at hp
        exact hw j p hp
    · intro a b ha hb hab
      exact hd a b (by simpa using ha) (by simpa using hb) hab

theorem sequential_ended : ∀ (ps : List (Body A V)) (m : Mem A V), (∀ p ∈ ps, p.Ended) → sequential ps m = m
  | [], _, _ => rfl
  | p :: ps, m, h => by
    have hp := h p (by simp)
    cases p with
    | done => exact sequential_ended ps m fun q hq => h q (by simp [hq])
    | read => exact hp.elim
    | write => exact hp.elim

theorem sequential_run : ∀ (sched : List Nat) (ps : List (Body A V)) (m : Mem A V), RaceFree ps →
    sequential (run sched (ps, m)).1 (run sched (ps, m)).2 = sequential ps m
  | [], _, _, _ => rfl
  | i :: is, ps, m, h => by
    rw [run, sequential_run is _ _ (raceFree_step h m i), sequential_step ps m i h]

/-- **C91.** A parallel loop in which no iteration writes a cell that another one touches leaves, under every schedule, the memory
that the loop leaves without the pragma. -/
theorem parallel_eq_sequential (ps : List (Body A V)) (m : Mem A V) (hf : RaceFree ps) (sched : List Nat) (m' : Mem A V)
    (h : Parallel ps m sched m') : m' = sequential ps m := by
  obtain ⟨qs, hr, he⟩ := h
  have := sequential_run sched ps m hf
  rw [hr] at this
  rw [← this, sequential_ended qs m' he]

/-- The iteration makes at most `n` accesses, whatever it reads. -/
def Body.Bounded : Body A V → Nat → Prop
  | .done, _ => True
  | .read _ _, 0 => False
  | .read _ k, n + 1 => ∀ v, (k v).Bounded n
  | .write _ _ _, 0 => False
  | .write _ _ k, n + 1 => k.Bounded n

omit [DecidableEq A] in
theorem Body.Bounded.ended {p : Body A V} (h : p.Bounded 0) : p.Ended := by
  cases p <;> simp_all [Body.Bounded, Body.Ended]

theorem Body.Bounded.step {p : Body A V} {n : Nat} (h : p.Bounded n) (m : Mem A V) : (p.step m).1.Bounded (n - 1) := by
  cases p with
  | done => trivial
  | read a k => cases n with
    | zero => exact h.elim
    | succ n => exact h _
  | write a v k => cases n with
    | zero => exact h.elim
    | succ n => exact h

theorem run_bounded (i : Nat) : ∀ (sched : List Nat) (ps : List (Body A V)) (m : Mem A V) (n : Nat) (p : Body A V),
    ps[i]? = some p → p.Bounded n →
    ∃ q, (run sched (ps, m)).1[i]? = some q ∧ q.Bounded (n - sched.count i)
  | [], _, _, n, p, hp, hb => ⟨p, hp, by simpa using hb⟩
  | j :: js, ps, m, n, p, hp, hb => by
    have hlt : i < ps.length := by
      by_contra hn
      rw [List.getElem?_eq_none (by omega)] at hp
      cases hp
    rw [run]
    by_cases hij : j = i
    · subst hij
      have e : (stepAt ps m j).1[j]? = some (p.step m).1 := by
        simp only [stepAt, hp]
        simp [hlt]
      obtain ⟨q, hq, hb'⟩ := run_bounded j js _ (stepAt ps m j).2 (n - 1) _ e (hb.step m)
      refine ⟨q, hq, ?_⟩
      rw [List.count_cons_self]
      rwa [show n - (List.count j js + 1) = n - 1 - List.count j js by omega]
    · have e : (stepAt ps m j).1[i]? = some p := by
        unfold stepAt
        cases ps[j]? with
        | none => exact hp
        | some q => simpa [List.getElem?_set_ne hij] using hp
      obtain ⟨q, hq, hb'⟩ := run_bounded i js _ (stepAt ps m j).2 n _ e hb
      refine ⟨q, hq, ?_⟩
      rwa [List.count_cons_of_ne hij]

theorem stepAt_length (ps : List (Body A V)) (m : Mem A V) (i : Nat) : (stepAt ps m i).1.length = ps.length := by
  unfold stepAt
  split <;> simp

theorem run_length : ∀ (sched : List Nat) (ps : List (Body A V)) (m : Mem A V), (run sched (ps, m)).1.length = ps.length
  | [], _, _ => rfl
  | i :: is, ps, m => by rw [run, run_length is, stepAt_length]

/-- **C91 (the loop is left).** A schedule that serves every iteration often enough ends the loop. -/
theorem parallel_ends (ps : List (Body A V)) (m : Mem A V) (n : Nat) (hb : ∀ p ∈ ps, p.Bounded n) (sched : List Nat)
    (hs : ∀ i < ps.length, n ≤ sched.count i) : ∃ m', Parallel ps m sched m' := by
  refine ⟨_, _, rfl, ?_⟩
  intro q hq
  obtain ⟨i, hi, rfl⟩ := List.getElem_of_mem hq
  have hi' : i < ps.length := by rwa [run_length] at hi
  obtain ⟨r, hr, hb'⟩ := run_bounded i sched ps m n ps[i] (List.getElem?_eq_getElem hi') (hb _ (List.getElem_mem hi'))
  rw [List.getElem?_eq_getElem hi] at hr
  obtain rfl := Option.some.inj hr
  rw [show n - sched.count i = 0 by have := hs i hi'; omega] at hb'
  exact hb'.ended

/-! ### What each iteration leaves -/

theorem exec_congr (p : Body A V) {R W : A → Prop} (h : p.Within R W) (m m' : Mem A V) (he : ∀ a, R a ∨ W a → m a = m' a) :
    ∀ a, R a ∨ W a → p.exec m a = p.exec m' a := by
  induction p generalizing m m' with
  | done => exact he
  | read b k ih =>
    intro a ha
    simp only [Body.exec, he b h.1]
    exact ih _ (h.2 _) m m' he a ha
  | write b v k ih =>
    refine ih h.2 _ _ fun a ha => ?_
    by_cases hab : a = b
    · simp [Mem.store, hab]
    · simpa [Mem.store, hab] using he a ha

theorem sequential_outside : ∀ (ps : List (Body A V)) (m : Mem A V) (a : A) (R W : Nat → A → Prop),
    (∀ i (p : Body A V), ps[i]? = some p → p.Within (R i) (W i)) → (∀ i < ps.length, ¬ W i a) → sequential ps m a = m a
  | [], _, _, _, _, _, _ => rfl
  | p :: ps, m, a, R, W, hw, ha => by
    rw [sequential, sequential_outside ps _ a (fun j => R (j + 1)) (fun j => W (j + 1))
      (fun j q hq => hw (j + 1) q (by simpa using hq)) (fun j hj => ha (j + 1) (by simpa using hj)),
      exec_get p (hw 0 p (by simp)) m a (ha 0 (by simp))]

theorem sequential_cell : ∀ (ps : List (Body A V)) (m : Mem A V) (R W : Nat → A → Prop),
    (∀ i (p : Body A V), ps[i]? = some p → p.Within (R i) (W i)) →
    (∀ i j, i < ps.length → j < ps.length → i ≠ j → ∀ a, W i a → ¬ R j a ∧ ¬ W j a) →
    ∀ i p, ps[i]? = some p → ∀ a, W i a → sequential ps m a = p.exec m a
  | [], _, _, _, _, _, i, p, h, _, _ => by simp at h
  | q :: ps, m, R, W, hw, hd, 0, p, h, a, ha => by
    obtain rfl : q = p := by simpa using h
    rw [sequential, sequential_outside ps _ a (fun j => R (j + 1)) (fun j => W (j + 1))
      (fun j q hq => hw (j + 1) q (by simpa using hq))
      (fun j hj => (hd 0 (j + 1) (by simp) (by simpa using hj) (by omega) a ha).2)]
  | q :: ps, m, R, W, hw, hd, i + 1, p, h, a, ha => by
    have hp : ps[i]? = some p := by simpa using h
    have hlt : i < ps.length := by
      by_contra hn
      rw [List.getElem?_eq_none (by omega)] at hp
      cases hp
    rw [sequential, sequential_cell ps _ (fun j => R (j + 1)) (fun j => W (j + 1))
      (fun j q hq => hw (j + 1) q (by simpa using hq))
      (fun j k hj hk hjk => hd (j + 1) (k + 1) (by simpa using hj) (by simpa using hk) (by omega)) i p hp a ha]
    refine exec_congr p (hw (i + 1) p h) _ _ ?_ a (Or.inr ha)
    intro b hb
    refine exec_get q (hw 0 q (by simp)) m b fun hq => ?_
    have := hd 0 (i + 1) (by simp) (by simpa using hlt) (by omega) b hq
    exact hb.elim this.1 this.2

/-- **C91 (cell by cell).** Under every schedule a cell written by iteration `i` ends with the value that iteration `i`, run alone
on the memory from before the loop, gives it; a cell no iteration writes keeps its value. -/
theorem parallel_cells (ps : List (Body A V)) (m : Mem A V) (R W : Nat → A → Prop)
    (hw : ∀ i (p : Body A V), ps[i]? = some p → p.Within (R i) (W i))
    (hd : ∀ i j, i < ps.length → j < ps.length → i ≠ j → ∀ a, W i a → ¬ R j a ∧ ¬ W j a)
    (sched : List Nat) (m' : Mem A V) (h : Parallel ps m sched m') :
    (∀ i (p : Body A V), ps[i]? = some p → ∀ a, W i a → m' a = p.exec m a) ∧
    (∀ a, (∀ i < ps.length, ¬ W i a) → m' a = m a) := by
  have e := parallel_eq_sequential ps m ⟨R, W, hw, hd⟩ sched m' h
  subst e
  exact ⟨fun i p hp a ha => sequential_cell ps m R W hw hd i p hp a ha, fun a ha => sequential_outside ps m a R W hw ha⟩

/-! ### The loops of the code -/

theorem map_range_get {β : Type} (f : Nat → β) {n i : Nat} {p : β} (h : ((List.range n).map f)[i]? = some p) :
    i < n ∧ p = f i := by
  have hi : i < n := by
    by_contra hn
    rw [List.getElem?_eq_none (by simp; omega)] at h
    cases h
  refine ⟨hi, ?_⟩
  rw [List.getElem?_map, List.getElem?_range hi] at h
  exact (Option.some.inj h).symm

/-- **C91 for `XOR` (crypto/otp.hpp:6-12).** Under every schedule `C[i] = A[i]^B[i]` for the old contents of `A` and `B`, also when
the result overwrites one of the operands, and nothing else changes. -/
theorem omp_xor (a b c n : Nat) (m : Mem (Nat × Nat) UInt8) (sched : List Nat) (m' : Mem (Nat × Nat) UInt8)
    (h : Parallel ((List.range n).map (xorBody a b c)) m sched m') :
    (∀ i < n, m' (c, i) = m (a, i) ^^^ m (b, i)) ∧ ∀ x, (∀ i < n, x ≠ (c, i)) → m' x = m x := by
  obtain ⟨h1, h2⟩ := parallel_cells _ m (fun i x => x = (a, i) ∨ x = (b, i)) (fun i x => x = (c, i)) (by
    intro i p hp
    obtain ⟨_, rfl⟩ := map_range_get _ hp
    simp [xorBody, Body.Within]) (by
    rintro i j - - hij x rfl
    simp [hij]) sched m' h
  constructor
  · intro i hi
    rw [h1 i (xorBody a b c i) (by simp [hi]) (c, i) rfl]
    simp [xorBody, Body.exec, Mem.store]
  · intro x hx
    exact h2 x fun i hi => hx i (by simpa using hi)

/-- An array as memory: element `i` is in cell `i`. -/
def Holds (m : Mem Nat V) (l : List V) : Prop := ∀ i, (h : i < l.length) → m i = l[i]

/-- **C91 for `ECBEnc` (crypto/aes.hpp:138-144; `ECBDec` is the same loop with `f = dec k`).** Under every schedule every block is
replaced by its image, once. -/
theorem omp_inPlace (f : V → V) (l : List V) (m : Mem Nat V) (hm : Holds m l) (sched : List Nat) (m' : Mem Nat V)
    (h : Parallel ((List.range l.length).map (inPlaceBody f)) m sched m') : Holds m' (l.map f) := by
  obtain ⟨h1, -⟩ := parallel_cells _ m (fun _ _ => False) (fun i x => x = i) (by
    intro i p hp
    obtain ⟨_, rfl⟩ := map_range_get _ hp
    simp [inPlaceBody, Body.Within]) (by
    rintro i j - - hij x rfl
    simp [hij]) sched m' h
  intro i hi
  have hi' : i < l.length := by simpa using hi
  rw [h1 i (inPlaceBody f i) (by simp [hi']) i rfl]
  simp [inPlaceBody, Body.exec, Mem.store, hm i hi']

/-- The functions of C14 and C15 are what the parallel loops compute. -/
theorem omp_ecb (k : AES.Key) (l : List Block) (m : Mem Nat Block) (hm : Holds m l) (sched : List Nat) (m' : Mem Nat Block) :
    (Parallel ((List.range l.length).map (inPlaceBody (AES.enc k))) m sched m' →
      ∃ r, AES.ecbEnc k l l.length = some r ∧ Holds m' r) ∧
    (Parallel ((List.range l.length).map (inPlaceBody (AES.dec k))) m sched m' →
      ∃ r, AES.ecbDec k l l.length = some r ∧ Holds m' r) :=
  ⟨fun h => ⟨_, AES.mapLoop_all _ l, omp_inPlace _ l m hm sched m' h⟩,
   fun h => ⟨_, AES.mapLoop_all _ l, omp_inPlace _ l m hm sched m' h⟩⟩

/-- **C91 for the loops `vec_result[i] = f(vec_A[i], vec_B[i])`** (crypto/ec_point.hpp:396-433 and the protocols): under every
schedule the result vector is the element-wise image, when it is not one of the operands. -/
theorem omp_zip (f : V → V → V) (a b c n : Nat) (m : Mem (Nat × Nat) V)
    (sched : List Nat) (m' : Mem (Nat × Nat) V)
    (h : Parallel ((List.range n).map (zipBody f a b c)) m sched m') :
    (∀ i < n, m' (c, i) = f (m (a, i)) (m (b, i))) ∧ ∀ x, (∀ i < n, x ≠ (c, i)) → m' x = m x := by
  obtain ⟨h1, h2⟩ := parallel_cells _ m (fun i x => x = (a, i) ∨ x = (b, i)) (fun i x => x = (c, i)) (by
    intro i p hp
    obtain ⟨_, rfl⟩ := map_range_get _ hp
    simp [zipBody, Body.Within]) (by
    rintro i j - - hij x rfl
    simp [hij]) sched m' h
  constructor
  · intro i hi
    rw [h1 i (zipBody f a b c i) (by simp [hi]) (c, i) rfl]
    simp [zipBody, Body.exec, Mem.store]
  · intro x hx
    exact h2 x fun i hi => hx i (by simpa using hi)

/-! #### `Packing` -/

omit [DecidableEq A] in
theorem within_seq {p q : Body A V} {R W : A → Prop} (hp : p.Within R W) (hq : q.Within R W) : (p.seq q).Within R W := by
  induction p with
  | done => exact hq
  | read a k ih => exact ⟨hp.1, fun v => ih v (hp.2 v)⟩
  | write a v k ih => exact ⟨hp.1, ih hp.2⟩

omit [DecidableEq A] in
theorem within_loop {ps : List (Body A V)} {R W : A → Prop} (h : ∀ p ∈ ps, p.Within R W) : (Body.loop ps).Within R W := by
  induction ps with
  | nil => trivial
  | cons p ps ih => exact within_seq (h p (by simp)) (ih fun q hq => h q (by simp [hq]))

theorem exec_seq (p q : Body A V) (m : Mem A V) : (p.seq q).exec m = q.exec (p.exec m) := by
  induction p generalizing m with
  | done => rfl
  | read a k ih => exact ih _ m
  | write a v k ih => exact ih _

theorem exec_loop (ps : List (Body A V)) (m : Mem A V) : (Body.loop ps).exec m = sequential ps m := by
  induction ps generalizing m with
  | nil => rfl
  | cons p ps ih => rw [Body.loop, exec_seq, sequential, ih]

/-- Bit `t` of a byte. -/
def bit (v : UInt8) (t : Nat) : Bool := v.toBitVec.getLsbD t

theorem bit_mask (v : UInt8) (j : Nat) : (v &&& (1 <<< UInt8.ofNat (j &&& 7)) = 0) ↔ bit v (j % 8) = false := by
  have h : ∀ w : BitVec 8, ∀ r : Fin 8,
      (UInt8.ofBitVec w &&& (1 <<< UInt8.ofNat r.val) = 0) ↔ w.getLsbD r.val = false := by decide +kernel
  have e : j &&& 7 = j % 8 := Nat.and_two_pow_sub_one_eq_mod j 3
  have := h v.toBitVec ⟨j % 8, Nat.mod_lt _ (by norm_num)⟩
  rw [e]
  exact this

theorem bit_or_shift (w : UInt8) (c : Bool) (i t : Nat) (ht : t < 8) :
    bit (w ||| ((if c = false then 0 else 1) <<< UInt8.ofNat (i &&& 7))) t = (bit w t || (c && decide (t = i % 8))) := by
  have h : ∀ (c : Bool) (r s : Fin 8), (((if c = false then 0 else 1 : UInt8) <<< UInt8.ofNat r.val).toBitVec.getLsbD s.val) =
      (c && decide (s.val = r.val)) := by decide +kernel
  have e : i &&& 7 = i % 8 := Nat.and_two_pow_sub_one_eq_mod i 3
  have := h c ⟨i % 8, Nat.mod_lt _ (by norm_num)⟩ ⟨t, ht⟩
  rw [e, bit, UInt8.toBitVec_or, BitVec.getLsbD_or]
  simp only at this
  rw [this, bit]

theorem packOps_bits (L : List (Nat × Nat)) : ∀ (m : Mem PackCell UInt8),
    (∀ i b, sequential (L.map packOp) m (false, i, b) = m (false, i, b)) ∧
    ∀ j b t, t < 8 → (bit (sequential (L.map packOp) m (true, j, b)) t = true ↔
      bit (m (true, j, b)) t = true ∨ (8 * b + t, j) ∈ L ∧ bit (m (false, 8 * b + t, j / 8)) (j % 8) = true) := by
  induction L with
  | nil => intro m; simp [sequential]
  | cons ij L ih =>
    intro m
    obtain ⟨i, j⟩ := ij
    obtain ⟨h1, h2⟩ := ih ((packOp (i, j)).exec m)
    simp only [List.map_cons, sequential]
    have e1 : ∀ i' b, (packOp (i, j)).exec m (false, i', b) = m (false, i', b) := by
      intro i' b
      simp [packOp, Body.exec, Mem.store]
    refine ⟨fun i' b => by rw [h1, e1], ?_⟩
    intro j' b t ht
    rw [h2 j' b t ht, e1]
    have e2 : (packOp (i, j)).exec m (true, j', b) =
        if j' = j ∧ b = i / 8 then m (true, j, i / 8) |||
          ((if bit (m (false, i, j / 8)) (j % 8) = false then 0 else 1) <<< UInt8.ofNat (i &&& 7)) else m (true, j', b) := by
      simp only [packOp, Body.exec, Mem.store, bit_mask, Nat.shiftRight_eq_div_pow]
      norm_num
    rw [e2]
    by_cases hc : j' = j ∧ b = i / 8
    · obtain ⟨rfl, rfl⟩ := hc
      simp only [and_self, if_true, bit_or_shift _ _ _ _ ht, Bool.or_eq_true, Bool.and_eq_true, decide_eq_true_eq,
        List.mem_cons, Prod.mk.injEq, and_true]
      by_cases ht' : t = i % 8
      · subst ht'
        rw [Nat.div_add_mod]
        simp
        tauto
      · have : 8 * (i / 8) + t ≠ i := by omega
        simp [ht', this]
    · rw [if_neg hc]
      have : (8 * b + t, j') ≠ (i, j) := by
        rintro h
        obtain ⟨h3, h4⟩ := Prod.mk.inj h
        exact hc ⟨h4, by omega⟩
      simp only [List.mem_cons, this, false_or]

theorem within_pack (width batch t : Nat) (hb : 0 < batch) :
    (packBody width batch t).Within (fun x => x.1 = false) (fun x => x.1 = true ∧ x.2.1 / batch = t) := by
  refine within_loop fun p hp => ?_
  simp only [List.mem_map, List.mem_flatMap, List.mem_range] at hp
  obtain ⟨ij, ⟨i, hi, k, hk, rfl⟩, rfl⟩ := hp
  have : (t * batch + k) / batch = t := by
    rw [Nat.mul_comm, Nat.mul_add_div hb, Nat.div_eq_of_lt hk, Nat.add_zero]
  simp [packOp, Body.Within, this]

/-- **C91 for `Packing` (mpc/oprf/ote_oprf.hpp:210-224).** Under every schedule of the batches, when the matrix starts with zeroes and
the height is a whole number of batches, bit `i` of row `j` of `matrix_input` is bit `j` of row `i` of `matrix_mapping_values`. -/
theorem omp_packing (width height batch : Nat) (hb : 0 < batch) (hh : height % batch = 0) (m : Mem PackCell UInt8)
    (hz : ∀ j b, m (true, j, b) = 0) (sched : List Nat) (m' : Mem PackCell UInt8)
    (h : Parallel ((List.range (height / batch)).map (packBody width batch)) m sched m') :
    ∀ j < height, ∀ b t, t < 8 → (bit (m' (true, j, b)) t = true ↔
      8 * b + t < width ∧ bit (m (false, 8 * b + t, j / 8)) (j % 8) = true) := by
  obtain ⟨h1, -⟩ := parallel_cells _ m (fun _ x => x.1 = false) (fun t x => x.1 = true ∧ x.2.1 / batch = t) (by
    intro i p hp
    obtain ⟨_, rfl⟩ := map_range_get _ hp
    exact within_pack width batch i hb) (by
    rintro i j - - hij x ⟨hx, rfl⟩
    simp [hx, hij]) sched m' h
  intro j hj b t ht
  have hjb : j / batch < height / batch := by
    rw [Nat.div_lt_iff_lt_mul hb, Nat.div_mul_cancel (Nat.dvd_of_mod_eq_zero hh)]
    exact hj
  rw [h1 (j / batch) (packBody width batch (j / batch)) (by simp [hjb]) (true, j, b) ⟨rfl, rfl⟩, packBody, exec_loop,
    (packOps_bits _ m).2 j b t ht, hz]
  have hm : ((8 * b + t, j) ∈ (List.range width).flatMap fun i => (List.range batch).map fun k => (i, j / batch * batch + k)) ↔
      8 * b + t < width := by
    simp only [List.mem_flatMap, List.mem_range, List.mem_map, Prod.mk.injEq]
    constructor
    · rintro ⟨i, hi, k, hk, rfl, -⟩
      exact hi
    · intro hw
      refine ⟨_, hw, j % batch, Nat.mod_lt _ hb, rfl, ?_⟩
      rw [Nat.mul_comm]
      exact Nat.div_add_mod j batch
  rw [hm]
  simp [bit]

/-- The condition on the cells is needed: two iterations that set different bits of one byte without the `omp atomic` of
bloom_filter.hpp:125 have a schedule that ends and loses one of the bits. -/
theorem omp_plain_or_loses : ∃ (sched : List Nat) (m' : Mem Nat UInt8),
    Parallel [plainOrBody 0 1, plainOrBody 0 2] (fun _ => 0) sched m' ∧ m' 0 ≠ 3 ∧
      sequential [plainOrBody 0 1, plainOrBody 0 2] (fun _ => 0) 0 = 3 := by
  refine ⟨[0, 1, 0, 1], _, ⟨_, rfl, ?_⟩, ?_, ?_⟩
  · simp [run, stepAt, plainOrBody, Body.step, Body.Ended]
  · decide
  · decide

/-- The hypotheses hold for a loop of three iterations in place, with a schedule in which the iterations overlap, and for a
`Packing` of 16 rows in two batches. -/
example : RaceFree ((List.range 3).map (xorBody 0 1 0)) ∧
    (∃ m', Parallel ((List.range 3).map (xorBody 0 1 0)) (fun _ => 5) [2, 0, 1, 0, 2, 1, 1, 0, 2] m') ∧
    (∀ p ∈ (List.range 3).map (xorBody 0 1 0), p.Bounded 3) ∧ 16 % 8 = 0 := by
  refine ⟨⟨fun i x => x = (0, i) ∨ x = (1, i), fun i x => x = (0, i), ?_, ?_⟩, ?_, ?_, rfl⟩
  · intro i p hp
    obtain ⟨_, rfl⟩ := map_range_get _ hp
    simp [xorBody, Body.Within]
  · rintro i j - - hij x rfl
    simp [hij]
  · apply parallel_ends _ _ 3
    · simp [xorBody, Body.Bounded]
    · decide
  · simp [xorBody, Body.Bounded]

end Omp
end Kunlun
