import Mathlib.Algebra.BigOperators.Ring.Finset
import Mathlib.Algebra.Order.BigOperators.Ring.Finset
import Mathlib.Algebra.Order.Chebyshev
import Mathlib.Algebra.BigOperators.Field
import Mathlib.Data.Real.Basic
import Mathlib.Data.Fintype.BigOperators
import Mathlib.Tactic.Linarith
import Mathlib.Tactic.Ring
import Mathlib.Tactic.FieldSimp
/-!
Averages over finitely many choices, programs that ask a random oracle, and the forking lemma. Nothing of the code is modelled here.
-/

namespace Kunlun.Fork

open Finset

/-- The average of `f`. -/
noncomputable def avg {α : Type} [Fintype α] (f : α → ℝ) : ℝ := (∑ a, f a) / Fintype.card α

/-- The average over all lists of `n` entries. -/
noncomputable def avgList {α : Type} [Fintype α] : Nat → (List α → ℝ) → ℝ
  | 0, f => f []
  | n + 1, f => avg fun a => avgList n fun l => f (a :: l)

/-- Averages of averages are linear, monotone and leave constants as they are. -/
structure IsAvg {ι : Type} (A : (ι → ℝ) → ℝ) : Prop where
  add : ∀ f g, A (fun i => f i + g i) = A f + A g
  smul : ∀ c f, A (fun i => c * f i) = c * A f
  mono : ∀ f g, (∀ i, f i ≤ g i) → A f ≤ A g
  const : ∀ c, A (fun _ => c) = c

theorem isAvg_avg {α : Type} [Fintype α] [Nonempty α] : IsAvg (avg (α := α)) where
  add f g := by unfold avg; rw [sum_add_distrib, add_div]
  smul c f := by unfold avg; rw [← mul_sum, mul_div_assoc]
  mono f g h := by unfold avg; exact div_le_div_of_nonneg_right (sum_le_sum fun i _ => h i) (Nat.cast_nonneg _)
  const c := by
    unfold avg
    rw [sum_const, card_univ, nsmul_eq_mul, mul_comm, mul_div_assoc, div_self (Nat.cast_ne_zero.2 Fintype.card_ne_zero), mul_one]

theorem IsAvg.comp {ι κ : Type} {A : (ι → ℝ) → ℝ} {B : (κ → ℝ) → ℝ} (hA : IsAvg A) (hB : IsAvg B) :
    IsAvg fun f : ι × κ → ℝ => A fun i => B fun k => f (i, k) where
  add f g := by simp only [hB.add, hA.add]
  smul c f := by simp only [hB.smul, hA.smul]
  mono f g h := hA.mono _ _ fun i => hB.mono _ _ fun k => h (i, k)
  const c := by simp only [hB.const, hA.const]

theorem isAvg_avgList {α : Type} [Fintype α] [Nonempty α] (n : Nat) : IsAvg (avgList (α := α) n) := by
  induction n with
  | zero => exact ⟨fun _ _ => rfl, fun _ _ => rfl, fun _ _ h => h [], fun _ => rfl⟩
  | succ n ih =>
    exact ⟨fun f g => by simp only [avgList, ih.add, isAvg_avg.add], fun c f => by simp only [avgList, ih.smul, isAvg_avg.smul],
      fun f g h => isAvg_avg.mono _ _ fun a => ih.mono _ _ fun l => h _, fun c => by simp only [avgList, ih.const, isAvg_avg.const]⟩

theorem IsAvg.nonneg {ι : Type} {A : (ι → ℝ) → ℝ} (hA : IsAvg A) (f : ι → ℝ) (h : ∀ i, 0 ≤ f i) : 0 ≤ A f := by
  have := hA.mono (fun _ => 0) f h
  rwa [hA.const] at this

/-- Jensen's inequality for squares. -/
theorem IsAvg.sq_le {ι : Type} {A : (ι → ℝ) → ℝ} (hA : IsAvg A) (f : ι → ℝ) : A f ^ 2 ≤ A fun i => f i ^ 2 := by
  have h := hA.nonneg (fun i => (f i - A f) ^ 2) fun i => sq_nonneg _
  have e : (fun i => (f i - A f) ^ 2) = fun i => (f i ^ 2 + (-2 * A f) * f i) + A f ^ 2 := by funext i; ring
  rw [e, hA.add, hA.add, hA.smul, hA.const] at h
  linarith [sq (A f)]

variable {X V R : Type}

/-- A program that asks an oracle and returns a result. -/
inductive Adv (X V R : Type) where
  | done : R → Adv X V R
  | ask : X → (V → Adv X V R) → Adv X V R

namespace Adv

def run : Adv X V R → (X → V) → R
  | done r, _ => r
  | ask x k, o => (k (o x)).run o

/-- The strings asked, in order. -/
def queries : Adv X V R → (X → V) → List X
  | done _, _ => []
  | ask x k, o => x :: (k (o x)).queries o

/-- At most `n` questions, whatever the answers. -/
def Within : Adv X V R → Nat → Prop
  | done _, _ => True
  | ask _ _, 0 => False
  | ask _ k, n + 1 => ∀ v, (k v).Within n

theorem queries_length (T : Adv X V R) (n : Nat) (h : T.Within n) (o : X → V) : (T.queries o).length ≤ n := by
  induction T generalizing n with
  | done r => simp [queries]
  | ask x k ih =>
    cases n with
    | zero => exact h.elim
    | succ n =>
      have := ih (o x) n (h _)
      simp only [queries, List.length_cons]
      omega

theorem within_mono (T : Adv X V R) (n m : Nat) (h : T.Within n) (hm : n ≤ m) : T.Within m := by
  induction T generalizing n m with
  | done r => trivial
  | ask x k ih =>
    cases n with
    | zero => exact h.elim
    | succ n =>
      obtain ⟨m, rfl⟩ : ∃ b, m = b + 1 := ⟨m - 1, by omega⟩
      exact fun v => ih v n m (h v) (by omega)

variable [DecidableEq X]

/-- The questions up to the first that is `x` do not depend on the answer to it. -/
theorem queries_update (T : Adv X V R) (o : X → V) (x : X) (c : V) (i : Nat) (h : x ∉ (T.queries o).take i) :
    (T.queries (Function.update o x c)).take (i + 1) = (T.queries o).take (i + 1) := by
  induction T generalizing i with
  | done r => simp [queries]
  | ask y k ih =>
    simp only [queries, List.take_succ_cons]
    cases i with
    | zero => simp
    | succ i =>
      simp only [queries, List.take_succ_cons, List.mem_cons, not_or] at h
      rw [Function.update_of_ne (Ne.symm h.1), ih (o y) i h.2]

/-- The question number `i`, if it is a new one. -/
def fresh (T : Adv X V R) (i : Nat) (o : X → V) : Option X :=
  ((T.queries o)[i]?).bind fun x => if x ∈ (T.queries o).take i then none else some x

theorem fresh_eq_some (T : Adv X V R) (i : Nat) (o : X → V) (x : X) :
    T.fresh i o = some x ↔ (T.queries o)[i]? = some x ∧ x ∉ (T.queries o).take i := by
  unfold fresh
  rw [Option.bind_eq_some_iff]
  constructor
  · rintro ⟨y, h1, h2⟩
    split at h2
    · cases h2
    · next h => rw [Option.some.injEq] at h2; subst h2; exact ⟨h1, h⟩
  · rintro ⟨h1, h2⟩
    exact ⟨x, h1, if_neg h2⟩

theorem fresh_update (T : Adv X V R) (i : Nat) (o : X → V) (x : X) (c : V) (h : T.fresh i o = some x) :
    T.fresh i (Function.update o x c) = some x := by
  rw [fresh_eq_some] at h ⊢
  have hq := queries_update T o x c i h.2
  constructor
  · have := congrArg (·[i]?) hq
    simp only [List.getElem?_take_of_lt (Nat.lt_succ_self i)] at this
    rw [this, h.1]
  · have := congrArg (List.take i) hq
    simp only [List.take_take, Nat.min_eq_left (Nat.le_succ i)] at this
    rw [this]
    exact h.2

theorem fresh_unique (T : Adv X V R) (i j : Nat) (o : X → V) (x : X) (hi : T.fresh i o = some x) (hj : T.fresh j o = some x) : i = j := by
  rw [fresh_eq_some] at hi hj
  by_contra hne
  rcases Nat.lt_or_gt_of_ne hne with h | h
  · exact hj.2 (List.mem_iff_getElem?.2 ⟨i, by rw [List.getElem?_take_of_lt h, hi.1]⟩)
  · exact hi.2 (List.mem_iff_getElem?.2 ⟨j, by rw [List.getElem?_take_of_lt h, hj.1]⟩)

theorem fresh_exists (T : Adv X V R) (o : X → V) (x : X) (h : x ∈ T.queries o) : ∃ i < (T.queries o).length, T.fresh i o = some x := by
  refine ⟨(T.queries o).idxOf x, List.idxOf_lt_length_of_mem h, ?_⟩
  rw [fresh_eq_some]
  exact ⟨List.getElem?_idxOf h, fun hm => lt_irrefl _ ((List.mem_take_iff_idxOf_lt h).1 hm)⟩

end Adv

/-- Averages can be exchanged with averages over finite types. -/
theorem IsAvg.swap {ι α : Type} [Fintype α] {A : (ι → ℝ) → ℝ} (hA : IsAvg A) (f : ι → α → ℝ) :
    A (fun i => avg (f i)) = avg fun a => A fun i => f i a := by
  classical
  have sums : ∀ s : Finset α, A (fun i => ∑ a ∈ s, f i a) = ∑ a ∈ s, A fun i => f i a := by
    intro s
    induction s using Finset.induction_on with
    | empty => simpa using hA.const 0
    | insert a s h ih =>
      simp only [sum_insert h]
      rw [hA.add, ih]
  unfold avg
  simp only [div_eq_inv_mul]
  rw [hA.smul, sums]

section forking

variable [DecidableEq X] [Fintype X] [Fintype V] [DecidableEq V] [Nonempty V]

/-- Setting the value at a point that depends on the other values only changes nothing on average. -/
theorem avg_update (p : (X → V) → Option X) (hp : ∀ o x c, p o = some x → p (Function.update o x c) = some x) (f : (X → V) → ℝ) :
    avg f = avg fun o => avg fun c => f (match p o with | some x => Function.update o x c | none => o) := by
  unfold avg
  rw [← Finset.sum_div, div_div, div_eq_div_iff (by positivity) (by positivity)]
  have key : ∑ o : X → V, ∑ c : V, f (match p o with | some x => Function.update o x c | none => o) = ∑ o : X → V, ∑ _c : V, f o := by
    rw [← Fintype.sum_prod_type', ← Fintype.sum_prod_type']
    let m : (X → V) × V → (X → V) × V := fun a => match p a.1 with | some x => (Function.update a.1 x a.2, a.1 x) | none => a
    have hm : Function.Involutive m := by
      rintro ⟨o, c⟩
      cases h : p o with
      | none => simp only [m, h]
      | some x =>
        have := hp o x c h
        simp only [m, h, this]
        simp
    refine (Fintype.sum_bijective m hm.bijective _ _ fun a => ?_)
    obtain ⟨o, c⟩ := a
    simp only [m]
    cases h : p o <;> rfl
  rw [key]
  simp only [sum_const, card_univ, nsmul_eq_mul]
  rw [← Finset.mul_sum]
  ring

open Classical in
/-- 1 if the run with the oracle `o` ends with a forgery at some point and the run with the value at this point changed to another one, `c`, ends with a forgery
at the same point. -/
noncomputable def twice (F : (X → V) → Option X) (o : X → V) (c : V) : ℝ :=
  if ∃ x, F o = some x ∧ F (Function.update o x c) = some x ∧ c ≠ o x then 1 else 0

/-- The forking lemma: `F` is the point at which a run ends with a forgery, a point that was asked. -/
theorem forking (T : Adv X V R) (n : Nat) (hn : 0 < n) (hT : T.Within n) (F : (X → V) → Option X) (hF : ∀ o x, F o = some x → x ∈ T.queries o) :
    (avg fun o => if (F o).isSome then (1 : ℝ) else 0) ^ 2 / n - (avg fun o => if (F o).isSome then (1 : ℝ) else 0) / Fintype.card V ≤
      avg fun o => avg fun c => twice F o c := by
  have hVo : IsAvg (avg (α := X → V)) := isAvg_avg
  have hV : IsAvg (avg (α := V)) := isAvg_avg
  have hN : (0 : ℝ) < Fintype.card V := by exact_mod_cast Fintype.card_pos
  let f : Nat → (X → V) → ℝ := fun i o => if (F o).isSome ∧ T.fresh i o = F o then 1 else 0
  let u : Nat → (X → V) → V → (X → V) := fun i o c => match T.fresh i o with | some x => Function.update o x c | none => o
  let g : Nat → (X → V) → ℝ := fun i o => avg fun c => f i (u i o c)
  have hp : ∀ i o x c, T.fresh i o = some x → T.fresh i (Function.update o x c) = some x := fun i o x c h => T.fresh_update i o x c h
  have uu : ∀ i o c c', u i (u i o c) c' = u i o c' := by
    intro i o c c'
    cases h : T.fresh i o with
    | none => simp only [u, h]
    | some x => simp only [u, h, hp i o x c h, Function.update_idem]
  have gu : ∀ i o c, g i (u i o c) = g i o := by
    intro i o c
    simp only [g, uu]
  have ef : ∀ i, avg (f i) = avg (g i) := fun i => avg_update (T.fresh i) (hp i) (f i)
  have efg : ∀ i, avg (fun o => f i o * g i o) = avg fun o => g i o ^ 2 := by
    intro i
    rw [avg_update (T.fresh i) (hp i)]
    refine congrArg avg (funext fun o => ?_)
    have : (fun c => f i (u i o c) * g i (u i o c)) = fun c => g i o * f i (u i o c) := by funext c; rw [gu, mul_comm]
    show avg (fun c => f i (u i o c) * g i (u i o c)) = _
    rw [this, hV.smul]
    simp only [g, sq]
  have sumf : ∀ o, ∑ i ∈ range n, f i o = if (F o).isSome then (1 : ℝ) else 0 := by
    intro o
    cases h : F o with
    | none => simp [f, h]
    | some x =>
      obtain ⟨i, hi, hx⟩ := T.fresh_exists o x (hF o x h)
      have hi' : i < n := lt_of_lt_of_le hi (T.queries_length n hT o)
      rw [sum_eq_single i]
      · simp [f, h, hx]
      · intro j _ hj
        simp only [f, h]
        rw [if_neg]
        rintro ⟨-, h'⟩
        exact hj (T.fresh_unique j i o x h' hx)
      · intro h'; exact absurd (mem_range.2 hi') h'
  have avgsum : ∀ φ : Nat → (X → V) → ℝ, avg (fun o => ∑ i ∈ range n, φ i o) = ∑ i ∈ range n, avg (φ i) := by
    intro φ
    unfold avg
    rw [sum_comm, Finset.sum_div]
  have nt : ∀ o c, 0 ≤ twice F o c := by
    intro o c
    unfold twice
    split <;> norm_num
  have step : ∀ o c, (∑ i ∈ range n, (f i o * f i (u i o c) + -1 * (f i o * if (T.fresh i o).map o = some c then 1 else 0))) ≤ twice F o c := by
    intro o c
    cases h : F o with
    | none =>
      refine le_trans (le_of_eq (sum_eq_zero fun i _ => ?_)) (nt o c)
      simp [f, h]
    | some x =>
      obtain ⟨i, hi, hx⟩ := T.fresh_exists o x (hF o x h)
      have hi' : i < n := lt_of_lt_of_le hi (T.queries_length n hT o)
      rw [sum_eq_single i]
      · have h1 : f i o = 1 := by simp [f, h, hx]
        have hu : u i o c = Function.update o x c := by simp only [u, hx]
        rw [h1, hx, hu]
        by_cases hc : o x = c
        · simp only [Option.map_some, hc, if_true]
          have : f i (Function.update o x c) ≤ 1 := by simp only [f]; split <;> norm_num
          linarith [nt o c]
        · simp only [Option.map_some, Option.some.injEq, hc, if_false]
          by_cases h2 : (F (Function.update o x c)).isSome ∧ T.fresh i (Function.update o x c) = F (Function.update o x c)
          · have h3 : f i (Function.update o x c) = 1 := if_pos h2
            have h4 : twice F o c = 1 := by
              unfold twice
              rw [if_pos]
              refine ⟨x, h, ?_, fun e => hc e.symm⟩
              rw [← h2.2, hp i o x c hx]
            rw [h3, h4]
            norm_num
          · have h3 : f i (Function.update o x c) = 0 := if_neg h2
            rw [h3]
            linarith [nt o c]
      · intro j _ hj
        have : f j o = 0 := by
          simp only [f, h]
          rw [if_neg]
          rintro ⟨-, h'⟩
          exact hj (T.fresh_unique j i o x h' hx)
        rw [this]; ring
      · intro h'; exact absurd (mem_range.2 hi') h'
  have one : ∀ i o, avg (fun c => f i o * if (T.fresh i o).map o = some c then (1 : ℝ) else 0) ≤ f i o / Fintype.card V := by
    intro i o
    have f0 : 0 ≤ f i o := by simp only [f]; split <;> norm_num
    rw [hV.smul, div_eq_mul_one_div]
    refine mul_le_mul_of_nonneg_left ?_ f0
    unfold avg
    refine div_le_div_of_nonneg_right ?_ hN.le
    cases (T.fresh i o).map o with
    | none => simp
    | some v => simp
  have main : ∀ i, avg (f i) ^ 2 - avg (f i) / Fintype.card V ≤
      avg fun o => avg fun c => f i o * f i (u i o c) + -1 * (f i o * if (T.fresh i o).map o = some c then 1 else 0) := by
    intro i
    have e1 : (fun o => avg fun c => f i o * f i (u i o c) + -1 * (f i o * if (T.fresh i o).map o = some c then 1 else 0)) =
        fun o => f i o * g i o + -1 * avg fun c => (f i o * if (T.fresh i o).map o = some c then 1 else 0) := by
      funext o
      rw [hV.add, hV.smul, hV.smul]
    rw [e1, hVo.add, hVo.smul, efg]
    have j1 := hVo.sq_le (g i)
    rw [← ef] at j1
    have j2 := hVo.mono _ _ (one i)
    have j3 : avg (fun o => f i o / (Fintype.card V : ℝ)) = avg (f i) / Fintype.card V := by
      simp only [div_eq_inv_mul]
      rw [hVo.smul]
    rw [j3] at j2
    linarith
  have tot : avg (fun o => avg fun c => ∑ i ∈ range n, (f i o * f i (u i o c) + -1 * (f i o * if (T.fresh i o).map o = some c then 1 else 0))) =
      ∑ i ∈ range n, avg fun o => avg fun c => f i o * f i (u i o c) + -1 * (f i o * if (T.fresh i o).map o = some c then 1 else 0) := by
    rw [← avgsum]
    refine congrArg avg (funext fun o => ?_)
    unfold avg
    rw [sum_comm, Finset.sum_div]
  have fin : ∑ i ∈ range n, (avg (f i) ^ 2 - avg (f i) / Fintype.card V) ≤ avg fun o => avg fun c => twice F o c := by
    refine (sum_le_sum fun i _ => main i).trans ?_
    rw [← tot]
    exact hVo.mono _ _ fun o => hV.mono _ _ fun c => step o c
  have acc : (avg fun o => if (F o).isSome then (1 : ℝ) else 0) = ∑ i ∈ range n, avg (f i) := by
    rw [← avgsum]
    exact congrArg avg (funext fun o => (sumf o).symm)
  rw [acc]
  refine le_trans ?_ fin
  rw [sum_sub_distrib, Finset.sum_div]
  refine sub_le_sub_right ?_ _
  rw [div_le_iff₀ (by exact_mod_cast hn), mul_comm]
  have := sq_sum_le_card_mul_sum_sq (s := range n) (f := fun i => avg (f i))
  rwa [card_range] at this

end forking

end Kunlun.Fork
