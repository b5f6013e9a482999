import Mathlib.Algebra.Order.Chebyshev
import Mathlib.Algebra.BigOperators.Field
import Mathlib.Analysis.Complex.ExponentialBounds
import Mathlib.Data.Fintype.BigOperators
import Mathlib.Logic.Equiv.Fin.Basic
import Mathlib.Tactic.FieldSimp
import Mathlib.Tactic.Positivity
import Mathlib.Tactic.Linarith
import Mathlib.Tactic.NormNum
/-!
Counting for C121: balls thrown into bins, and how often `k` further balls fall into bins that are not empty.
-/

namespace Kunlun.BloomRate

open Finset

section counting

variable {ι : Type} [Fintype ι] [DecidableEq ι] {m : ℕ}

/-- The positions hit. -/
def im (B : ι → Fin m) : Finset (Fin m) := univ.image B

/-- Number of functions that hit every position of `S`. -/
def hits (ι : Type) [Fintype ι] [DecidableEq ι] {m : ℕ} (S : Finset (Fin m)) : ℕ := (univ.filter fun B : ι → Fin m => S ⊆ im B).card

/-- Number of functions that hit every position of `S` and not `a`. -/
def hitsAvoid (ι : Type) [Fintype ι] [DecidableEq ι] {m : ℕ} (a : Fin m) (S : Finset (Fin m)) : ℕ :=
  (univ.filter fun B : ι → Fin m => S ⊆ im B ∧ a ∉ im B).card

theorem avoid_card (a : Fin m) : (univ.filter fun B : ι → Fin m => a ∉ im B).card = (m - 1) ^ Fintype.card ι := by
  have : (univ.filter fun B : ι → Fin m => a ∉ im B) = Fintype.piFinset fun _ => univ.erase a := by
    ext B
    simp [im]
  rw [this, Fintype.card_piFinset, prod_const, card_univ, card_erase_of_mem (mem_univ a), card_univ, Fintype.card_fin]

theorem hits_split (a : Fin m) (S : Finset (Fin m)) : hits ι (insert a S) + hitsAvoid ι a S = hits ι S := by
  unfold hits hitsAvoid
  have h1 : (univ.filter fun B : ι → Fin m => insert a S ⊆ im B) = (univ.filter fun B : ι → Fin m => S ⊆ im B).filter fun B => a ∈ im B := by
    ext B
    simp [insert_subset_iff, and_comm]
  have h2 : (univ.filter fun B : ι → Fin m => S ⊆ im B ∧ a ∉ im B) = (univ.filter fun B : ι → Fin m => S ⊆ im B).filter fun B => ¬ a ∈ im B := by
    rw [filter_filter]
  rw [h1, h2]
  exact card_filter_add_card_filter_not _

/-- Throwing the balls that fell on `a` again makes it only easier to hit the others. -/
theorem hits_avoid (a : Fin m) (S : Finset (Fin m)) (ha : a ∉ S) :
    hits ι S * (m - 1) ^ Fintype.card ι ≤ hitsAvoid ι a S * m ^ Fintype.card ι := by
  have hT : m ^ Fintype.card ι = (univ : Finset (ι → Fin m)).card := by rw [card_univ, Fintype.card_fun, Fintype.card_fin]
  rw [← avoid_card (ι := ι) a, hT]
  unfold hits hitsAvoid
  rw [← card_product, ← card_product]
  refine card_le_card_of_injOn (fun p => (fun i => if p.1 i = a then p.2 i else p.1 i, fun i => if p.1 i = a then a else p.2 i)) ?_ ?_
  · rintro ⟨B, R⟩ h
    have h := mem_coe.1 h
    refine mem_coe.2 ?_
    rw [mem_product, mem_filter, mem_filter] at h
    rw [mem_product, mem_filter]
    have hR : ∀ i, R i ≠ a := fun i e => h.2.2 (mem_image.2 ⟨i, mem_univ _, e⟩)
    refine ⟨⟨mem_univ _, fun s hs => ?_, fun hi => ?_⟩, mem_univ _⟩
    · obtain ⟨i, _, hi⟩ := mem_image.1 (h.1.2 hs)
      refine mem_image.2 ⟨i, mem_univ _, ?_⟩
      have ne : B i ≠ a := fun e => ha (by change B i = s at hi; rw [← e, hi]; exact hs)
      simp only [ne, if_false]
      exact hi
    · obtain ⟨i, _, hi⟩ := mem_image.1 hi
      simp only at hi
      split at hi
      · exact hR i hi
      · contradiction
  · rintro ⟨B, R⟩ h ⟨B', R'⟩ h' e
    have h := mem_coe.1 h
    have h' := mem_coe.1 h'
    rw [mem_product, mem_filter, mem_filter] at h h'
    simp only [Prod.mk.injEq] at e
    have key : ∀ i, B i = B' i ∧ R i = R' i := by
      intro i
      have e1 := congrFun e.1 i
      have e2 := congrFun e.2 i
      have r : R i ≠ a := fun e => h.2.2 (mem_image.2 ⟨i, mem_univ _, e⟩)
      have r' : R' i ≠ a := fun e => h'.2.2 (mem_image.2 ⟨i, mem_univ _, e⟩)
      by_cases c : B i = a <;> by_cases c' : B' i = a <;> simp only [c, c', if_true, if_false] at e1 e2 ⊢
      · exact ⟨trivial, e1⟩
      · exact absurd e2.symm r'
      · exact absurd e2 r
      · exact ⟨e1, e2⟩
    rw [show B = B' from funext fun i => (key i).1, show R = R' from funext fun i => (key i).2]

/-- Chance that one given position is hit. -/
noncomputable def pHit (N m : ℕ) : ℝ := 1 - (1 - 1 / (m : ℝ)) ^ N

theorem pHit_bounds (N m : ℕ) (hm : 0 < m) : 0 ≤ pHit N m ∧ pHit N m ≤ 1 := by
  have hm' : (1 : ℝ) ≤ m := by exact_mod_cast hm
  have h1 : 0 ≤ 1 - 1 / (m : ℝ) := by rw [sub_nonneg, div_le_one (by linarith)]; exact hm'
  have h2 : 1 - 1 / (m : ℝ) ≤ 1 := by have : 0 ≤ 1 / (m : ℝ) := by positivity
                                      linarith
  unfold pHit
  exact ⟨by linarith [pow_le_one₀ (n := N) h1 h2], by linarith [pow_nonneg h1 N]⟩

theorem avoid_real (hm : 0 < m) (N : ℕ) : (((m - 1) ^ N : ℕ) : ℝ) = (1 - pHit N m) * (m : ℝ) ^ N := by
  have hm' : (m : ℝ) ≠ 0 := by exact_mod_cast hm.ne'
  unfold pHit
  rw [sub_sub_cancel, ← mul_pow, sub_mul, one_mul, div_mul_cancel₀ _ hm', Nat.cast_pow, Nat.cast_sub hm, Nat.cast_one]

/-- The positions hit are negatively correlated. -/
theorem hits_le (hm : 0 < m) (S : Finset (Fin m)) : (hits ι S : ℝ) ≤ pHit (Fintype.card ι) m ^ S.card * (m : ℝ) ^ Fintype.card ι := by
  induction S using Finset.induction_on with
  | empty =>
    unfold hits
    simp
  | insert a S ha ih =>
    rw [card_insert_of_notMem ha, pow_succ]
    have h1 : (hits ι (insert a S) : ℝ) + hitsAvoid ι a S = hits ι S := by exact_mod_cast hits_split a S
    have h2 : (hits ι S : ℝ) * ((m - 1) ^ Fintype.card ι : ℕ) ≤ hitsAvoid ι a S * (m : ℝ) ^ Fintype.card ι := by
      exact_mod_cast hits_avoid (ι := ι) a S ha
    rw [avoid_real hm, ← mul_assoc] at h2
    have hpos : (0 : ℝ) < (m : ℝ) ^ Fintype.card ι := by positivity
    have h3 := le_of_mul_le_mul_right h2 hpos
    have p0 := (pHit_bounds (Fintype.card ι) m hm).1
    calc (hits ι (insert a S) : ℝ) ≤ hits ι S * pHit (Fintype.card ι) m := by linarith
      _ ≤ _ := by
        have := mul_le_mul_of_nonneg_right ih p0
        linarith

/-- Average of `p ^ (number of different positions)` over `k` uniform positions. -/
theorem sum_pow_im (p : ℝ) (h0 : 0 ≤ p) (h1 : p ≤ 1) (k c : ℕ) (hk : k ≤ c) (hm : 0 < m) :
    ∑ Q : Fin k → Fin m, p ^ (im Q).card ≤ (m * p + c * (1 - p)) ^ k := by
  have hmp : 0 ≤ (m : ℝ) * p + c * (1 - p) := by
    have : 0 ≤ 1 - p := by linarith
    positivity
  induction k with
  | zero => simp [im]
  | succ k ih =>
    have e : ∑ Q : Fin (k + 1) → Fin m, p ^ (im Q).card = ∑ Q : Fin k → Fin m, ∑ a : Fin m, p ^ (insert a (im Q)).card := by
      rw [← (Fin.consEquiv fun _ => Fin m).sum_comp, Fintype.sum_prod_type_right]
      refine sum_congr rfl fun Q _ => sum_congr rfl fun a _ => ?_
      congr 2
      unfold im
      ext b
      simp [Fin.exists_fin_succ, Fin.consEquiv, eq_comm]
    rw [e, pow_succ]
    have step : ∀ Q : Fin k → Fin m, ∑ a : Fin m, p ^ (insert a (im Q)).card ≤ p ^ (im Q).card * (m * p + c * (1 - p)) := by
      intro Q
      have hd : (im Q).card ≤ k := by
        have := card_image_le (s := (univ : Finset (Fin k))) (f := Q)
        simpa [im] using this
      have e2 : ∀ a : Fin m, p ^ (insert a (im Q)).card = p ^ (im Q).card * (p + (1 - p) * if a ∈ im Q then 1 else 0) := by
        intro a
        by_cases h : a ∈ im Q
        · rw [insert_eq_of_mem h, if_pos h]
          ring
        · rw [card_insert_of_notMem h, if_neg h, pow_succ]
          ring
      rw [sum_congr rfl fun a _ => e2 a, ← mul_sum, sum_add_distrib, ← mul_sum, sum_boole, sum_const, card_univ, Fintype.card_fin, nsmul_eq_mul]
      refine mul_le_mul_of_nonneg_left ?_ (pow_nonneg h0 _)
      have : (((univ.filter fun a => a ∈ im Q).card : ℕ) : ℝ) ≤ c := by
        rw [filter_mem_eq_inter, univ_inter]
        exact_mod_cast hd.trans (by omega)
      have := mul_le_mul_of_nonneg_left this (by linarith : 0 ≤ 1 - p)
      linarith
    calc _ ≤ ∑ Q : Fin k → Fin m, p ^ (im Q).card * (m * p + c * (1 - p)) := sum_le_sum fun Q _ => step Q
      _ = (∑ Q : Fin k → Fin m, p ^ (im Q).card) * (m * p + c * (1 - p)) := by rw [sum_mul]
      _ ≤ _ := mul_le_mul_of_nonneg_right (ih (by omega)) hmp

/-- Pairs of a table and a query for which the query is answered yes. -/
def bad (ι : Type) [Fintype ι] [DecidableEq ι] (k m : ℕ) : ℕ :=
  (univ.filter fun p : (ι → Fin m) × (Fin k → Fin m) => ∀ i, p.2 i ∈ im p.1).card

theorem bad_upper (k : ℕ) (hm : 0 < m) :
    (bad ι k m : ℝ) ≤ (m * pHit (Fintype.card ι) m + k * (1 - pHit (Fintype.card ι) m)) ^ k * (m : ℝ) ^ Fintype.card ι := by
  obtain ⟨p0, p1⟩ := pHit_bounds (Fintype.card ι) m hm
  have e : (bad ι k m : ℝ) = ∑ Q : Fin k → Fin m, (hits ι (im Q) : ℝ) := by
    unfold bad hits
    simp only [card_filter, Nat.cast_sum]
    rw [Fintype.sum_prod_type_right]
    refine sum_congr rfl fun Q _ => sum_congr rfl fun B _ => ?_
    congr 2
    rw [eq_iff_iff]
    constructor
    · intro h b hb
      obtain ⟨i, _, rfl⟩ := mem_image.1 hb
      exact h i
    · intro h i
      exact h (mem_image_of_mem _ (mem_univ i))
  rw [e]
  calc _ ≤ ∑ Q : Fin k → Fin m, pHit (Fintype.card ι) m ^ (im Q).card * (m : ℝ) ^ Fintype.card ι := sum_le_sum fun Q _ => hits_le hm _
    _ = (∑ Q : Fin k → Fin m, pHit (Fintype.card ι) m ^ (im Q).card) * (m : ℝ) ^ Fintype.card ι := by rw [sum_mul]
    _ ≤ _ := mul_le_mul_of_nonneg_right (sum_pow_im _ p0 p1 k k le_rfl hm) (by positivity)

theorem bad_lower (k : ℕ) (hm : 0 < m) :
    (m * pHit (Fintype.card ι) m) ^ k * (m : ℝ) ^ Fintype.card ι ≤ bad ι k m := by
  have e : (bad ι k m : ℝ) = ∑ B : ι → Fin m, ((im B).card : ℝ) ^ k := by
    have : bad ι k m = ∑ B : ι → Fin m, (im B).card ^ k := by
      unfold bad
      rw [card_filter, Fintype.sum_prod_type]
      refine sum_congr rfl fun B _ => ?_
      rw [← card_filter]
      have : (univ.filter fun Q : Fin k → Fin m => ∀ i, Q i ∈ im B) = Fintype.piFinset fun _ => im B := by
        ext Q
        simp
      rw [this, Fintype.card_piFinset, prod_const, card_univ, Fintype.card_fin]
    rw [this]
    push_cast
    rfl
  have T : (0 : ℝ) < (m : ℝ) ^ Fintype.card ι := by positivity
  have s : ∑ B : ι → Fin m, ((im B).card : ℝ) = m * pHit (Fintype.card ι) m * (m : ℝ) ^ Fintype.card ι := by
    have h1 : ∀ B : ι → Fin m, ((im B).card : ℝ) = ∑ a : Fin m, if a ∈ im B then (1 : ℝ) else 0 := by
      intro B
      rw [sum_boole, filter_mem_eq_inter, univ_inter]
    rw [sum_congr rfl fun B _ => h1 B, sum_comm]
    have h2 : ∀ a : Fin m, (∑ B : ι → Fin m, if a ∈ im B then (1 : ℝ) else 0) = pHit (Fintype.card ι) m * (m : ℝ) ^ Fintype.card ι := by
      intro a
      rw [sum_boole]
      have h3 := card_filter_add_card_filter_not (s := (univ : Finset (ι → Fin m))) (fun B => a ∈ im B)
      rw [avoid_card, card_univ, Fintype.card_fun, Fintype.card_fin] at h3
      have h4 : ((univ.filter fun B : ι → Fin m => a ∈ im B).card : ℝ) + (((m - 1) ^ Fintype.card ι : ℕ) : ℝ) = (m : ℝ) ^ Fintype.card ι := by
        exact_mod_cast h3
      rw [avoid_real hm] at h4
      linarith
    rw [sum_congr rfl fun a _ => h2 a, sum_const, card_univ, Fintype.card_fin, nsmul_eq_mul]
    ring
  rw [e]
  cases k with
  | zero =>
    simp
  | succ k =>
    have := pow_sum_div_card_le_sum_pow (s := (univ : Finset (ι → Fin m))) (f := fun B => ((im B).card : ℝ)) (fun _ _ => by positivity) k
    refine le_trans (le_of_eq ?_) this
    rw [s, card_univ, Fintype.card_fun, Fintype.card_fin]
    push_cast
    rw [mul_pow _ ((m : ℝ) ^ Fintype.card ι), pow_succ ((m : ℝ) ^ Fintype.card ι), ← mul_assoc, mul_div_right_comm, mul_div_assoc, div_self (pow_pos T k).ne', mul_one]

end counting

end Kunlun.BloomRate
