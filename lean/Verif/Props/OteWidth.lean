import Verif.Model.OteOprf
import Mathlib.Data.Fintype.BigOperators
import Mathlib.Data.Fintype.Option
import Mathlib.Data.Nat.Choose.Sum
import Mathlib.Algebra.BigOperators.Field
import Mathlib.Data.Real.Basic
import Mathlib.Data.Nat.Cast.Order.Field
import Mathlib.Tactic.FieldSimp
import Mathlib.Tactic.Positivity
import Mathlib.Tactic.IntervalCases
import Mathlib.Algebra.BigOperators.Option
/-!
C120: the width of the matrix that `Setup` of the OT-extension OPRF chooses.

What the client of `ote_oprf.hpp` does not know about the value of the function at another input are the selection bits of the columns in which that input
falls on a place that none of the client's own inputs has ("free" columns). The places are taken as independent and uniform here (in the code: AES under
keys that both parties know, see C78).
-/

namespace Kunlun.OTEOPRF.Width

open Kunlun Finset

/-- For each column the places of the client's inputs (`some x`) and of one other input (`none`). -/
abbrev Places (w n m : ℕ) := Fin w → Option (Fin n) → Fin m

/-- The columns in which the other input has a place of its own. -/
def free {w n m : ℕ} (F : Places w n m) : Finset (Fin w) := univ.filter fun i => ∀ x, F i (some x) ≠ F i none

/-- Column `i` of `matrix_D` (ote_oprf.hpp:445-453): one where no input of the client falls. -/
def colD {w n m : ℕ} (F : Places w n m) (i : Fin w) (l : Fin m) : Bool := decide (∀ x, F i (some x) ≠ l)

/-- The bits that are hashed for the other input (ote_oprf.hpp:354-360): the server's column is the client's column `A`, or with selection bit one `A + D`. -/
def bitsOf {w n m : ℕ} (F : Places w n m) (A : Fin w → Fin m → Bool) (s : Fin w → Bool) : Fin w → Bool :=
  fun i => A i (F i none) ^^ (s i && colD F i (F i none))

/-- **C120** What the client knows leaves exactly `2 ^ (number of free columns)` candidates for the hashed bits, each from equally many selections. -/
theorem candidates {w n m : ℕ} (F : Places w n m) (A : Fin w → Fin m → Bool) :
    (univ.image (bitsOf F A)).card = 2 ^ (free F).card ∧
      ∀ b ∈ univ.image (bitsOf F A), (univ.filter fun s => bitsOf F A s = b).card = 2 ^ (w - (free F).card) := by
  classical
  have key : ∀ s t : Fin w → Bool, bitsOf F A s = bitsOf F A t ↔ ∀ i ∈ free F, s i = t i := by
    intro s t
    simp only [bitsOf, colD, funext_iff, free, mem_filter, mem_univ, true_and]
    refine ⟨fun h i hi => ?_, fun h i => ?_⟩
    · have := h i
      simpa [hi] using this
    · by_cases hi : ∀ x, F i (some x) ≠ F i none
      · rw [h i hi]
      · simp [hi]
  have fib : ∀ t : Fin w → Bool, (univ.filter fun s => bitsOf F A s = bitsOf F A t).card = 2 ^ (w - (free F).card) := by
    intro t
    have e : (univ.filter fun s => bitsOf F A s = bitsOf F A t) = Fintype.piFinset fun i => if i ∈ free F then {t i} else univ := by
      ext s
      simp only [mem_filter, mem_univ, true_and, key, Fintype.mem_piFinset]
      refine forall_congr' fun i => ?_
      by_cases hi : i ∈ free F <;> simp [hi]
    rw [e, Fintype.card_piFinset]
    have : ∀ i, (if i ∈ free F then ({t i} : Finset Bool) else univ).card = if i ∈ free F then 1 else 2 := fun i => by
      by_cases hi : i ∈ free F <;> simp [hi]
    rw [prod_congr rfl fun i _ => this i, prod_ite, prod_const_one, one_mul, prod_const]
    congr 1
    rw [filter_not, card_sdiff, card_univ, Fintype.card_fin]
    congr 1
    simp
  refine ⟨?_, ?_⟩
  · have h := card_eq_sum_card_image (bitsOf F A) (univ : Finset (Fin w → Bool))
    have h2 : ∑ b ∈ univ.image (bitsOf F A), (univ.filter fun s => bitsOf F A s = b).card = ∑ _b ∈ univ.image (bitsOf F A), 2 ^ (w - (free F).card) := by
      refine sum_congr rfl fun b hb => ?_
      obtain ⟨t, _, rfl⟩ := mem_image.1 hb
      exact fib t
    rw [h2, sum_const, smul_eq_mul, card_univ, Fintype.card_fun, Fintype.card_bool, Fintype.card_fin] at h
    have hle : (free F).card ≤ w := by simpa using card_le_univ (free F)
    have hp : 0 < 2 ^ (w - (free F).card) := by positivity
    refine Nat.eq_of_mul_eq_mul_right hp ?_
    rw [← h, ← pow_add]
    congr 1
    omega
  · intro b hb
    obtain ⟨t, _, rfl⟩ := mem_image.1 hb
    exact fib t

/-! ### Counting -/

/-- Families of elements of which fewer than `K` have a property. -/
theorem card_few {E : Type} [Fintype E] [DecidableEq E] (P : E → Prop) [DecidablePred P] (w K : ℕ) (hK : K ≤ w + 1) :
    (univ.filter fun F : Fin w → E => (univ.filter fun i => P (F i)).card < K).card =
      ∑ k ∈ range K, w.choose k * ((univ.filter P).card ^ k * (univ.filter fun e => ¬ P e).card ^ (w - k)) := by
  classical
  set a := (univ.filter P).card
  set b := (univ.filter fun e => ¬ P e).card
  have one : ∀ s : Finset (Fin w), (univ.filter fun F : Fin w → E => (univ.filter fun i => P (F i)) = s).card = a ^ s.card * b ^ (w - s.card) := by
    intro s
    have e : (univ.filter fun F : Fin w → E => (univ.filter fun i => P (F i)) = s) =
        Fintype.piFinset fun i => if i ∈ s then univ.filter P else univ.filter fun e => ¬ P e := by
      ext F
      simp only [mem_filter, mem_univ, true_and, Fintype.mem_piFinset, Finset.ext_iff]
      refine forall_congr' fun i => ?_
      by_cases hi : i ∈ s <;> simp [hi]
    rw [e, Fintype.card_piFinset]
    have : ∀ i, (if i ∈ s then univ.filter P else univ.filter fun e => ¬ P e).card = if i ∈ s then a else b := fun i => by
      by_cases hi : i ∈ s <;> simp [hi, a, b]
    rw [prod_congr rfl fun i _ => this i, prod_ite, prod_const, prod_const, filter_not, card_sdiff, card_univ, Fintype.card_fin]
    simp
  have split : (univ.filter fun F : Fin w → E => (univ.filter fun i => P (F i)).card < K) =
      ((univ : Finset (Fin w)).powerset.filter fun s => s.card < K).biUnion fun s => univ.filter fun F : Fin w → E => (univ.filter fun i => P (F i)) = s := by
    ext F
    simp
  rw [split, card_biUnion]
  · rw [sum_congr rfl fun s _ => one s, sum_filter]
    have := sum_powerset_apply_card (fun k => if k < K then a ^ k * b ^ (w - k) else 0) (x := (univ : Finset (Fin w)))
    rw [this, card_univ, Fintype.card_fin]
    simp only [smul_eq_mul, mul_ite, mul_zero]
    rw [← sum_filter]
    refine sum_congr ?_ fun _ _ => rfl
    ext k
    simp only [mem_filter, mem_range]
    omega
  · intro s _ t _ hst
    refine disjoint_left.2 fun F hF hF' => hst ?_
    rw [← (mem_filter.1 hF).2, ← (mem_filter.1 hF').2]

/-- Places of `n` inputs and one more that has a place of its own. -/
theorem card_own (n m : ℕ) : (univ.filter fun e : Option (Fin n) → Fin m => ∀ x, e (some x) ≠ e none).card = m * (m - 1) ^ n := by
  classical
  have e : (univ.filter fun e : Option (Fin n) → Fin m => ∀ x, e (some x) ≠ e none) =
      (univ : Finset (Fin m)).biUnion fun c => Fintype.piFinset fun o : Option (Fin n) => o.elim {c} fun _ => univ.erase c := by
    ext e
    simp only [mem_filter, mem_univ, true_and, mem_biUnion, Fintype.mem_piFinset, Option.forall, Option.elim, mem_singleton, mem_erase, and_true]
    constructor
    · intro h
      exact ⟨e none, rfl, h⟩
    · rintro ⟨c, rfl, h⟩
      exact h
  rw [e, card_biUnion]
  · have : ∀ c ∈ (univ : Finset (Fin m)), (Fintype.piFinset fun o : Option (Fin n) => o.elim {c} fun _ => univ.erase c).card = (m - 1) ^ n := by
      intro c _
      rw [Fintype.card_piFinset, Fintype.prod_option]
      simp
    rw [sum_congr rfl this, sum_const, card_univ, Fintype.card_fin, smul_eq_mul]
  · intro c _ d _ hcd
    refine disjoint_left.2 fun e he he' => hcd ?_
    have h1 := Fintype.mem_piFinset.1 he none
    have h2 := Fintype.mem_piFinset.1 he' none
    simp only [Option.elim, mem_singleton] at h1 h2
    rw [← h1, h2]

/-- The share of all choices of places that leave the other input fewer than `K` free columns. -/
noncomputable def weakShare (w n m K : ℕ) : ℝ := ((univ.filter fun F : Places w n m => (free F).card < K).card : ℝ) / Fintype.card (Places w n m)

/-- It is the lower tail of a binomial distribution. -/
theorem weakShare_eq (w n m K : ℕ) (hm : 0 < m) (hK : K ≤ w + 1) :
    weakShare w n m K = ∑ k ∈ range K, (w.choose k : ℝ) * (((1 - 1 / m) ^ n) ^ k * (1 - (1 - 1 / m) ^ n) ^ (w - k)) := by
  classical
  have m0 : (m : ℝ) ≠ 0 := by positivity
  have hcard := card_few (fun e : Option (Fin n) → Fin m => ∀ x, e (some x) ≠ e none) w K hK
  have hE : Fintype.card (Option (Fin n) → Fin m) = m ^ (n + 1) := by
    rw [Fintype.card_fun, Fintype.card_fin, Fintype.card_option, Fintype.card_fin]
  have hle : m * (m - 1) ^ n ≤ m ^ (n + 1) := by
    rw [pow_succ, mul_comm]
    exact Nat.mul_le_mul_right _ (Nat.pow_le_pow_left (Nat.sub_le _ _) n)
  have hb : (univ.filter fun e : Option (Fin n) → Fin m => ¬ ∀ x, e (some x) ≠ e none).card = m ^ (n + 1) - m * (m - 1) ^ n := by
    rw [filter_not, card_sdiff, inter_univ, card_own, card_univ, hE]
  rw [card_own, hb] at hcard
  have hfree : (univ.filter fun F : Places w n m => (free F).card < K).card =
      (univ.filter fun F : Fin w → Option (Fin n) → Fin m => (univ.filter fun i => ∀ x, F i (some x) ≠ F i none).card < K).card := rfl
  have ht : Fintype.card (Places w n m) = (m ^ (n + 1)) ^ w := by
    rw [Fintype.card_fun, hE, Fintype.card_fin]
  unfold weakShare
  rw [hfree, hcard, ht, Nat.cast_sum, sum_div]
  refine sum_congr rfl fun k hk => ?_
  have hkw : k ≤ w := by have := mem_range.1 hk; omega
  have pe : ((m : ℝ) * ((m - 1 : ℕ) : ℝ) ^ n) = m ^ (n + 1) * (1 - 1 / m) ^ n := by
    rw [Nat.cast_sub (by omega), Nat.cast_one, show (1 : ℝ) - 1 / m = (m - 1) / m by field_simp, div_pow, pow_succ]
    field_simp
  push_cast [Nat.cast_sub hle]
  rw [pe, show (m : ℝ) ^ (n + 1) - m ^ (n + 1) * (1 - 1 / m) ^ n = m ^ (n + 1) * (1 - (1 - 1 / m) ^ n) by ring, mul_pow, mul_pow]
  have hs : ((m : ℝ) ^ (n + 1)) ^ w = (m ^ (n + 1)) ^ k * (m ^ (n + 1)) ^ (w - k) := by rw [← pow_add]; congr 1; omega
  rw [hs]
  have h1 : ((m : ℝ) ^ (n + 1)) ^ k ≠ 0 := by positivity
  have h2 : ((m : ℝ) ^ (n + 1)) ^ (w - k) ≠ 0 := by positivity
  rw [div_eq_iff (mul_ne_zero h1 h2)]
  ring

/-! ### Numbers -/

/-- Bounds for the powers `x^(2^j)`, in units of `2^-S`. -/
def squares (S : ℕ) : ℕ → ℕ × ℕ → ℕ × ℕ
  | 0, p => p
  | j + 1, p => squares S j (p.1 * p.1 / 2 ^ S, p.2 * p.2 / 2 ^ S + 1)

theorem squares_spec (S j : ℕ) (lo hi : ℕ) (x : ℝ) (hx : 0 ≤ x) (h1 : (lo : ℝ) ≤ x * 2 ^ S) (h2 : x * 2 ^ S ≤ hi) :
    ((squares S j (lo, hi)).1 : ℝ) ≤ x ^ (2 ^ j) * 2 ^ S ∧ x ^ (2 ^ j) * 2 ^ S ≤ ((squares S j (lo, hi)).2 : ℝ) := by
  induction j generalizing lo hi x with
  | zero => simpa [squares] using ⟨h1, h2⟩
  | succ j ih =>
    have hS : (0 : ℝ) < 2 ^ S := by positivity
    have a : ((lo * lo / 2 ^ S : ℕ) : ℝ) ≤ x ^ 2 * 2 ^ S := by
      refine (Nat.cast_div_le (α := ℝ)).trans ?_
      push_cast
      rw [div_le_iff₀ hS]
      calc (lo : ℝ) * lo ≤ (x * 2 ^ S) * (x * 2 ^ S) := mul_self_le_mul_self (Nat.cast_nonneg _) h1
        _ = _ := by ring
    have b : x ^ 2 * 2 ^ S ≤ ((hi * hi / 2 ^ S + 1 : ℕ) : ℝ) := by
      have h3 : (x * 2 ^ S) * (x * 2 ^ S) ≤ (hi : ℝ) * hi := mul_self_le_mul_self (by positivity) h2
      have h4 : hi * hi < (hi * hi / 2 ^ S + 1) * 2 ^ S := by
        have := Nat.lt_mul_div_succ (hi * hi) (show 0 < 2 ^ S by positivity)
        exact this.trans_eq (Nat.mul_comm _ _)
      have h5 : (hi : ℝ) * hi ≤ ((hi * hi / 2 ^ S + 1 : ℕ) : ℝ) * 2 ^ S := by exact_mod_cast h4.le
      have h6 : (x ^ 2 * 2 ^ S) * 2 ^ S ≤ ((hi * hi / 2 ^ S + 1 : ℕ) : ℝ) * 2 ^ S := by
        calc (x ^ 2 * 2 ^ S) * 2 ^ S = (x * 2 ^ S) * (x * 2 ^ S) := by ring
          _ ≤ _ := h3.trans h5
      exact le_of_mul_le_mul_right h6 hS
    have := ih (lo * lo / 2 ^ S) (hi * hi / 2 ^ S + 1) (x ^ 2) (by positivity) a b
    rw [← pow_mul, ← pow_succ'] at this
    exact this

/-- Binomial coefficient and partial sum. -/
def tail (w u c : ℕ) : ℕ → ℕ × ℕ
  | 0 => (1, 0)
  | k + 1 => ((tail w u c k).1 * (w - k) / (k + 1), (tail w u c k).2 + (tail w u c k).1 * (u ^ k * c ^ (w - k)))

theorem tail_spec (w u c k : ℕ) : tail w u c k = (w.choose k, ∑ j ∈ range k, w.choose j * (u ^ j * c ^ (w - j))) := by
  induction k with
  | zero => simp [tail]
  | succ k ih =>
    rw [tail, ih, sum_range_succ, Prod.mk.injEq]
    refine ⟨?_, rfl⟩
    show w.choose k * (w - k) / (k + 1) = w.choose (k + 1)
    rw [← Nat.choose_succ_right_eq, Nat.mul_div_cancel _ (Nat.succ_pos k)]

/-- Bounds for `(1 - 2^-l)^(2^l)`. -/
def own (l : ℕ) : ℕ × ℕ := squares 80 l (2 ^ 80 - 2 ^ (80 - l), 2 ^ 80 - 2 ^ (80 - l))

theorem own_spec (l : ℕ) (hl : l ≤ 80) : ((own l).1 : ℝ) ≤ (1 - 1 / ((2 ^ l : ℕ) : ℝ)) ^ (2 ^ l) * 2 ^ 80 ∧
    (1 - 1 / ((2 ^ l : ℕ) : ℝ)) ^ (2 ^ l) * 2 ^ 80 ≤ ((own l).2 : ℝ) := by
  have e : ((2 ^ 80 - 2 ^ (80 - l) : ℕ) : ℝ) = (1 - 1 / ((2 ^ l : ℕ) : ℝ)) * 2 ^ 80 := by
    rw [Nat.cast_sub (Nat.pow_le_pow_right (by decide) (by omega))]
    have : (2 : ℝ) ^ 80 = 2 ^ l * 2 ^ (80 - l) := by rw [← pow_add]; congr 1; omega
    rw [Nat.cast_pow, Nat.cast_pow, Nat.cast_pow, Nat.cast_ofNat, this, sub_mul, one_mul, one_div, inv_mul_cancel_left₀ (by positivity)]
  have h0 : (0 : ℝ) ≤ 1 - 1 / ((2 ^ l : ℕ) : ℝ) := by
    have : (1 : ℝ) ≤ ((2 ^ l : ℕ) : ℝ) := by exact_mod_cast Nat.one_le_two_pow
    have h1 : 1 / ((2 ^ l : ℕ) : ℝ) ≤ 1 := by rw [div_le_one (by linarith)]; exact this
    linarith
  exact squares_spec 80 l _ _ _ h0 e.le e.ge

theorem good_sizes : ∀ l < 25, 5 ≤ l → (own l).1 ≤ 2 ^ 80 ∧ (tail (widthFor l) (own l).2 (2 ^ 80 - (own l).1) 128).2 * 2 ^ (l + 40) ≤ 2 ^ (80 * widthFor l) := by
  decide +kernel

theorem bad_sizes : ∀ l < 31, l < 5 ∨ 25 ≤ l → (own l).2 ≤ 2 ^ 80 ∧ 2 ^ (80 * widthFor l) < (tail (widthFor l) (own l).1 (2 ^ 80 - (own l).2) 128).2 * 2 ^ (l + 40) := by
  decide +kernel

theorem width_ge (l : ℕ) : 128 ≤ widthFor l + 1 := by unfold widthFor; split_ifs <;> decide

/-- A sum of this kind between sums of natural numbers. -/
theorem sum_bounds (w S K lo hi : ℕ) (hK : K ≤ w + 1) (p : ℝ) (p0 : 0 ≤ p) (p1 : p ≤ 1) (h1 : (lo : ℝ) ≤ p * 2 ^ S) (h2 : p * 2 ^ S ≤ hi) :
    (lo ≤ 2 ^ S → (∑ k ∈ range K, (w.choose k : ℝ) * (p ^ k * (1 - p) ^ (w - k))) * 2 ^ (S * w) ≤ ((tail w hi (2 ^ S - lo) K).2 : ℝ)) ∧
    (hi ≤ 2 ^ S → ((tail w lo (2 ^ S - hi) K).2 : ℝ) ≤ (∑ k ∈ range K, (w.choose k : ℝ) * (p ^ k * (1 - p) ^ (w - k))) * 2 ^ (S * w)) := by
  have hw : ∀ k ∈ range K, ∀ x y : ℝ, (w.choose k : ℝ) * (x ^ k * y ^ (w - k)) * 2 ^ (S * w) = w.choose k * ((x * 2 ^ S) ^ k * (y * 2 ^ S) ^ (w - k)) := by
    intro k hk x y
    have hkw : k ≤ w := by have := mem_range.1 hk; omega
    have e : (2 : ℝ) ^ (S * w) = (2 ^ S) ^ k * (2 ^ S) ^ (w - k) := by rw [← pow_add, ← pow_mul]; congr 2; omega
    rw [e, mul_pow, mul_pow]
    ring
  have hS : (0 : ℝ) < 2 ^ S := by positivity
  constructor
  · intro hlo
    rw [tail_spec, sum_mul, Nat.cast_sum]
    refine sum_le_sum fun k hk => ?_
    rw [hw k hk]
    push_cast [Nat.cast_sub hlo]
    refine mul_le_mul_of_nonneg_left (mul_le_mul (pow_le_pow_left₀ (by positivity) h2 _) (pow_le_pow_left₀ ?_ ?_ _) (pow_nonneg ?_ _) (by positivity)) (by positivity)
    · exact mul_nonneg (by linarith) hS.le
    · linarith
    · exact mul_nonneg (by linarith) hS.le
  · intro hhi
    rw [tail_spec, sum_mul, Nat.cast_sum]
    refine sum_le_sum fun k hk => ?_
    rw [hw k hk]
    have h3 : (hi : ℝ) ≤ 2 ^ S := by exact_mod_cast hhi
    push_cast [Nat.cast_sub hhi]
    refine mul_le_mul_of_nonneg_left (mul_le_mul (pow_le_pow_left₀ (by positivity) h1 _) (pow_le_pow_left₀ ?_ ?_ _) (pow_nonneg ?_ _) (by positivity)) (by positivity)
    · linarith
    · linarith
    · linarith

theorem own_prob (l : ℕ) : (0 : ℝ) ≤ (1 - 1 / ((2 ^ l : ℕ) : ℝ)) ^ (2 ^ l) ∧ (1 - 1 / ((2 ^ l : ℕ) : ℝ)) ^ (2 ^ l) ≤ 1 := by
  have : (1 : ℝ) ≤ ((2 ^ l : ℕ) : ℝ) := by exact_mod_cast Nat.one_le_two_pow
  have h1 : 1 / ((2 ^ l : ℕ) : ℝ) ≤ 1 := by rw [div_le_one (by linarith)]; exact this
  have h0 : 0 ≤ 1 / ((2 ^ l : ℕ) : ℝ) := by positivity
  exact ⟨pow_nonneg (by linarith) _, pow_le_one₀ (by linarith) (by linarith)⟩

/-- **C120** For sets of `2^5` to `2^24` inputs the width is enough: of as many other inputs, the expected number of those with fewer than 128 free columns
is at most `2^-40`. -/
theorem width_enough_partial (log : ℕ) (pp : PP) (h : setup log 40 = some pp) (h5 : 5 ≤ log) (h24 : log ≤ 24) :
    (pp.inputNum : ℝ) * weakShare pp.width pp.inputNum pp.height 128 ≤ 1 / 2 ^ 40 := by
  rw [setup, if_pos (by omega)] at h
  obtain rfl := Option.some.inj h
  obtain ⟨g1, g2⟩ := good_sizes log (by omega) h5
  obtain ⟨p0, p1⟩ := own_prob log
  obtain ⟨o1, o2⟩ := own_spec log (by omega)
  have s := (sum_bounds (widthFor log) 80 128 _ _ (width_ge log) _ p0 p1 o1 o2).1 g1
  show ((2 ^ log : ℕ) : ℝ) * weakShare (widthFor log) (2 ^ log) (2 ^ log) 128 ≤ 1 / 2 ^ 40
  rw [weakShare_eq _ _ _ _ (by positivity) (width_ge log)]
  set T := ∑ k ∈ range 128, ((widthFor log).choose k : ℝ) * (((1 - 1 / ((2 ^ log : ℕ) : ℝ)) ^ (2 ^ log)) ^ k * (1 - (1 - 1 / ((2 ^ log : ℕ) : ℝ)) ^ (2 ^ log)) ^ (widthFor log - k))
  have g2' : ((tail (widthFor log) (own log).2 (2 ^ 80 - (own log).1) 128).2 : ℝ) * 2 ^ (log + 40) ≤ 2 ^ (80 * widthFor log) := by exact_mod_cast g2
  have q : (0 : ℝ) < 2 ^ (80 * widthFor log) := by positivity
  have : T * 2 ^ (log + 40) * 2 ^ (80 * widthFor log) ≤ 1 * 2 ^ (80 * widthFor log) := by
    rw [one_mul]
    refine le_trans ?_ g2'
    rw [mul_right_comm]
    exact mul_le_mul_of_nonneg_right s (by positivity)
  have h1 := le_of_mul_le_mul_right this q
  rw [le_div_iff₀ (by positivity)]
  push_cast
  rw [pow_add] at h1
  linarith

/-- **C120 (violation)** For up to `2^4` inputs, and for `2^25` to `2^30`, it is not. -/
theorem width_not_enough (log : ℕ) (pp : PP) (h : setup log 40 = some pp) (hl : log < 5 ∨ 25 ≤ log) :
    1 / 2 ^ 40 < (pp.inputNum : ℝ) * weakShare pp.width pp.inputNum pp.height 128 := by
  have h30 : log ≤ 30 := by
    by_contra hc
    rw [setup, if_neg hc] at h
    cases h
  rw [setup, if_pos h30] at h
  obtain rfl := Option.some.inj h
  obtain ⟨g1, g2⟩ := bad_sizes log (by omega) hl
  obtain ⟨p0, p1⟩ := own_prob log
  obtain ⟨o1, o2⟩ := own_spec log (by omega)
  have s := (sum_bounds (widthFor log) 80 128 _ _ (width_ge log) _ p0 p1 o1 o2).2 g1
  show 1 / 2 ^ 40 < ((2 ^ log : ℕ) : ℝ) * weakShare (widthFor log) (2 ^ log) (2 ^ log) 128
  rw [weakShare_eq _ _ _ _ (by positivity) (width_ge log)]
  set T := ∑ k ∈ range 128, ((widthFor log).choose k : ℝ) * (((1 - 1 / ((2 ^ log : ℕ) : ℝ)) ^ (2 ^ log)) ^ k * (1 - (1 - 1 / ((2 ^ log : ℕ) : ℝ)) ^ (2 ^ log)) ^ (widthFor log - k))
  have g2' : (2 : ℝ) ^ (80 * widthFor log) < ((tail (widthFor log) (own log).1 (2 ^ 80 - (own log).2) 128).2 : ℝ) * 2 ^ (log + 40) := by exact_mod_cast g2
  have q : (0 : ℝ) < 2 ^ (80 * widthFor log) := by positivity
  have : 1 * 2 ^ (80 * widthFor log) < T * 2 ^ (log + 40) * 2 ^ (80 * widthFor log) := by
    rw [one_mul]
    refine lt_of_lt_of_le g2' ?_
    rw [mul_right_comm]
    exact mul_le_mul_of_nonneg_right s (by positivity)
  have h1 := lt_of_mul_lt_mul_right this q.le
  rw [div_lt_iff₀ (by positivity)]
  push_cast
  rw [pow_add] at h1
  linarith

/-! ### The length of the outputs -/

/-- Two places of a random vector agree in one of `card A` cases. -/
theorem card_agree {ι A : Type} [Fintype ι] [DecidableEq ι] [Fintype A] [DecidableEq A] (i j : ι) (hij : i ≠ j) :
    (univ.filter fun V : ι → A => V i = V j).card * Fintype.card A = Fintype.card (ι → A) := by
  classical
  have e : (univ.filter fun V : ι → A => V i = V j) =
      (univ : Finset A).biUnion fun a => Fintype.piFinset fun k => if k = i ∨ k = j then {a} else univ := by
    ext V
    simp only [mem_filter, mem_univ, true_and, mem_biUnion, Fintype.mem_piFinset]
    constructor
    · intro h
      refine ⟨V i, fun k => ?_⟩
      by_cases hk : k = i ∨ k = j
      · rw [if_pos hk, mem_singleton]
        rcases hk with rfl | rfl
        · rfl
        · exact h.symm
      · rw [if_neg hk]
        exact mem_univ _
    · rintro ⟨a, h⟩
      have h1 := h i
      have h2 := h j
      simp only [true_or, or_true, if_true, mem_singleton] at h1 h2
      rw [h1, h2]
  rw [e, card_biUnion]
  · have : ∀ a ∈ (univ : Finset A), (Fintype.piFinset fun k : ι => if k = i ∨ k = j then ({a} : Finset A) else univ).card = Fintype.card A ^ (Fintype.card ι - 2) := by
      intro a _
      rw [Fintype.card_piFinset]
      have c : ∀ k : ι, (if k = i ∨ k = j then ({a} : Finset A) else univ).card = if k = i ∨ k = j then 1 else Fintype.card A := fun k => by
        by_cases hk : k = i ∨ k = j <;> simp [hk]
      rw [prod_congr rfl fun k _ => c k, prod_ite, prod_const_one, one_mul, prod_const, filter_not, card_sdiff, card_univ]
      congr 2
      have : (univ.filter fun k => k = i ∨ k = j) = {i, j} := by ext; simp
      rw [this, inter_univ, card_pair hij]
    rw [sum_congr rfl this, sum_const, card_univ, smul_eq_mul, Fintype.card_fun]
    have two : 2 ≤ Fintype.card ι := by
      rw [← card_pair hij]
      exact card_le_univ _
    rw [← pow_succ', ← pow_succ]
    congr 1
    omega
  · intro a _ b _ hab
    refine disjoint_left.2 fun V hV hV' => hab ?_
    have h1 := Fintype.mem_piFinset.1 hV i
    have h2 := Fintype.mem_piFinset.1 hV' i
    simp only [true_or, if_true, mem_singleton] at h1 h2
    rw [← h1, h2]

/-- The average number of pairs of a value of the one party and a value of the other that agree by chance, for values of `bytes` bytes. -/
noncomputable def chancePairs (n q bytes : ℕ) : ℝ :=
  (∑ V : Fin n ⊕ Fin q → Fin (2 ^ (8 * bytes)), ((univ.filter fun p : Fin n × Fin q => V (.inl p.1) = V (.inr p.2)).card : ℝ)) /
    Fintype.card (Fin n ⊕ Fin q → Fin (2 ^ (8 * bytes)))

theorem chancePairs_eq (n q bytes : ℕ) : chancePairs n q bytes = (n * q : ℝ) / 2 ^ (8 * bytes) := by
  classical
  have hc : (0 : ℝ) < Fintype.card (Fin n ⊕ Fin q → Fin (2 ^ (8 * bytes))) := by
    rw [Fintype.card_fun, Fintype.card_fin]
    positivity
  unfold chancePairs
  have sw : ∑ V : Fin n ⊕ Fin q → Fin (2 ^ (8 * bytes)), ((univ.filter fun p : Fin n × Fin q => V (.inl p.1) = V (.inr p.2)).card : ℝ) =
      ∑ p : Fin n × Fin q, ((univ.filter fun V : Fin n ⊕ Fin q → Fin (2 ^ (8 * bytes)) => V (.inl p.1) = V (.inr p.2)).card : ℝ) := by
    simp only [card_filter, Nat.cast_sum]
    exact sum_comm
  have one : ∀ p : Fin n × Fin q, ((univ.filter fun V : Fin n ⊕ Fin q → Fin (2 ^ (8 * bytes)) => V (.inl p.1) = V (.inr p.2)).card : ℝ) =
      (Fintype.card (Fin n ⊕ Fin q → Fin (2 ^ (8 * bytes))) : ℝ) / 2 ^ (8 * bytes) := by
    intro p
    have := card_agree (A := Fin (2 ^ (8 * bytes))) (Sum.inl p.1 : Fin n ⊕ Fin q) (.inr p.2) (by simp)
    rw [eq_div_iff (by positivity)]
    have h2 : (Fintype.card (Fin (2 ^ (8 * bytes))) : ℝ) = 2 ^ (8 * bytes) := by rw [Fintype.card_fin]; push_cast; rfl
    rw [← h2]
    exact_mod_cast this
  rw [sw, sum_congr rfl fun p _ => one p, sum_const, card_univ, Fintype.card_prod, Fintype.card_fin, Fintype.card_fin, nsmul_eq_mul]
  push_cast
  field_simp

/-- **C120** `RANGE_SIZE` is enough for every security parameter: of the pairs of one output of each party, on average at most `2^-stat` agree by chance; and
one byte less is not enough. -/
theorem range_enough (log stat : ℕ) (pp : PP) (h : setup log stat = some pp) :
    chancePairs pp.inputNum pp.inputNum pp.range ≤ 1 / 2 ^ stat ∧ (0 < pp.range → 1 / 2 ^ stat < chancePairs pp.inputNum pp.inputNum (pp.range - 1)) := by
  have h30 : log ≤ 30 := by
    by_contra hc
    rw [setup, if_neg hc] at h
    cases h
  rw [setup, if_pos h30] at h
  obtain rfl := Option.some.inj h
  simp only [chancePairs_eq]
  push_cast
  constructor
  · rw [div_le_div_iff₀ (by positivity) (by positivity), one_mul, ← pow_add, ← pow_add]
    exact pow_le_pow_right₀ (by norm_num) (by omega)
  · intro h0
    rw [div_lt_div_iff₀ (by positivity) (by positivity), one_mul, ← pow_add, ← pow_add]
    exact pow_lt_pow_right₀ (by norm_num) (by omega)

/-- Parameters for 2^20 inputs. -/
example : ∃ pp, setup 20 40 = some pp ∧ (pp.inputNum : ℝ) * weakShare pp.width pp.inputNum pp.height 128 ≤ 1 / 2 ^ 40 :=
  ⟨_, rfl, width_enough_partial 20 _ rfl (by decide) (by decide)⟩

example : ∃ pp, setup 25 40 = some pp ∧ 1 / 2 ^ 40 < (pp.inputNum : ℝ) * weakShare pp.width pp.inputNum pp.height 128 :=
  ⟨_, rfl, width_not_enough 25 _ rfl (.inr (by decide))⟩

end Kunlun.OTEOPRF.Width
