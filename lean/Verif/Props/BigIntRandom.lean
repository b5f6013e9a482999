import Verif.Model.BigIntRandom
import Mathlib.Data.Nat.Totient
import Mathlib.Data.Fintype.Pi
import Mathlib.Data.Fintype.BigOperators
import Mathlib.Data.Nat.Prime.Basic
import Mathlib.Logic.Equiv.Fin.Basic
import Mathlib.Tactic.Linarith
/-!
Property C117: random numbers lie in the range announced, each with the same frequency; the tests for primes.
-/

namespace Kunlun.BigInt

/-- **C117** `GenRandomBigIntBetween(start, end)` for `start < end`: each number in `[start, end)` comes from exactly one number drawn. -/
theorem randBetween_uniform (start stop : Int) (h : start < stop) :
    (∀ d, 0 ≤ d → d < stop - start → start ≤ randBetween start stop d ∧ randBetween start stop d < stop) ∧
      ∀ r, start ≤ r → r < stop → ∃! d, (0 ≤ d ∧ d < stop - start) ∧ randBetween start stop d = r := by
  have e : ∀ d, randBetween start stop d = d + start := fun d => by rw [randBetween, randLess, if_pos (by omega)]
  refine ⟨fun d h0 h1 => by rw [e]; omega, fun r h0 h1 => ⟨r - start, ⟨by omega, by rw [e]; omega⟩, ?_⟩⟩
  rintro d ⟨_, hd⟩
  rw [e] at hd
  omega

/-- **C117 (violation)** For an empty range the result is `start`, which is outside; nothing is printed by the function's own check if
`start = end`. -/
theorem randBetween_empty (start stop : Int) (h : stop ≤ start) (d : Int) :
    randBetween start stop d = start ∧ ¬ randBetween start stop d < stop := by
  have : randBetween start stop d = start := by rw [randBetween, randLess, if_neg (by omega), zero_add]
  exact ⟨this, by omega⟩

/-- **C117** What `GenCoPrimeLessThan` returns is below `num` and has no common divisor with it. -/
theorem genCoPrime_sound (num : Int) (hn : 0 < num) : ∀ (draws : List Int) (r : Int), (∀ d ∈ draws, 0 ≤ d ∧ d < num) →
    genCoPrime num draws = some r → 0 ≤ r ∧ r < num ∧ Int.gcd r num = 1
  | [], r, _, h => by simp [genCoPrime] at h
  | d :: rest, r, hd, h => by
    unfold genCoPrime at h
    split at h
    · exact genCoPrime_sound num hn rest r (fun x hx => hd x (by simp [hx])) h
    · rename_i hg
      have e : randLess num d = d := by rw [randLess, if_pos hn]
      rw [e] at h hg
      obtain rfl := Option.some.inj h
      have h0 : Int.gcd d num ≠ 0 := fun h => by rw [Int.gcd_eq_zero_iff] at h; omega
      exact ⟨(hd d (by simp)).1, (hd d (by simp)).2, by omega⟩

/-- The result is the first number drawn that is coprime to `num`. -/
theorem genCoPrime_eq_find (num : Int) (hn : 0 < num) : ∀ draws : List Int,
    genCoPrime num draws = draws.find? fun d => Int.gcd d num = 1
  | [] => rfl
  | d :: rest => by
    have e : randLess num d = d := by rw [randLess, if_pos hn]
    have h0 : Int.gcd d num ≠ 0 := fun h => by rw [Int.gcd_eq_zero_iff] at h; omega
    rw [genCoPrime, e, List.find?_cons]
    by_cases h : Int.gcd d num = 1
    · simp [h]
    · rw [if_pos (by omega), genCoPrime_eq_find num hn rest]
      simp [h]

/-- `k` numbers drawn below `n`. -/
def drawList {n k : Nat} (f : Fin k → Fin n) : List Int := List.ofFn fun i => ((f i : Nat) : Int)

/-- **C117** `GenCoPrimeLessThan` is uniform: after any number of draws, all numbers coprime to `num` are returned by equally many sequences
of draws. -/
theorem genCoPrime_uniform (n k : Nat) (r s : Fin n) (hr : Nat.Coprime r n) (hs : Nat.Coprime s n) :
    (Finset.univ.filter fun f : Fin k → Fin n => genCoPrime n (drawList f) = some (((r : Nat)) : Int)).card
      = (Finset.univ.filter fun f : Fin k → Fin n => genCoPrime n (drawList f) = some (((s : Nat)) : Int)).card := by
  have hn : (0 : Int) < n := by have := r.2; omega
  have hgcd : ∀ x : Fin n, (Int.gcd ((Equiv.swap r s x : Fin n) : Nat) n = 1) ↔ (Int.gcd ((x : Fin n) : Nat) n = 1) := by
    intro x
    simp only [Int.gcd_natCast_natCast]
    by_cases h1 : x = r
    · subst h1; rw [Equiv.swap_apply_left]; exact ⟨fun _ => hr, fun _ => hs⟩
    · by_cases h2 : x = s
      · subst h2; rw [Equiv.swap_apply_right]; exact ⟨fun _ => hs, fun _ => hr⟩
      · rw [Equiv.swap_apply_of_ne_of_ne h1 h2]
  have find : ∀ (l : List (Fin n)) (t : Fin n),
      ((l.map (Equiv.swap r s)).map fun x : Fin n => ((x : Nat) : Int)).find? (fun d => Int.gcd d n = 1) = some ((((Equiv.swap r s t : Fin n) : Nat)) : Int) ↔
        (l.map fun x : Fin n => ((x : Nat) : Int)).find? (fun d => Int.gcd d n = 1) = some ((t : Nat) : Int) := by
    intro l t
    induction l with
    | nil => simp
    | cons a l ih =>
      simp only [List.map_cons, List.find?_cons]
      by_cases h : Int.gcd ((a : Fin n) : Nat) n = 1
      · have h' := (hgcd a).2 h
        simp only [h, h', decide_true, Option.some.injEq, Int.natCast_inj]
        constructor
        · intro e
          exact congrArg Fin.val ((Equiv.swap r s).injective (Fin.ext e))
        · intro e
          rw [Fin.ext e]
      · have h' : ¬ Int.gcd ((Equiv.swap r s a : Fin n) : Nat) n = 1 := fun e => h ((hgcd a).1 e)
        simp only [h, h', decide_false]
        exact ih
  refine Finset.card_bij (fun f _ i => Equiv.swap r s (f i)) ?_ ?_ ?_
  · intro f hf
    simp only [Finset.mem_filter, Finset.mem_univ, true_and] at hf ⊢
    rw [genCoPrime_eq_find _ hn] at hf ⊢
    have := (find (List.ofFn f) r).2 (by simpa [drawList, List.map_ofFn, Function.comp_def] using hf)
    rw [Equiv.swap_apply_left] at this
    simpa [drawList, List.map_ofFn, Function.comp_def] using this
  · intro f _ g _ h
    funext i
    exact (Equiv.swap r s).injective (congrFun h i)
  · intro f hf
    refine ⟨fun i => Equiv.swap r s (f i), ?_, ?_⟩
    · simp only [Finset.mem_filter, Finset.mem_univ, true_and] at hf ⊢
      rw [genCoPrime_eq_find _ hn] at hf ⊢
      have := (find (List.ofFn f) s).2 (by simpa [drawList, List.map_ofFn, Function.comp_def] using hf)
      rw [Equiv.swap_apply_right] at this
      simpa [drawList, List.map_ofFn, Function.comp_def] using this
    · funext i
      simp

/-- **C117** How often the loop runs: of the `num^k` sequences of `k` draws, `(num - φ(num))^k` do not end it. -/
theorem genCoPrime_ends (n k : Nat) (hn : 0 < n) :
    (Finset.univ.filter fun f : Fin k → Fin n => genCoPrime n (drawList f) = none).card = (n - n.totient) ^ k := by
  have hn' : (0 : Int) < n := by omega
  have h1 : (Finset.univ.filter fun f : Fin k → Fin n => genCoPrime n (drawList f) = none)
      = Fintype.piFinset fun _ : Fin k => Finset.univ.filter fun x : Fin n => ¬ Nat.Coprime n x := by
    ext f
    simp only [Finset.mem_filter, Finset.mem_univ, true_and, Fintype.mem_piFinset]
    rw [genCoPrime_eq_find _ hn', List.find?_eq_none]
    simp only [drawList, List.mem_ofFn, forall_exists_index, forall_apply_eq_imp_iff, decide_eq_true_eq]
    refine forall_congr' fun i => not_congr ?_
    rw [Int.gcd_natCast_natCast, Nat.coprime_comm]
  have h2 : (Finset.univ.filter fun x : Fin n => ¬ Nat.Coprime n x).card = n - n.totient := by
    have e : (Finset.univ.filter fun x : Fin n => Nat.Coprime n x).card = n.totient := by
      rw [Nat.totient]
      refine Finset.card_bij (fun x _ => (x : Nat)) ?_ (fun x _ y _ h => Fin.ext h) ?_
      · intro x hx
        simpa using hx
      · intro y hy
        simp only [Finset.mem_filter, Finset.mem_range] at hy
        exact ⟨⟨y, hy.1⟩, by simpa using hy.2, rfl⟩
    have := Finset.card_filter_add_card_filter_not (s := (Finset.univ : Finset (Fin n))) (fun x : Fin n => Nat.Coprime n x)
    rw [e, Finset.card_univ, Fintype.card_fin] at this
    omega
  rw [h1, Fintype.card_piFinset]
  simp [h2]

/-- **C117 (violation)** For `num` below `-1` the loop never ends, and for 0 the result is neither below `num` nor coprime to it. -/
theorem genCoPrime_not_positive : (∀ num : Int, num < -1 → ∀ draws, genCoPrime num draws = none) ∧
    ∀ d rest, genCoPrime 0 (d :: rest) = some 0 ∧ Int.gcd 0 0 ≠ 1 := by
  constructor
  · intro num hn draws
    induction draws with
    | nil => rfl
    | cons d rest ih =>
      have e : randLess num d = 0 := by rw [randLess, if_neg (by omega)]
      rw [genCoPrime, e, Int.gcd_zero_left, if_pos (by omega)]
      exact ih
  · intro d rest
    simp [genCoPrime, randLess]

/-- **C117** `Div` returns the exact quotient of a multiple; the advice is printed for multiples only, where `DivAndTruncate` gives the
same, and never when the quotient was truncated, the other way round than documented. -/
theorem div_exact (a b : Int) (hb : b ≠ 0) : (div (a * b) b).1 = a ∧ ((div a b).2 = true ↔ b ∣ a) := by
  unfold div
  simp only [hb, if_false]
  refine ⟨Int.mul_tdiv_cancel a hb, ?_⟩
  rw [decide_eq_true_eq]
  exact ⟨Int.dvd_of_tmod_eq_zero, Int.tmod_eq_zero_of_dvd⟩

/-- **C117** With a correct test for primes, `IsSafePrime` accepts exactly the primes `2p + 1` with `p` prime. -/
theorem isSafePrime_spec (isPrime : Int → Bool) (hp : ∀ a, isPrime a = true ↔ 0 ≤ a ∧ a.toNat.Prime) (a : Int) :
    isSafePrime isPrime a = true ↔ ∃ p : Nat, p.Prime ∧ (2 * p + 1).Prime ∧ a = 2 * p + 1 := by
  unfold isSafePrime div
  simp only [Bool.and_eq_true, hp, OfNat.ofNat_ne_zero, if_false]
  constructor
  · rintro ⟨⟨h0, h1⟩, h2, h3⟩
    obtain ⟨n, rfl⟩ := Int.eq_ofNat_of_zero_le h0
    rw [Int.toNat_natCast] at h1
    have hn1 := h1.one_lt
    have e : ((n : Int) - 1).tdiv 2 = (((n - 1) / 2 : Nat) : Int) := by
      rw [show ((n : Int) - 1) = ((n - 1 : Nat) : Int) by omega, Int.tdiv_eq_ediv_of_nonneg (by omega)]
      omega
    rw [e, Int.toNat_natCast] at h3
    rcases h1.eq_two_or_odd with rfl | ho
    · exact absurd h3 (by decide)
    · refine ⟨(n - 1) / 2, h3, ?_, by omega⟩
      rwa [show 2 * ((n - 1) / 2) + 1 = n by omega]
  · rintro ⟨p, h1, h2, rfl⟩
    have e : ((2 * (p : Int) + 1 - 1).tdiv 2) = (p : Int) := by
      rw [add_sub_cancel_right, Int.mul_tdiv_cancel_left _ (by decide)]
    rw [e]
    refine ⟨⟨by omega, ?_⟩, by omega, by simpa using h1⟩
    rwa [show (2 * (p : Int) + 1).toNat = 2 * p + 1 by omega]

/-- **C117 (part that holds)** The random vectors have the length asked for; their entries are in `[0, MAX)`, and in `[-MAX, MAX)` for the
second function. Missing: `-MAX` should not occur, and calls should give independent vectors. -/
theorem randVector_range_partial (rand : Nat → Nat → Nat) (t len : Nat) (max : Int) (hm : 0 < max) :
    (∃ v, randVector rand t len max = some v ∧ v.length = len ∧ ∀ x ∈ v, 0 ≤ x ∧ x < max) ∧
      (max < 2 ^ 62 → ∃ v, randVectorAbs rand t len max = some v ∧ v.length = len ∧ ∀ x ∈ v, -max ≤ x ∧ x < max) := by
  have h : ∀ m : Int, 0 < m → ∃ v, randVector rand t len m = some v ∧ v.length = len ∧ ∀ x ∈ v, 0 ≤ x ∧ x < m := by
    intro m hm
    refine ⟨_, by rw [randVector, if_neg (by omega)], by simp, ?_⟩
    intro x hx
    obtain ⟨i, _, rfl⟩ := List.mem_map.1 hx
    exact ⟨Int.tmod_nonneg _ (by omega), Int.tmod_lt_of_pos _ hm⟩
  refine ⟨h max hm, fun h2 => ?_⟩
  obtain ⟨v, e, hl, hv⟩ := h (2 * max) (by omega)
  refine ⟨v.map (· - max), by rw [randVectorAbs, if_neg (by omega), e]; rfl, by simpa using hl, ?_⟩
  intro x hx
  obtain ⟨y, hy, rfl⟩ := List.mem_map.1 hx
  have := hv y hy
  omega

/-- **C117 (violation)** Whenever `rand()` returns a multiple of `2*MAX` (0, for example), the entry is `-MAX`, which is not above `-MAX`. -/
theorem randVectorAbs_minus_max (rand : Nat → Nat → Nat) (t len i : Nat) (max : Int) (hm : 0 < max) (h2 : max < 2 ^ 62) (hi : i < len)
    (hr : 2 * max ∣ (rand t i : Int)) : ∃ v, randVectorAbs rand t len max = some v ∧ v[i]? = some (-max) := by
  refine ⟨_, by rw [randVectorAbs, if_neg (by omega), randVector, if_neg (by omega)]; rfl, ?_⟩
  simp [hi, Int.tmod_eq_zero_of_dvd hr]

/-- **C117 (violation)** Two calls in the same second give the same numbers, whatever was drawn between them; a shorter vector is a prefix of
a longer one. -/
theorem randVector_same_second (rand : Nat → Nat → Nat) (t len more : Nat) (max : Int) (hm : 0 < max) :
    ∃ v w, randVector rand t len max = some v ∧ randVector rand t (len + more) max = some w ∧ w.take len = v := by
  refine ⟨_, _, by rw [randVector, if_neg (by omega)], by rw [randVector, if_neg (by omega)], ?_⟩
  rw [← List.map_take, List.take_range, Nat.min_eq_left (by omega)]

/-- **C117 (violation)** `rand()` returns fewer than 31 bits, so larger numbers are never drawn. -/
theorem randVector_small (rand : Nat → Nat → Nat) (hr : ∀ t i, rand t i < 2 ^ 31) (t len : Nat) (max : Int) (hm : 2 ^ 31 ≤ max) :
    ∃ v, randVector rand t len max = some v ∧ ∀ x ∈ v, x < 2 ^ 31 := by
  refine ⟨_, by rw [randVector, if_neg (by omega)], ?_⟩
  intro x hx
  obtain ⟨i, _, rfl⟩ := List.mem_map.1 hx
  rw [Int.tmod_eq_of_lt (by omega) (by have := hr t i; omega)]
  exact_mod_cast hr t i

/-- Ranges, draws, `num = 12` with the coprime numbers 5 and 7, a test for primes, and a generator returning 0 meet the hypotheses. -/
example : randBetween 1 10 3 = 4 ∧ genCoPrime 12 [0, 4, 5, 7] = some 5 ∧ Nat.Coprime 5 12 ∧ Nat.Coprime 7 12 ∧ (12 : Nat) - Nat.totient 12 = 8 ∧
    (∀ a : Int, decide (0 ≤ a ∧ a.toNat.Prime) = true ↔ 0 ≤ a ∧ a.toNat.Prime) ∧ randVectorAbs (fun _ _ => 0) 0 1 5 = some [-5] := by
  refine ⟨by decide, by decide, by decide, by decide, by decide, fun a => by simp, by decide⟩

end Kunlun.BigInt
