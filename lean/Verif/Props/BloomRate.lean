import Verif.Props.Bloom
import Verif.Model.BloomCount
import Mathlib.Logic.Equiv.Prod
/-!
C121: the false positive rate of the Bloom filter with the size its constructor computes, and the false bits this gives in the cwPRF membership test.

The hash functions are taken as perfect: for every key the positions are independent and uniform (C110 shows what the hash functions of the code do instead).
-/

namespace Kunlun.Bloom

open Kunlun Finset

/-- Perfect hash functions on the keys in use: position `B i j` for function `i` and inserted key `j`, position `Q j i` for query `j`. -/
def idealHash {k n q m : ℕ} (salts : List UInt32) (xs ys : List Bytes) (B : Fin k × Fin n → Fin m) (Q : Fin q → Fin k → Fin m) (s : UInt32) (x : Bytes) :
    UInt32 :=
  if hs : salts.idxOf s < k then
    if hx : xs.idxOf x < n then UInt32.ofNat (B (⟨_, hs⟩, ⟨_, hx⟩))
    else if hy : ys.idxOf x < q then UInt32.ofNat (Q ⟨_, hy⟩ ⟨_, hs⟩) else 0
  else 0

/-- With hash functions `H`: fill the filter `f0` with `xs` one after the other; is `y` reported? -/
def reports (H : UInt32 → Bytes → UInt32) (f0 : Filter) (xs : List Bytes) (y : Bytes) : Bool :=
  ((insertAll H f0 xs).bind fun f => contain H f y) == some true

/-- Average number of keys of `ys` that are reported after `xs` was inserted. -/
noncomputable def falseReports (f0 : Filter) (xs ys : List Bytes) : ℝ :=
  (∑ B : Fin f0.hashNum × Fin xs.length → Fin f0.tableSize, ∑ Q : Fin ys.length → Fin f0.hashNum → Fin f0.tableSize,
    ((ys.filter (reports (idealHash f0.vecSalt xs ys B Q) f0 xs)).length : ℝ)) /
  (Fintype.card (Fin f0.hashNum × Fin xs.length → Fin f0.tableSize) * Fintype.card (Fin ys.length → Fin f0.hashNum → Fin f0.tableSize))

theorem new_fields {rnd : List UInt32} {maxElem n : Nat} {raw : UInt32} {f0 : Filter} (hnew : new rnd maxElem n raw = some f0) :
    f0.hashNum = n ∧ f0.tableSize = roundTableSize raw := by
  unfold new at hnew
  simp only [Option.bind_eq_bind, Option.bind_eq_some_iff, Option.pure_def, Option.some.injEq] at hnew
  obtain ⟨v, _, rfl⟩ := hnew
  exact ⟨rfl, rfl⟩

theorem insertAll_run (H : UInt32 → Bytes → UInt32) (f : Filter) (xs : List Bytes) {n : Nat} (hn : f.hashNum = n) :
    insertAll H f xs = run H f (xs.map fun x => .insert x (List.range n)) := by
  induction xs generalizing f with
  | nil => rfl
  | cons x xs ih =>
    unfold insertAll run at ih ⊢
    rw [List.map_cons, List.foldlM_cons, List.foldlM_cons]
    show (insert H f x).bind _ = (insertSched H f x (List.range n)).bind _
    unfold insert
    rw [hn]
    cases h : insertSched H f x (List.range n) with
    | none => rfl
    | some f' =>
      simp only [Option.bind_some]
      refine ih f' ?_
      unfold insertSched at h
      simp only [Option.bind_eq_bind, Option.bind_eq_some_iff, Option.pure_def, Option.some.injEq] at h
      obtain ⟨_, _, _, _, rfl⟩ := h
      exact hn

theorem live_inserts (xs : List Bytes) (s : List Nat) : live (xs.map fun x => .insert x s) = xs := by
  unfold live
  suffices ∀ ks, (xs.map fun x => Op.insert x s).foldl liveStep ks = ks ++ xs by simpa using this []
  induction xs with
  | nil => simp
  | cons x xs ih =>
    intro ks
    rw [List.map_cons, List.foldl_cons, ih]
    simp [liveStep]

/-- With perfect hash functions a key that was not inserted is reported exactly if each of its positions is a position of an inserted key. -/
theorem reports_iff {rnd : List UInt32} {maxElem n : Nat} {raw : UInt32} {f0 : Filter} (hnew : new rnd maxElem n raw = some f0)
    (hraw : 0 < raw.toNat ∧ raw.toNat ≤ 2 ^ 32 - 8) (xs ys : List Bytes) (hx : xs.Nodup) (hy : ys.Nodup) (hd : ∀ y ∈ ys, y ∉ xs)
    (B : Fin f0.hashNum × Fin xs.length → Fin f0.tableSize) (Q : Fin ys.length → Fin f0.hashNum → Fin f0.tableSize) (j : Fin ys.length) :
    reports (idealHash f0.vecSalt xs ys B Q) f0 xs ys[j] = true ↔ ∀ i, Q j i ∈ BloomRate.im B := by
  obtain ⟨hk, hm⟩ := new_fields hnew
  obtain ⟨hl, hs⟩ := bloom_salts_distinct hnew
  have hmlt : f0.tableSize < 2 ^ 32 := by
    rw [hm]
    exact UInt32.toNat_lt _
  have hn' : f0.vecSalt.length = f0.hashNum := by rw [hl, hk]
  obtain ⟨f, h1, h2⟩ := bloom_contain_iff (idealHash f0.vecSalt xs ys B Q) hnew hraw (xs.map fun x => .insert x (List.range n))
    (by intro op hop; obtain ⟨x, _, rfl⟩ := List.mem_map.1 hop; exact List.Perm.refl _)
  obtain ⟨g0, r0⟩ := new_good (H := idealHash f0.vecSalt xs ys B Q) hnew hraw.1 hraw.2
  obtain ⟨f', h1', g, e1, e2, e3, r⟩ := run_spec (xs.map fun x => .insert x (List.range n)) g0 r0
    (by intro op hop; obtain ⟨x, _, rfl⟩ := List.mem_map.1 hop; rw [hk])
  rw [h1] at h1'
  obtain rfl := Option.some.inj h1'
  have hfn : f.hashNum = n := by rw [e1, hk]
  obtain ⟨b, hb, hbi⟩ := h2 ys[j] ((List.range n).map (·, false)) (by simp [List.map_map, Function.comp_def])
  have hrep : reports (idealHash f0.vecSalt xs ys B Q) f0 xs ys[j] = b := by
    unfold reports
    rw [insertAll_run _ _ _ hk, h1, Option.bind_some]
    unfold contain
    rw [hfn, hb]
    cases b <;> rfl
  have val : ∀ (i : Fin f0.hashNum) (l : Fin xs.length), (idealHash f0.vecSalt xs ys B Q f0.vecSalt[i] xs[l]).toNat % f0.tableSize = B (i, l) := by
    intro i l
    have hi : f0.vecSalt.idxOf f0.vecSalt[i] = i := hs.idxOf_getElem i (by omega)
    have hl' : xs.idxOf xs[l] = l := hx.idxOf_getElem l l.2
    unfold idealHash
    simp only [hi, hl', i.2, l.2, dif_pos, Fin.eta]
    rw [UInt32.toNat_ofNat', Nat.mod_eq_of_lt (show (B (i, l) : ℕ) < 2 ^ 32 from (B (i, l)).2.trans hmlt), Nat.mod_eq_of_lt (B (i, l)).2]
  have valQ : ∀ i : Fin f0.hashNum, (idealHash f0.vecSalt xs ys B Q f0.vecSalt[i] ys[j]).toNat % f0.tableSize = Q j i := by
    intro i
    have hi : f0.vecSalt.idxOf f0.vecSalt[i] = i := hs.idxOf_getElem i (by omega)
    have hl' : ys.idxOf ys[j] = j := hy.idxOf_getElem j j.2
    have hno : ¬ xs.idxOf ys[j] < xs.length := by
      rw [List.idxOf_lt_length_iff]
      exact hd _ (List.getElem_mem _)
    unfold idealHash
    simp only [hi, hl', hno, i.2, j.2, dif_pos, Fin.eta, dif_neg, not_false_eq_true]
    rw [UInt32.toNat_ofNat', Nat.mod_eq_of_lt (show (Q j i : ℕ) < 2 ^ 32 from (Q j i).2.trans hmlt), Nat.mod_eq_of_lt (Q j i).2]
  rw [hrep, hbi, live_inserts]
  constructor
  · intro h i
    obtain ⟨x, hxm, s, hsm, e⟩ := h f0.vecSalt[i] (List.getElem_mem _)
    obtain ⟨l, hl1, rfl⟩ := List.getElem_of_mem hxm
    obtain ⟨i', hi1, rfl⟩ := List.getElem_of_mem hsm
    have v := val ⟨i', by omega⟩ ⟨l, hl1⟩
    simp only [Fin.getElem_fin] at v
    rw [valQ] at e
    refine mem_image.2 ⟨(⟨i', by omega⟩, ⟨l, hl1⟩), mem_univ _, Fin.ext ?_⟩
    rw [← v, e]
  · intro h s hsm
    obtain ⟨i, hi1, rfl⟩ := List.getElem_of_mem hsm
    obtain ⟨⟨i', l⟩, _, e⟩ := mem_image.1 (h ⟨i, by omega⟩)
    refine ⟨xs[l], List.getElem_mem _, f0.vecSalt[i'], List.getElem_mem _, ?_⟩
    rw [val i' l, e]
    exact (valQ ⟨i, by omega⟩).symm

/-- The average number is the number of queries times the share of placements in which one query is reported. -/
theorem falseReports_eq {rnd : List UInt32} {maxElem n : Nat} {raw : UInt32} {f0 : Filter} (hnew : new rnd maxElem n raw = some f0)
    (hraw : 0 < raw.toNat ∧ raw.toNat ≤ 2 ^ 32 - 8) (xs ys : List Bytes) (hx : xs.Nodup) (hy : ys.Nodup) (hd : ∀ y ∈ ys, y ∉ xs) :
    falseReports f0 xs ys = ys.length *
      ((BloomRate.bad (Fin f0.hashNum × Fin xs.length) f0.hashNum f0.tableSize : ℝ) / (f0.tableSize : ℝ) ^ (f0.hashNum * xs.length + f0.hashNum)) := by
  classical
  obtain ⟨hk, hm⟩ := new_fields hnew
  have hm0 : 0 < f0.tableSize := by
    rw [hm, roundTableSize_eq _ hraw.2]
    omega
  have len : ∀ (B : Fin f0.hashNum × Fin xs.length → Fin f0.tableSize) (Q : Fin ys.length → Fin f0.hashNum → Fin f0.tableSize),
      ((ys.filter (reports (idealHash f0.vecSalt xs ys B Q) f0 xs)).length : ℝ) =
        ∑ j : Fin ys.length, if ∀ i, Q j i ∈ BloomRate.im B then (1 : ℝ) else 0 := by
    intro B Q
    have e : ∀ p : Bytes → Bool, ((ys.filter p).length : ℝ) = ∑ j : Fin ys.length, if p ys[j] = true then (1 : ℝ) else 0 := by
      intro p
      rw [← List.countP_eq_length_filter]
      clear hd hy Q
      induction ys with
      | nil => simp
      | cons y ys ih =>
        rw [List.countP_cons]
        push_cast
        rw [ih]
        show _ = ∑ j : Fin (ys.length + 1), if p (y :: ys)[j] = true then (1 : ℝ) else 0
        rw [Fin.sum_univ_succ, add_comm]
        rfl
    rw [e]
    refine sum_congr rfl fun j _ => ?_
    congr 1
    rw [eq_iff_iff]
    exact reports_iff hnew hraw xs ys hx hy hd B Q j
  have inner : ∀ (B : Fin f0.hashNum × Fin xs.length → Fin f0.tableSize) (j : Fin ys.length),
      ∑ Q : Fin ys.length → Fin f0.hashNum → Fin f0.tableSize, (if ∀ i, Q j i ∈ BloomRate.im B then (1 : ℝ) else 0) =
        Fintype.card ({l // l ≠ j} → Fin f0.hashNum → Fin f0.tableSize) *
          ∑ P : Fin f0.hashNum → Fin f0.tableSize, if ∀ i, P i ∈ BloomRate.im B then (1 : ℝ) else 0 := by
    intro B j
    rw [← (Equiv.funSplitAt j (Fin f0.hashNum → Fin f0.tableSize)).symm.sum_comp, Fintype.sum_prod_type_right]
    simp only [Equiv.funSplitAt, Equiv.piSplitAt, Equiv.coe_fn_symm_mk, dite_true]
    rw [sum_const, card_univ, nsmul_eq_mul]
  have total : (∑ B : Fin f0.hashNum × Fin xs.length → Fin f0.tableSize, ∑ P : Fin f0.hashNum → Fin f0.tableSize,
      if ∀ i, P i ∈ BloomRate.im B then (1 : ℝ) else 0) = BloomRate.bad (Fin f0.hashNum × Fin xs.length) f0.hashNum f0.tableSize := by
    unfold BloomRate.bad
    rw [card_filter, Nat.cast_sum, Fintype.sum_prod_type]
    push_cast
    rfl
  have card1 : (Fintype.card (Fin f0.hashNum × Fin xs.length → Fin f0.tableSize) : ℝ) = (f0.tableSize : ℝ) ^ (f0.hashNum * xs.length) := by
    rw [Fintype.card_fun, Fintype.card_prod, Fintype.card_fin, Fintype.card_fin, Fintype.card_fin]
    push_cast
    rfl
  have card2 : ∀ j : Fin ys.length, (Fintype.card (Fin ys.length → Fin f0.hashNum → Fin f0.tableSize) : ℝ) =
      Fintype.card ({l // l ≠ j} → Fin f0.hashNum → Fin f0.tableSize) * (f0.tableSize : ℝ) ^ f0.hashNum := by
    intro j
    rw [Fintype.card_congr (Equiv.funSplitAt j (Fin f0.hashNum → Fin f0.tableSize)), Fintype.card_prod, Fintype.card_fun (α := Fin f0.hashNum),
      Fintype.card_fin, Fintype.card_fin]
    push_cast
    ring
  have hmr : (0 : ℝ) < f0.tableSize := by exact_mod_cast hm0
  have pos2 : (0 : ℝ) < Fintype.card (Fin ys.length → Fin f0.hashNum → Fin f0.tableSize) := by
    rw [Fintype.card_fun, Fintype.card_fun, Fintype.card_fin]
    push_cast
    positivity
  unfold falseReports
  simp only [len]
  have swap : (∑ B : Fin f0.hashNum × Fin xs.length → Fin f0.tableSize, ∑ Q : Fin ys.length → Fin f0.hashNum → Fin f0.tableSize,
      ∑ j : Fin ys.length, if ∀ i, Q j i ∈ BloomRate.im B then (1 : ℝ) else 0) =
      ys.length * ((Fintype.card (Fin ys.length → Fin f0.hashNum → Fin f0.tableSize) : ℝ) / (f0.tableSize : ℝ) ^ f0.hashNum *
        BloomRate.bad (Fin f0.hashNum × Fin xs.length) f0.hashNum f0.tableSize) := by
    rw [sum_congr rfl fun B _ => sum_comm, sum_comm]
    have : ∀ j : Fin ys.length, (∑ B : Fin f0.hashNum × Fin xs.length → Fin f0.tableSize, ∑ Q : Fin ys.length → Fin f0.hashNum → Fin f0.tableSize,
        if ∀ i, Q j i ∈ BloomRate.im B then (1 : ℝ) else 0) =
        (Fintype.card (Fin ys.length → Fin f0.hashNum → Fin f0.tableSize) : ℝ) / (f0.tableSize : ℝ) ^ f0.hashNum *
        BloomRate.bad (Fin f0.hashNum × Fin xs.length) f0.hashNum f0.tableSize := by
      intro j
      rw [sum_congr rfl fun B _ => inner B j, ← mul_sum, total, card2 j, mul_div_assoc, div_self (pow_pos hmr _).ne', mul_one]
    rw [sum_congr rfl fun j _ => this j, sum_const, card_univ, Fintype.card_fin, nsmul_eq_mul]
  rw [swap, card1, pow_add, mul_div_assoc]
  congr 1
  have h1 := (pow_pos hmr f0.hashNum).ne'
  have h2 := (pow_pos hmr (f0.hashNum * xs.length)).ne'
  have h3 := pos2.ne'
  rw [div_mul_eq_mul_div, div_div, div_eq_div_iff (mul_ne_zero h1 (mul_ne_zero h2 h3)) (mul_ne_zero h2 h1)]
  ring

/-- `raw` is `1.44 * hash_num * max_element_num` up to rounding (bloom_filter.hpp:97). -/
def RawOk (raw : UInt32) (k maxElem : Nat) : Prop := 100 * raw.toNat ≤ 144 * (k * maxElem) + 100 ∧ 144 * (k * maxElem) ≤ 100 * raw.toNat + 200

theorem pHit_gt (N m : ℕ) (hN : 4000 ≤ N) (hm : 0 < m) (h : 100 * m ≤ 144 * N + 800) : 1 / 2 < BloomRate.pHit N m := by
  have hmr : (0 : ℝ) < m := by exact_mod_cast hm
  have hNr : (4000 : ℝ) ≤ N := by exact_mod_cast hN
  have hr : 100 * (m : ℝ) ≤ 144 * N + 800 := by exact_mod_cast h
  have hm1 : (1 : ℝ) ≤ m := by exact_mod_cast hm
  have h0 : 0 ≤ 1 - 1 / (m : ℝ) := by
    rw [sub_nonneg, div_le_one hmr]
    exact hm1
  have h1 : 1 - 1 / (m : ℝ) ≤ Real.exp (-(1 / m)) := by linarith [Real.add_one_le_exp (-(1 / (m : ℝ)))]
  have h2 : (1 - 1 / (m : ℝ)) ^ N ≤ Real.exp (-(N / m)) := by
    calc _ ≤ Real.exp (-(1 / m)) ^ N := pow_le_pow_left₀ h0 h1 N
      _ = _ := by
        rw [← Real.exp_nat_mul]
        congr 1
        ring
  have h3 : Real.log 2 < N / m := by
    rw [lt_div_iff₀ hmr]
    nlinarith [Real.log_two_lt_d9, Real.log_two_gt_d9]
  have h4 : Real.exp (-(N / m)) < 1 / 2 := by
    calc _ < Real.exp (-Real.log 2) := Real.exp_lt_exp.2 (by linarith)
      _ = 1 / 2 := by rw [Real.exp_neg, Real.exp_log (by norm_num)]; norm_num
  unfold BloomRate.pHit
  linarith

theorem pHit_lt (N m : ℕ) (hN : 4000 ≤ N) (h : 144 * N ≤ 100 * m + 200) : BloomRate.pHit N m ≤ 501 / 1000 := by
  have hNr : (4000 : ℝ) ≤ N := by exact_mod_cast hN
  have hr : 144 * (N : ℝ) ≤ 100 * m + 200 := by exact_mod_cast h
  have hm1 : (0 : ℝ) < m - 1 := by linarith
  have hmr : (0 : ℝ) < m := by linarith
  have h1 : Real.exp (-(1 / (m - 1))) ≤ 1 - 1 / (m : ℝ) := by
    have e : 1 - 1 / (m : ℝ) = (1 + 1 / ((m : ℝ) - 1))⁻¹ := by
      rw [eq_comm, inv_eq_iff_eq_inv, eq_comm, inv_eq_one_div, div_eq_iff (by rw [sub_ne_zero, ne_eq, eq_div_iff hmr.ne']; linarith)]
      field_simp
      ring
    rw [Real.exp_neg, e]
    refine inv_anti₀ (by positivity) ?_
    linarith [Real.add_one_le_exp (1 / ((m : ℝ) - 1))]
  have h2 : Real.exp (-(N / (m - 1))) ≤ (1 - 1 / (m : ℝ)) ^ N := by
    calc _ = Real.exp (-(1 / (m - 1))) ^ N := by
          rw [← Real.exp_nat_mul]
          congr 1
          ring
      _ ≤ _ := pow_le_pow_left₀ (Real.exp_pos _).le h1 N
  have h3 : N / ((m : ℝ) - 1) ≤ Real.log 2 + 2 / 1000 := by
    rw [div_le_iff₀ hm1]
    nlinarith [Real.log_two_lt_d9, Real.log_two_gt_d9]
  have h4 : 499 / 1000 ≤ Real.exp (-(N / (m - 1))) := by
    calc (499 / 1000 : ℝ) ≤ 1 / 2 * Real.exp (-(2 / 1000)) := by
          have := Real.add_one_le_exp (-(2 / 1000 : ℝ))
          linarith
      _ = Real.exp (-Real.log 2 + -(2 / 1000)) := by rw [Real.exp_add, Real.exp_neg (Real.log 2), Real.exp_log (by norm_num)]; norm_num
      _ ≤ _ := Real.exp_le_exp.2 (by linarith)
  unfold BloomRate.pHit
  linarith

/-- **C121** (violation) A filter that was made for `maxElem` keys and holds that many reports a key that was not inserted with probability above
`2^-hash_num`, the rate its constructor announces (bloom_filter.hpp:91), even if the hash functions are perfect: 1.44 is less than `1 / ln 2`. The average
number of false answers among any number of different queries exceeds that number times `2^-hash_num`. -/
theorem bloom_rate_exceeds {rnd : List UInt32} {maxElem k : Nat} {raw : UInt32} {f0 : Filter} (hnew : new rnd maxElem k raw = some f0)
    (hraw : 0 < raw.toNat ∧ raw.toNat ≤ 2 ^ 32 - 8) (hr : RawOk raw k maxElem) (hN : 4000 ≤ k * maxElem) (xs ys : List Bytes) (hlen : xs.length = maxElem)
    (hx : xs.Nodup) (hy : ys.Nodup) (hd : ∀ y ∈ ys, y ∉ xs) (h0 : ys ≠ []) : (ys.length : ℝ) / 2 ^ k < falseReports f0 xs ys := by
  rw [falseReports_eq hnew hraw xs ys hx hy hd]
  obtain ⟨hk, hm⟩ := new_fields hnew
  have hm1 : f0.tableSize = (raw.toNat + 7) / 8 * 8 := by rw [hm, roundTableSize_eq _ hraw.2]
  have hm0 : 0 < f0.tableSize := by omega
  have hmr : (0 : ℝ) < f0.tableSize := by exact_mod_cast hm0
  have hlo := BloomRate.bad_lower (ι := Fin f0.hashNum × Fin xs.length) f0.hashNum hm0
  have hp := pHit_gt (k * maxElem) f0.tableSize hN hm0 (by have := hr.1; omega)
  have hcard : Fintype.card (Fin f0.hashNum × Fin xs.length) = k * maxElem := by
    rw [Fintype.card_prod, Fintype.card_fin, Fintype.card_fin, hk, hlen]
  rw [hcard, hk, hlen] at hlo
  rw [hk, hlen, div_eq_mul_one_div]
  have hl : (0 : ℝ) < ys.length := by
    have := List.length_pos_iff.2 h0
    exact_mod_cast this
  refine mul_lt_mul_of_pos_left ?_ hl
  have hk0 : k ≠ 0 := by rintro rfl; omega
  rw [lt_div_iff₀ (by positivity)]
  calc (1 : ℝ) / 2 ^ k * (f0.tableSize : ℝ) ^ (k * maxElem + k) = (f0.tableSize * (1 / 2)) ^ k * (f0.tableSize : ℝ) ^ (k * maxElem) := by
        rw [pow_add, mul_pow, one_div_pow]
        ring
    _ < (f0.tableSize * BloomRate.pHit (k * maxElem) f0.tableSize) ^ k * (f0.tableSize : ℝ) ^ (k * maxElem) := by
        refine mul_lt_mul_of_pos_right (pow_lt_pow_left₀ ?_ (by positivity) hk0) (by positivity)
        exact mul_lt_mul_of_pos_left hp hmr
    _ ≤ _ := hlo

/-- **C121** With perfect hash functions the rate of a full filter is at most `(0.501 + 0.35 / maxElem) ^ hash_num`. What is missing to the announced
`2^-hash_num` is a small factor, see `bloom_rate_twice`. -/
theorem bloom_rate_bound_partial {rnd : List UInt32} {maxElem k : Nat} {raw : UInt32} {f0 : Filter} (hnew : new rnd maxElem k raw = some f0)
    (hraw : 0 < raw.toNat ∧ raw.toNat ≤ 2 ^ 32 - 8) (hr : RawOk raw k maxElem) (hN : 4000 ≤ k * maxElem) (xs ys : List Bytes) (hlen : xs.length = maxElem)
    (hx : xs.Nodup) (hy : ys.Nodup) (hd : ∀ y ∈ ys, y ∉ xs) : falseReports f0 xs ys ≤ ys.length * (501 / 1000 + 7 / (20 * (maxElem : ℝ))) ^ k := by
  rw [falseReports_eq hnew hraw xs ys hx hy hd]
  obtain ⟨hk, hm⟩ := new_fields hnew
  have hm1 : f0.tableSize = (raw.toNat + 7) / 8 * 8 := by rw [hm, roundTableSize_eq _ hraw.2]
  have hm0 : 0 < f0.tableSize := by omega
  have hmr : (0 : ℝ) < f0.tableSize := by exact_mod_cast hm0
  have hup := BloomRate.bad_upper (ι := Fin f0.hashNum × Fin xs.length) f0.hashNum hm0
  have hp := pHit_gt (k * maxElem) f0.tableSize hN hm0 (by have := hr.1; omega)
  have hq := pHit_lt (k * maxElem) f0.tableSize hN (by have := hr.2; omega)
  have hcard : Fintype.card (Fin f0.hashNum × Fin xs.length) = k * maxElem := by
    rw [Fintype.card_prod, Fintype.card_fin, Fintype.card_fin, hk, hlen]
  rw [hcard, hk, hlen] at hup
  rw [hk, hlen]
  refine mul_le_mul_of_nonneg_left ?_ (by positivity)
  have hn0 : 0 < maxElem := by
    rcases Nat.eq_zero_or_pos maxElem with rfl | h
    · omega
    · exact h
  have hnr : (0 : ℝ) < maxElem := by exact_mod_cast hn0
  have hkm : (k : ℝ) ≤ f0.tableSize * (7 / (10 * maxElem)) := by
    rw [← mul_div_assoc, le_div_iff₀ (by positivity)]
    have h1 : 10 * (k * maxElem) ≤ 7 * f0.tableSize := by have := hr.2; omega
    have h2 : 10 * ((k : ℝ) * maxElem) ≤ 7 * f0.tableSize := by exact_mod_cast h1
    linarith
  rw [div_le_iff₀ (by positivity)]
  refine hup.trans ?_
  rw [pow_add, ← mul_assoc, mul_right_comm, ← mul_pow]
  refine mul_le_mul_of_nonneg_right (pow_le_pow_left₀ ?_ ?_ k) (by positivity)
  · have : 0 ≤ 1 - BloomRate.pHit (k * maxElem) f0.tableSize := by linarith
    have : 0 ≤ BloomRate.pHit (k * maxElem) f0.tableSize := by linarith
    positivity
  · have h1 : (k : ℝ) * (1 - BloomRate.pHit (k * maxElem) f0.tableSize) ≤ f0.tableSize * (7 / (10 * maxElem)) * (1 / 2) :=
      mul_le_mul hkm (by linarith) (by linarith) (by positivity)
    have h2 : (f0.tableSize : ℝ) * BloomRate.pHit (k * maxElem) f0.tableSize ≤ f0.tableSize * (501 / 1000) := mul_le_mul_of_nonneg_left hq hmr.le
    have h3 : (501 / 1000 + 7 / (20 * (maxElem : ℝ))) * f0.tableSize = f0.tableSize * (501 / 1000) + f0.tableSize * (7 / (10 * maxElem)) * (1 / 2) := by
      field_simp
      ring
    rw [h3]
    linarith

/-- **C121** For at least 1024 keys and at most 128 hash functions the rate is less than twice the announced one. -/
theorem bloom_rate_twice {rnd : List UInt32} {maxElem k : Nat} {raw : UInt32} {f0 : Filter} (hnew : new rnd maxElem k raw = some f0)
    (hraw : 0 < raw.toNat ∧ raw.toNat ≤ 2 ^ 32 - 8) (hr : RawOk raw k maxElem) (hn : 1024 ≤ maxElem) (hk : 4 ≤ k ∧ k ≤ 128) (xs ys : List Bytes)
    (hlen : xs.length = maxElem) (hx : xs.Nodup) (hy : ys.Nodup) (hd : ∀ y ∈ ys, y ∉ xs) : falseReports f0 xs ys ≤ 2 * (ys.length / 2 ^ k) := by
  refine (bloom_rate_bound_partial hnew hraw hr (by nlinarith) xs ys hlen hx hy hd).trans ?_
  have hnr : (1024 : ℝ) ≤ maxElem := by exact_mod_cast hn
  have h1 : 501 / 1000 + 7 / (20 * (maxElem : ℝ)) ≤ 1003 / 2000 := by
    have : 7 / (20 * (maxElem : ℝ)) ≤ 7 / (20 * 1024) := by gcongr
    have : (7 : ℝ) / (20 * 1024) ≤ 1 / 2000 := by norm_num
    linarith
  have h2 : (501 / 1000 + 7 / (20 * (maxElem : ℝ))) ^ k ≤ 2 / 2 ^ k := by
    calc _ ≤ (1003 / 2000 : ℝ) ^ k := pow_le_pow_left₀ (by positivity) h1 k
      _ = (1003 / 1000) ^ k / 2 ^ k := by rw [← div_pow]; norm_num
      _ ≤ (1003 / 1000) ^ 128 / 2 ^ k := by
        gcongr
        · norm_num
        · exact hk.2
      _ ≤ 2 / 2 ^ k := by
        gcongr
        norm_num
  calc _ ≤ (ys.length : ℝ) * (2 / 2 ^ k) := mul_le_mul_of_nonneg_left h2 (by positivity)
    _ = _ := by ring

/-- The hypotheses are met for a million keys and 40 hash functions: such a filter exists, with the raw size the constructor computes. -/
example (rnd : List UInt32) : (new rnd (2 ^ 20) 40 60397977).isSome ∧ RawOk 60397977 40 (2 ^ 20) ∧ 4000 ≤ 40 * 2 ^ 20 :=
  ⟨new_isSome _ _ _ _ (by decide), ⟨by decide, by decide⟩, by decide⟩

end Kunlun.Bloom
