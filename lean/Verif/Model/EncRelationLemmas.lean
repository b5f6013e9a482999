import Verif.Model.EncRelation
import Verif.Props.Poly
import Verif.Props.Sigma
/-!
Lemmas about the one-out-of-many proof: what `Verify` checks, as sums over index ranges.
-/

namespace Kunlun

variable {G : Type} [AddCommGroup G]

theorem msm_eq_sum (A : List G) (a : List ℤ) (h : A.length = a.length) :
    msm A a = ∑ i ∈ Finset.range A.length, ((a[i]?).getD 0) • ((A[i]?).getD 0) := by
  induction A generalizing a with
  | nil => simp [msm]
  | cons P A ih =>
    cases a with
    | nil => simp at h
    | cons x a =>
      rw [msm_cons, ih a (by simpa using h), List.length_cons, Finset.sum_range_succ']
      simp [add_comm]

namespace EncRelation

open Kunlun

theorem combine_eq (cts : List (CT G)) (w : List ℤ) :
    combine cts w = ⟨msm (cts.map CT.X) w, msm (cts.map CT.Y) w⟩ := by
  have gen : ∀ (cts : List (CT G)) (w : List ℤ) (acc : CT G),
      (List.zip cts w).foldl (fun acc cw => acc.add (cw.1.scale cw.2)) acc =
        ⟨acc.X + msm (cts.map CT.X) w, acc.Y + msm (cts.map CT.Y) w⟩ := by
    intro cts
    induction cts with
    | nil => intro w acc; simp [msm]
    | cons c cts ih =>
      intro w acc
      cases w with
      | nil => simp [msm]
      | cons x w =>
        rw [List.zip_cons_cons, List.foldl_cons, ih]
        simp only [CT.add, CT.scale, List.map_cons, msm_cons, CT.mk.injEq]
        constructor <;> abel
  unfold combine
  rw [gen]
  simp

theorem fold_sub (g : Nat → CT G) (m : Nat) (acc : CT G) :
    (List.range m).foldl (fun acc k => acc.sub (g k)) acc =
      ⟨acc.X - ∑ k ∈ Finset.range m, (g k).X, acc.Y - ∑ k ∈ Finset.range m, (g k).Y⟩ := by
  induction m with
  | zero => simp
  | succ m ih =>
    rw [List.range_succ, List.foldl_append, ih, Finset.sum_range_succ, Finset.sum_range_succ]
    simp only [List.foldl_cons, List.foldl_nil, CT.sub, CT.mk.injEq]
    constructor <;> abel

theorem fold_int_sub (g : Nat → ℤ) (m : Nat) (z : ℤ) :
    (List.range m).foldl (fun z k => z - g k) z = z - ∑ k ∈ Finset.range m, g k := by
  induction m with
  | zero => simp
  | succ m ih => rw [List.range_succ, List.foldl_append, ih, Finset.sum_range_succ]; simp; ring

theorem fold_int_addneg (g : Nat → ℤ) (m : Nat) (z : ℤ) :
    (List.range m).foldl (fun z k => z + -g k) z = z - ∑ k ∈ Finset.range m, g k := by
  induction m with
  | zero => simp
  | succ m ih => rw [List.range_succ, List.foldl_append, ih, Finset.sum_range_succ]; simp; ring

/-! ### Digits -/

theorem decompose_length (l n m : Nat) : (decompose l n m).length = m := by
  induction m generalizing l with
  | zero => rfl
  | succ m ih => rw [decompose, List.length_cons, ih]

theorem decompose_get (l n m j : Nat) (h : j < m) : (decompose l n m)[j]? = some (l / n ^ j % n) := by
  induction m generalizing l j with
  | zero => omega
  | succ m ih =>
    rw [decompose]
    cases j with
    | zero => simp
    | succ j =>
      rw [List.getElem?_cons_succ, ih _ _ (by omega), Nat.div_div_eq_div_mul, Nat.pow_succ, Nat.mul_comm]

/-- Digits determine numbers below `n^m`. -/
theorem digits_inj (n m i l : Nat) (hi : i < n ^ m) (hl : l < n ^ m) (h : ∀ j < m, i / n ^ j % n = l / n ^ j % n) : i = l := by
  induction m generalizing i l with
  | zero => simp at hi hl; omega
  | succ m ih =>
    have h0 := h 0 (by omega)
    simp only [Nat.pow_zero, Nat.div_one] at h0
    have hd : i / n = l / n := by
      apply ih
      · rw [Nat.pow_succ] at hi; exact Nat.div_lt_of_lt_mul (by rw [Nat.mul_comm]; exact hi)
      · rw [Nat.pow_succ] at hl; exact Nat.div_lt_of_lt_mul (by rw [Nat.mul_comm]; exact hl)
      · intro j hj
        have := h (j + 1) (by omega)
        rwa [Nat.pow_succ, Nat.mul_comm, ← Nat.div_div_eq_div_mul, ← Nat.div_div_eq_div_mul] at this
    rw [← Nat.div_add_mod i n, ← Nat.div_add_mod l n, hd, h0]

/-- Every choice of digits occurs. -/
theorem digits_surj (n m : Nat) (hn : 0 < n) (s : Nat → Nat) (hs : ∀ j < m, s j < n) :
    ∃ l < n ^ m, ∀ j < m, l / n ^ j % n = s j := by
  induction m generalizing s with
  | zero => exact ⟨0, by simp, by omega⟩
  | succ m ih =>
    obtain ⟨l, hl, h⟩ := ih (fun j => s (j + 1)) (fun j hj => hs (j + 1) (by omega))
    have h0 := hs 0 (by omega)
    refine ⟨n * l + s 0, ?_, ?_⟩
    · rw [Nat.pow_succ, Nat.mul_comm (n ^ m)]
      calc n * l + s 0 < n * l + n := by omega
        _ = n * (l + 1) := by ring
        _ ≤ n * n ^ m := Nat.mul_le_mul_left _ hl
    · intro j hj
      cases j with
      | zero => simp [Nat.mul_add_mod, Nat.mod_eq_of_lt h0]
      | succ j =>
        rw [Nat.pow_succ, Nat.mul_comm (n ^ j), ← Nat.div_div_eq_div_mul]
        have : (n * l + s 0) / n = l := by
          rw [Nat.mul_add_div hn, Nat.div_eq_of_lt h0, Nat.add_zero]
        rw [this]
        exact h j (by omega)

/-! ### Columns laid out in one vector -/

theorem flatten_get {α : Type} (cols : List (List α)) (n : Nat) (h : ∀ c ∈ cols, c.length = n) (j i : Nat) (hi : i < n) :
    cols.flatten[j * n + i]? = (cols[j]?).bind (·[i]?) := by
  induction cols generalizing j with
  | nil => simp
  | cons c cols ih =>
    have hc := h c List.mem_cons_self
    rw [List.flatten_cons]
    cases j with
    | zero =>
      rw [Nat.zero_mul, Nat.zero_add, List.getElem?_append_left (by omega)]
      simp
    | succ j =>
      rw [List.getElem?_append_right (by rw [hc, Nat.succ_mul]; omega), List.getElem?_cons_succ, hc]
      rw [← ih (fun c' hc' => h c' (List.mem_cons_of_mem _ hc')) j]
      congr 1
      rw [Nat.succ_mul]; omega

theorem flatten_length {α : Type} (cols : List (List α)) (n : Nat) (h : ∀ c ∈ cols, c.length = n) :
    cols.flatten.length = cols.length * n := by
  induction cols with
  | nil => simp
  | cons c cols ih =>
    rw [List.flatten_cons, List.length_append, ih (fun c' hc' => h c' (List.mem_cons_of_mem _ hc')), h c List.mem_cons_self,
      List.length_cons, Nat.succ_mul]
    omega

/-! ### The product of selected responses -/

theorem product_cast (cv : Curve G) (n : Nat) (f : List ℤ) (i m : Nat) :
    ((product cv n f (decompose i n m) : ℤ) : ZMod cv.order) =
      ∏ j ∈ Finset.range m, (((f[j * n + i / n ^ j % n]?).getD 0 : ℤ) : ZMod cv.order) := by
  have gen : ∀ k ≤ m, (((List.range k).foldl (fun p j =>
      BigInt.mod (p * (f[j * n + ((decompose i n m)[j]?).getD 0]?).getD 0) cv.order) 1 : ℤ) : ZMod cv.order) =
      ∏ j ∈ Finset.range k, (((f[j * n + i / n ^ j % n]?).getD 0 : ℤ) : ZMod cv.order) := by
    intro k
    induction k with
    | zero => simp
    | succ k ih =>
      intro hk
      rw [List.range_succ, List.foldl_append, Finset.prod_range_succ, ← ih (by omega)]
      simp only [List.foldl_cons, List.foldl_nil]
      rw [cv.cast_mod, decompose_get i n m k (by omega)]
      push_cast
      rfl
  unfold product
  rw [decompose_length]
  exact gen m (Nat.le_refl _)

theorem mapM_some {α β : Type} (f : α → Option β) (g : α → β) (l : List α) (h : ∀ a ∈ l, f a = some (g a)) :
    l.mapM f = some (l.map g) := by
  induction l with
  | nil => rfl
  | cons a l ih =>
    rw [List.mapM_cons, h a List.mem_cons_self, ih (fun b hb => h b (List.mem_cons_of_mem _ hb))]
    rfl

variable [DecidableEq G]

/-- What `Verify` checks, for well-shaped input. -/
structure Accepts (cv : Curve G) (pp : PP G) (x : Instance G) (m : Nat) (e : ℤ) (pf : Proof G) : Prop where
  sum : ∀ j < m, ∑ i ∈ Finset.range pp.n, (pf.vecF[j * pp.n + i]?).getD 0 = e
  comF : e • pf.B + pf.A = pf.zA • pp.com.g + msm pp.com.vecH pf.vecF
  comT : e • pf.C + pf.D = pf.zC • pp.com.g + msm pp.com.vecH (pf.vecF.map fun f => f * (e - f))
  ctX : msm (x.cts.map CT.X) ((List.range x.cts.length).map fun i => product cv pp.n pf.vecF (decompose i pp.n m)) -
    ∑ k ∈ Finset.range m, e ^ k • ((pf.vecG[k]?).getD ⟨0, 0⟩).X = pf.z • x.ek
  ctY : msm (x.cts.map CT.Y) ((List.range x.cts.length).map fun i => product cv pp.n pf.vecF (decompose i pp.n m)) -
    ∑ k ∈ Finset.range m, e ^ k • ((pf.vecG[k]?).getD ⟨0, 0⟩).Y = pf.z • pp.enc.g

theorem cond1_iff (n : Nat) (hn : 0 < n) (e : ℤ) (f : List ℤ) (m : Nat) :
    cond1 n e f m = true ↔ ∀ j < m, ∑ i ∈ Finset.range n, (f[j * n + i]?).getD 0 = e := by
  obtain ⟨k, rfl⟩ : ∃ k, n = k + 1 := ⟨n - 1, by omega⟩
  unfold cond1
  simp only [List.all_eq_true, List.mem_range, decide_eq_true_eq, Nat.add_sub_cancel]
  refine forall₂_congr fun j hj => ?_
  rw [fold_int_addneg (fun i => (f[j * (k + 1) + (i + 1)]?).getD 0), Finset.sum_range_succ']
  simp only [Nat.add_zero]
  constructor <;> intro h <;> linarith

theorem verify_iff (cv : Curve G) (flog : Nat → Nat → Nat) (pp : PP G) (H : Bytes → ℤ) (x : Instance G) (tr : Bytes)
    (pf : Proof G) (m : Nat) (hm : flog x.cts.length pp.n = m) (hm0 : 0 < m) (hn : 0 < pp.n)
    (hf : pf.vecF.length = m * pp.n) (hG : m ≤ pf.vecG.length) (hh : m * pp.n ≤ pp.com.vecH.length) :
    ∃ b, verify cv flog pp H x tr pf = some (b, addFirst cv tr pf.B pf.A pf.C pf.D) ∧
      (b = true ↔ Accepts cv pp x m (H (addFirst cv tr pf.B pf.A pf.C pf.D)) pf) := by
  unfold verify
  simp only [hm]
  rw [if_neg (by omega)]
  rw [Pedersen.commit_eq pp.com pf.vecF _ (by omega), Pedersen.commit_eq pp.com _ _ (by simp; omega)]
  simp only [Option.bind_eq_bind, Option.bind_some, Option.pure_def]
  generalize H (addFirst cv tr pf.B pf.A pf.C pf.D) = e
  refine ⟨_, rfl, ?_⟩
  simp only [Bool.and_eq_true, decide_eq_true_eq, cond1_iff _ hn]
  rw [combine_eq, fold_sub, ← hf, List.take_length]
  simp only [Twisted.encPoint, CT.mk.injEq, CT.scale, add_zero]
  constructor
  · rintro ⟨⟨⟨h0, h1⟩, h2⟩, h3, h4⟩
    exact ⟨h0, h1, h2, h3, h4⟩
  · rintro ⟨h0, h1, h2, h3, h4⟩
    exact ⟨⟨⟨h0, h1⟩, h2⟩, h3, h4⟩

/-- The linear-algebra core of completeness. -/
theorem core {R M : Type} [CommRing R] [AddCommGroup M] [Module R M] (N m l : Nat) (hl : l < N) (e : R) (V : Nat → M)
    (w : Nat → R) (p : Nat → Nat → R) (rho : Nat → R) (E : M)
    (hw : ∀ i < N, w i = ∑ k ∈ Finset.range m, p i k * e ^ k + if i = l then e ^ m else 0) :
    ∑ i ∈ Finset.range N, w i • V i - ∑ k ∈ Finset.range m, e ^ k • (∑ i ∈ Finset.range N, p i k • V i + rho k • E) =
      e ^ m • V l - (∑ k ∈ Finset.range m, rho k * e ^ k) • E := by
  have h1 : ∑ i ∈ Finset.range N, w i • V i =
      ∑ k ∈ Finset.range m, e ^ k • ∑ i ∈ Finset.range N, p i k • V i + e ^ m • V l := by
    rw [Finset.sum_congr rfl (g := fun i => (∑ k ∈ Finset.range m, (e ^ k * p i k) • V i) + (if i = l then e ^ m else 0) • V i)]
    · rw [Finset.sum_add_distrib, Finset.sum_comm]
      congr 1
      · apply Finset.sum_congr rfl
        intro k _
        rw [Finset.smul_sum]
        apply Finset.sum_congr rfl
        intro i _
        rw [mul_smul]
      · rw [Finset.sum_eq_single l]
        · rw [if_pos rfl]
        · intro i _ hi
          rw [if_neg hi, zero_smul]
        · intro h
          exact absurd (Finset.mem_range.2 hl) h
    · intro i hi
      rw [hw i (Finset.mem_range.1 hi), add_smul, Finset.sum_smul]
      congr 1
      apply Finset.sum_congr rfl
      intro k _
      rw [mul_comm]
  rw [h1]
  simp only [smul_add, Finset.sum_add_distrib, Finset.sum_smul]
  have : ∑ k ∈ Finset.range m, e ^ k • rho k • E = ∑ k ∈ Finset.range m, (rho k * e ^ k) • E := by
    apply Finset.sum_congr rfl
    intro k _
    rw [← mul_smul, mul_comm]
  rw [this]
  abel

end EncRelation

end Kunlun
