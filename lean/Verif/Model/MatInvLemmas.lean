import Verif.Model.MatInv
import Mathlib.LinearAlgebra.Matrix.NonsingularInverse
import Mathlib.LinearAlgebra.Matrix.ToLinearEquiv
/-!
Lemmas for `Verif/Model/MatInv.lean`: the effect of each loop on the entries, and the row-reduction invariant over a field.
-/

namespace Kunlun.MatInv

open Kunlun Matrix

/-! ### Row reduction over a field -/

section Field
variable {K : Type*} [Field K] {n : Nat}

/-- `A` is a row-reduced form of `M` with `i` finished columns, and `B` records the row operations. -/
structure Red (i : Nat) (M A B : Matrix (Fin n) (Fin n) K) : Prop where
  mul : B * M = A
  ker : ∀ v, A *ᵥ v = 0 → M *ᵥ v = 0
  unit : ∀ c : Fin n, c.val < i → ∀ r, A r c = if r = c then 1 else 0

theorem red_start (M : Matrix (Fin n) (Fin n) K) : Red 0 M M 1 :=
  ⟨one_mul M, fun _ h => h, fun _ h => absurd h (Nat.not_lt_zero _)⟩

theorem Red.swap {i : Nat} {M A B : Matrix (Fin n) (Fin n) K} (h : Red i M A B) (a b : Fin n) (ha : i ≤ a.val) (hb : i ≤ b.val) :
    Red i M (of fun r c => A (Equiv.swap a b r) c) (of fun r c => B (Equiv.swap a b r) c) := by
  refine ⟨?_, ?_, ?_⟩
  · ext r c
    have := congrFun (congrFun h.mul (Equiv.swap a b r)) c
    exact this
  · intro v hv
    refine h.ker v ?_
    ext r
    have := congrFun hv ((Equiv.swap a b) r)
    simp only [mulVec, of_apply, Equiv.swap_apply_self] at this ⊢
    exact this
  · intro c hc r
    simp only [of_apply]
    rw [h.unit c hc]
    have hca : c ≠ a := by rintro rfl; omega
    have hcb : c ≠ b := by rintro rfl; omega
    congr 1
    refine propext ⟨fun hh => ?_, fun hh => ?_⟩
    · rw [← Equiv.swap_apply_self a b r, hh, Equiv.swap_apply_of_ne_of_ne hca hcb]
    · rw [hh, Equiv.swap_apply_of_ne_of_ne hca hcb]

theorem Red.scale {i : Nat} {M A B : Matrix (Fin n) (Fin n) K} (h : Red i M A B) (p : Fin n) (hp : p.val = i) (d : K) (hd : d ≠ 0) :
    Red i M (of (fun r c => if r = p then d * A p c else A r c)) (of (fun r c => if r = p then d * B p c else B r c)) := by
  refine ⟨?_, ?_, ?_⟩
  · ext r c
    have := congrFun (congrFun h.mul r) c
    rw [mul_apply] at this ⊢
    simp only [of_apply]
    by_cases hr : r = p
    · subst hr
      simp only [if_true]
      rw [← this, Finset.mul_sum]
      exact Finset.sum_congr rfl fun k _ => by ring
    · simp only [hr, if_false]; exact this
  · intro v hv
    refine h.ker v ?_
    ext r
    have := congrFun hv r
    simp only [mulVec, dotProduct, Pi.zero_apply, of_apply] at this ⊢
    by_cases hr : r = p
    · subst hr
      simp only [if_true] at this
      have h2 : d * ∑ k, A r k * v k = 0 := by
        rw [Finset.mul_sum, ← this]
        exact Finset.sum_congr rfl fun k _ => by ring
      exact (mul_eq_zero.1 h2).resolve_left hd
    · simpa only [hr, if_false] using! this
  · intro c hc r
    simp only [of_apply]
    by_cases hr : r = p
    · subst hr
      have : r ≠ c := by rintro rfl; omega
      simp only [if_true]
      rw [h.unit c hc, if_neg this, mul_zero]
    · simp only [hr, if_false]; exact h.unit c hc r

theorem Red.elim {i : Nat} {M A B : Matrix (Fin n) (Fin n) K} (h : Red i M A B) (p : Fin n) (hp : p.val = i) (h1 : A p p = 1) :
    Red (i + 1) M (of (fun r c => if r = p then A p c else A r c - A p c * A r p)) (of (fun r c => if r = p then B p c else B r c - B p c * A r p)) := by
  refine ⟨?_, ?_, ?_⟩
  · ext r c
    have hr := congrFun (congrFun h.mul r) c
    have hpp := congrFun (congrFun h.mul p) c
    rw [mul_apply] at hr hpp ⊢
    simp only [of_apply]
    by_cases hrp : r = p
    · subst hrp; simp only [if_true]; exact hr
    · simp only [hrp, if_false]
      rw [← hr, ← hpp, Finset.sum_mul, ← Finset.sum_sub_distrib]
      exact Finset.sum_congr rfl fun k _ => by ring
  · intro v hv
    refine h.ker v ?_
    have hpv : ∑ k, A p k * v k = 0 := by
      have := congrFun hv p
      simpa only [mulVec, dotProduct, if_true, of_apply] using! this
    ext r
    have := congrFun hv r
    simp only [mulVec, dotProduct, Pi.zero_apply, of_apply] at this ⊢
    by_cases hrp : r = p
    · subst hrp; exact hpv
    · simp only [hrp, if_false] at this
      have h2 : ∑ k, A r k * v k - (∑ k, A p k * v k) * A r p = 0 := by
        rw [Finset.sum_mul, ← Finset.sum_sub_distrib, ← this]
        exact Finset.sum_congr rfl fun k _ => by ring
      rwa [hpv, zero_mul, sub_zero] at h2
  · intro c hc r
    simp only [of_apply]
    rcases Nat.lt_or_ge c.val i with hci | hci
    · have hpc : p ≠ c := by rintro rfl; omega
      have h0 : A p c = 0 := by rw [h.unit c hci, if_neg hpc]
      by_cases hrp : r = p
      · subst hrp; simp only [if_true]; rw [h0, if_neg hpc]
      · simp only [hrp, if_false]; rw [h0, zero_mul, sub_zero]; exact h.unit c hci r
    · have : c = p := Fin.ext (by omega)
      subst this
      by_cases hrp : r = c
      · subst hrp; simp [h1]
      · simp [hrp, h1]

theorem Red.done {M A B : Matrix (Fin n) (Fin n) K} (h : Red n M A B) : B * M = 1 ∧ M * B = 1 := by
  have hA : A = 1 := by
    ext r c
    rw [h.unit c c.isLt, one_apply]
  have h1 : B * M = 1 := by rw [h.mul, hA]
  exact ⟨h1, mul_eq_one_comm.1 h1⟩

/-- With no pivot available the matrix is singular. -/
theorem Red.stuck {i : Nat} {M A B : Matrix (Fin n) (Fin n) K} (h : Red i M A B) (p : Fin n) (hp : p.val = i)
    (h0 : ∀ r : Fin n, i ≤ r.val → A r p = 0) : M.det = 0 := by
  refine exists_mulVec_eq_zero_iff.1 ⟨fun c => if c = p then 1 else if c.val < i then - A c p else 0, ?_, ?_⟩
  · intro hz
    have := congrFun hz p
    simp at this
  · refine h.ker _ ?_
    ext r
    simp only [mulVec, dotProduct, Pi.zero_apply]
    have hsplit : ∀ k : Fin n, A r k * (if k = p then 1 else if k.val < i then - A k p else 0) =
        (if k = p then A r p else 0) + (if k = r ∧ r.val < i then - A r p else 0) := by
      intro k
      by_cases hk : k = p
      · subst hk
        have hn : ¬ (k = r ∧ r.val < i) := by rintro ⟨rfl, h⟩; omega
        simp [hn]
      · rcases Nat.lt_or_ge k.val i with hki | hki
        · rw [h.unit k hki r]
          by_cases hkr : k = r
          · subst hkr; simp [hk, hki]
          · simp [hk, hki, hkr, Ne.symm hkr]
        · have hn : ¬ (k = r ∧ r.val < i) := by rintro ⟨rfl, h⟩; omega
          simp [hk, hn, Nat.not_lt.2 hki]
    rw [Finset.sum_congr rfl fun k _ => hsplit k, Finset.sum_add_distrib]
    rw [Finset.sum_ite_eq' Finset.univ p]
    rcases Nat.lt_or_ge r.val i with hr | hr
    · simp [hr]
    · simp [Nat.not_lt.2 hr, h0 r hr]

/-- While no rows are exchanged the unfinished columns of `B` stay those of the identity. -/
def Lower (i : Nat) (B : Matrix (Fin n) (Fin n) K) : Prop := ∀ c : Fin n, i ≤ c.val → ∀ r, B r c = if r = c then 1 else 0

theorem lower_start : Lower 0 (1 : Matrix (Fin n) (Fin n) K) := fun c _ r => one_apply

theorem Lower.next {i : Nat} {B : Matrix (Fin n) (Fin n) K} (h : Lower i B) (p : Fin n) (hp : p.val = i) (d : K) (t : Fin n → K) :
    Lower (i + 1) (of (fun r c => if r = p then d * B p c else B r c - (d * B p c) * t r)) := by
  intro c hc r
  simp only [of_apply]
  have hpc : p ≠ c := by rintro rfl; omega
  have h0 : B p c = 0 := by rw [h c (by omega), if_neg hpc]
  by_cases hr : r = p
  · subst hr; simp [h0, hpc]
  · simp only [hr, if_false, h0, mul_zero, zero_mul, sub_zero]
    exact h c (by omega) r

/-- The upper left `k` by `k` corner. -/
def corner (M : Matrix (Fin n) (Fin n) K) (k : Nat) (hk : k ≤ n) : Matrix (Fin k) (Fin k) K :=
  M.submatrix (Fin.castLE hk) (Fin.castLE hk)

/-- If no rows were exchanged and the next pivot is zero, the next corner is singular. -/
theorem Red.corner_singular {i : Nat} {M A B : Matrix (Fin n) (Fin n) K} (h : Red i M A B) (hl : Lower i B) (p : Fin n)
    (hp : p.val = i) (h0 : A p p = 0) : (corner M (i + 1) (by omega)).det = 0 := by
  refine exists_vecMul_eq_zero_iff.1 ⟨fun r => B p (Fin.castLE (by omega) r), ?_, ?_⟩
  · intro hz
    have := congrFun hz ⟨i, by omega⟩
    have hpi : (Fin.castLE (show i + 1 ≤ n by omega) ⟨i, by omega⟩ : Fin n) = p := Fin.ext (by simp [hp])
    simp only [Pi.zero_apply] at this
    rw [hpi, hl p (by omega), if_pos rfl] at this
    exact one_ne_zero this
  · ext c
    simp only [vecMul, dotProduct, corner, submatrix_apply, Pi.zero_apply]
    have hmul := congrFun (congrFun h.mul p) (Fin.castLE (by omega) c)
    have hA : A p (Fin.castLE (show i + 1 ≤ n by omega) c) = 0 := by
      rcases Nat.lt_or_ge c.val i with hc | hc
      · rw [h.unit _ (by simpa using! hc), if_neg]
        intro he
        have := congrArg Fin.val he
        simp at this; omega
      · have : (Fin.castLE (show i + 1 ≤ n by omega) c : Fin n) = p := Fin.ext (by simp; omega)
        rw [this, h0]
    rw [hA, mul_apply] at hmul
    rw [← hmul]
    refine Finset.sum_of_injOn (Fin.castLE (show i + 1 ≤ n by omega)) ?_ ?_ ?_ ?_
    · exact fun a _ b _ hab => Fin.castLE_injective _ hab
    · intro a _; simp
    · intro b _ hb
      have hbi : i + 1 ≤ b.val := by
        by_contra hlt
        exact hb ⟨⟨b.val, by omega⟩, by simp, by ext; simp⟩
      have hbp : p ≠ b := by rintro rfl; omega
      rw [hl b (by omega), if_neg hbp, zero_mul]
    · intro a _; rfl

end Field

/-! ### Entries of the row lists -/

section Entries
variable {α : Type}

/-- `n` rows of `n` entries. -/
def Square (n : Nat) (m : List (List α)) : Prop := m.length = n ∧ ∀ r < n, (m.getD r []).length = n

/-- The entry in row `r`, column `c`. -/
def ent (z : α) (m : List (List α)) (r c : Nat) : α := (m.getD r []).getD c z

theorem getD_some (l : List α) (i : Nat) (x : α) (h : i < l.length) : l[i]? = some (l.getD i x) := by
  rw [List.getD_eq_getElem?_getD, List.getElem?_eq_getElem h]; rfl

theorem Square.row {n : Nat} {m : List (List α)} (h : Square n m) {r : Nat} (hr : r < n) : m[r]? = some (m.getD r []) :=
  getD_some m r [] (by rw [h.1]; exact hr)

theorem Square.entry {n : Nat} {m : List (List α)} (h : Square n m) (z : α) {r c : Nat} (hr : r < n) (hc : c < n) :
    (m.getD r [])[c]? = some (ent z m r c) := getD_some _ c z (by rw [h.2 r hr]; exact hc)

theorem getD_set (m : List (List α)) (j r : Nat) (a : List α) (hj : j < m.length) :
    (m.set j a).getD r [] = if r = j then a else m.getD r [] := by
  simp only [List.getD_eq_getElem?_getD, List.getElem?_set]
  by_cases h : r = j
  · subst h; simp [hj]
  · simp [h, Ne.symm h]

theorem Square.set {n : Nat} {m : List (List α)} (h : Square n m) {j : Nat} (hj : j < n) {a : List α} (ha : a.length = n) :
    Square n (m.set j a) := by
  refine ⟨by rw [List.length_set]; exact h.1, ?_⟩
  intro r hr
  rw [getD_set m j r a (by rw [h.1]; exact hj)]
  split
  · exact ha
  · exact h.2 r hr

theorem ent_set {n : Nat} {m : List (List α)} (h : Square n m) {j : Nat} (hj : j < n) (a : List α) (z : α) (r c : Nat) :
    ent z (m.set j a) r c = if r = j then a.getD c z else ent z m r c := by
  unfold ent
  rw [getD_set m j r a (by rw [h.1]; exact hj)]
  split <;> rfl

theorem mapM_range_some {β : Type} (f : Nat → Option β) (g : Nat → β) (n : Nat) (h : ∀ k < n, f k = some (g k)) :
    (List.range n).mapM f = some ((List.range n).map g) := by
  induction n with
  | zero => rfl
  | succ n ih =>
    rw [List.range_succ, List.mapM_append, ih (fun k hk => h k (by omega))]
    simp [h n (by omega)]

theorem rowLoop_spec (f : Nat → α → α → α) (n : Nat) (row other : List α) (z : α) (h1 : row.length = n) (h2 : other.length = n) :
    ∃ new, rowLoop f n row other = some new ∧ new.length = n ∧ ∀ k < n, new.getD k z = f k (row.getD k z) (other.getD k z) := by
  refine ⟨(List.range n).map fun k => f k (row.getD k z) (other.getD k z), ?_, by rw [List.length_map, List.length_range], ?_⟩
  · unfold rowLoop
    rw [mapM_range_some _ (fun k => f k (row.getD k z) (other.getD k z))]
    · simp [List.drop_of_length_le (Nat.le_of_eq h1)]
    · intro k hk
      rw [getD_some row k z (by omega), getD_some other k z (by omega)]; rfl
  · intro k hk
    rw [List.getD_eq_getElem?_getD, List.getElem?_map, List.getElem?_range hk]; rfl

/-- A loop that replaces row after row, each new row depending only on rows that the loop has not changed yet. -/
theorem loop_rows {n : Nat} (body : Nat → State α → Option (State α)) (i : Nat) (s : State α) (hi : i < n)
    (na nb : Nat → List α) (hA : ∀ j < n, (na j).length = n) (hB : ∀ j < n, (nb j).length = n)
    (hia : na i = s.1.getD i []) (hib : nb i = s.2.getD i []) (h1 : Square n s.1) (h2 : Square n s.2)
    (hbody : ∀ j < n, ∀ t : State α, Square n t.1 → Square n t.2 → t.1.getD i [] = s.1.getD i [] → t.2.getD i [] = s.2.getD i [] →
      t.1.getD j [] = s.1.getD j [] → t.2.getD j [] = s.2.getD j [] →
      ∃ u : State α, body j t = some u ∧ Square n u.1 ∧ Square n u.2 ∧
        (∀ r < n, u.1.getD r [] = if r = j then na j else t.1.getD r []) ∧
        (∀ r < n, u.2.getD r [] = if r = j then nb j else t.2.getD r [])) :
    ∃ u : State α, loopN body n s = some u ∧ Square n u.1 ∧ Square n u.2 ∧
      (∀ r < n, u.1.getD r [] = na r) ∧ (∀ r < n, u.2.getD r [] = nb r) := by
  have key : ∀ k ≤ n, ∃ u : State α, loopN body k s = some u ∧ Square n u.1 ∧ Square n u.2 ∧
      (∀ r < n, u.1.getD r [] = if r < k then na r else s.1.getD r []) ∧
      (∀ r < n, u.2.getD r [] = if r < k then nb r else s.2.getD r []) := by
    intro k
    induction k with
    | zero => intro _; exact ⟨s, rfl, h1, h2, fun r _ => by simp, fun r _ => by simp⟩
    | succ k ih =>
      intro hk
      obtain ⟨t, ht, q1, q2, ha, hb⟩ := ih (by omega)
      obtain ⟨u, hu, w1, w2, ua, ub⟩ := hbody k (by omega) t q1 q2
        (by rw [ha i hi]; split
            · exact hia
            · rfl)
        (by rw [hb i hi]; split
            · exact hib
            · rfl)
        (by rw [ha k (by omega), if_neg (Nat.lt_irrefl _)]) (by rw [hb k (by omega), if_neg (Nat.lt_irrefl _)])
      refine ⟨u, by rw [loopN, ht]; exact hu, w1, w2, ?_, ?_⟩
      · intro r hr
        rw [ua r hr, ha r hr]
        by_cases hrk : r = k
        · subst hrk; simp
        · by_cases hlt : r < k
          · simp [hrk, hlt, show r < k + 1 by omega]
          · simp [hrk, hlt, show ¬ r < k + 1 by omega]
      · intro r hr
        rw [ub r hr, hb r hr]
        by_cases hrk : r = k
        · subst hrk; simp
        · by_cases hlt : r < k
          · simp [hrk, hlt, show r < k + 1 by omega]
          · simp [hrk, hlt, show ¬ r < k + 1 by omega]
  obtain ⟨u, hu, q1, q2, ha, hb⟩ := key n (le_refl n)
  exact ⟨u, hu, q1, q2, fun r hr => by rw [ha r hr, if_pos hr], fun r hr => by rw [hb r hr, if_pos hr]⟩

theorem findPivot_spec {n : Nat} (usable : α → Bool) (m : List (List α)) (h : Square n m) (z : α) (i : Nat) (hi : i < n) (js : List Nat)
    (hjs : ∀ j ∈ js, j < n) :
    (findPivot usable m i js = some none ∧ ∀ j ∈ js, usable (ent z m j i) = false) ∨
      ∃ j ∈ js, findPivot usable m i js = some (some j) ∧ usable (ent z m j i) = true := by
  induction js with
  | nil => left; exact ⟨rfl, by simp⟩
  | cons j js ih =>
    have hj := hjs j (by simp)
    have e1 : findPivot usable m i (j :: js) = if usable (ent z m j i) then some (some j) else findPivot usable m i js := by
      rw [findPivot, h.row hj]
      simp only [Option.bind_eq_bind, Option.bind_some]
      rw [h.entry z hj hi]
      simp
    rw [e1]
    by_cases hu : usable (ent z m j i) = true
    · right; exact ⟨j, by simp, by rw [if_pos hu], hu⟩
    · rw [if_neg hu]
      rcases ih (fun k hk => hjs k (by simp [hk])) with ⟨h1, h2⟩ | ⟨k, hk, h1, h2⟩
      · left
        refine ⟨h1, ?_⟩
        intro k hk
        rcases List.mem_cons.1 hk with rfl | hk
        · simpa using! hu
        · exact h2 k hk
      · right; exact ⟨k, by simp [hk], h1, h2⟩

theorem swapRows_spec {n : Nat} (m : List (List α)) (h : Square n m) (a b : Nat) (ha : a < n) (hb : b < n) (hab : a ≠ b) :
    ∃ m', swapRows m a b = some m' ∧ Square n m' ∧
      ∀ r < n, m'.getD r [] = m.getD (if r = a then b else if r = b then a else r) [] := by
  refine ⟨(m.set a (m.getD b [])).set b (m.getD a []), ?_, ?_, ?_⟩
  · unfold swapRows
    rw [h.row ha, h.row hb]; rfl
  · exact (h.set ha (h.2 b hb)).set hb (h.2 a ha)
  · intro r hr
    rw [getD_set _ _ _ _ (by rw [List.length_set, h.1]; exact hb), getD_set _ _ _ _ (by rw [h.1]; exact ha)]
    by_cases h1 : r = b
    · subst h1; simp [Ne.symm hab]
    · by_cases h2 : r = a
      · subst h2; simp [h1]
      · simp [h1, h2]

theorem pivot_spec {n : Nat} (isZero usable : α → Bool) (s : State α) (h1 : Square n s.1) (h2 : Square n s.2) (z : α) (i : Nat) (hi : i < n) :
    (pivot isZero usable n i s = some s ∧ (isZero (ent z s.1 i i) = true → ∀ j, i < j → j < n → usable (ent z s.1 j i) = false)) ∨
    ∃ (j : Nat) (t : State α), i < j ∧ j < n ∧ isZero (ent z s.1 i i) = true ∧ usable (ent z s.1 j i) = true ∧ pivot isZero usable n i s = some t ∧
      Square n t.1 ∧ Square n t.2 ∧
      (∀ r < n, t.1.getD r [] = s.1.getD (if r = i then j else if r = j then i else r) []) ∧
      (∀ r < n, t.2.getD r [] = s.2.getD (if r = i then j else if r = j then i else r) []) := by
  have e1 : pivot isZero usable n i s = if isZero (ent z s.1 i i) then
      (do match ← findPivot usable s.1 i (List.range' (i + 1) (n - (i + 1))) with
          | none => some s
          | some j => do
            let a ← swapRows s.1 i j
            let b ← swapRows s.2 i j
            some (a, b)) else some s := by
    unfold pivot
    rw [h1.row hi]
    simp only [Option.bind_eq_bind, Option.bind_some]
    rw [h1.entry z hi hi]
    simp
    rfl
  rw [e1]
  by_cases hz : isZero (ent z s.1 i i) = true
  · rw [if_pos hz]
    rcases findPivot_spec usable s.1 h1 z i hi (List.range' (i + 1) (n - (i + 1))) (by intro j hj; simp at hj; omega) with
      ⟨hf, hall⟩ | ⟨j, hj, hf, hu⟩
    · left
      rw [hf]
      refine ⟨rfl, fun _ j hij hjn => hall j ?_⟩
      simp; omega
    · right
      simp at hj
      obtain ⟨a, ea, qa, ra⟩ := swapRows_spec s.1 h1 i j hi (by omega) (by omega)
      obtain ⟨b, eb, qb, rb⟩ := swapRows_spec s.2 h2 i j hi (by omega) (by omega)
      refine ⟨j, (a, b), by omega, by omega, hz, hu, ?_, qa, qb, ra, rb⟩
      rw [hf]
      simp [ea, eb]
  · left
    rw [if_neg hz]
    exact ⟨rfl, fun h => absurd h hz⟩

theorem identity_square (z o : α) (n : Nat) : Square n (identity z o n) := by
  refine ⟨by simp [identity], ?_⟩
  intro r hr
  simp [identity, List.getD_eq_getElem?_getD, hr]

theorem ent_identity (z o : α) (n r c : Nat) (hr : r < n) (hc : c < n) : ent z (identity z o n) r c = if r = c then o else z := by
  simp [ent, identity, List.getD_eq_getElem?_getD, hr, hc]

/-- The matrix over `K` represented by row lists. -/
def toMat {K : Type*} (e : α → K) (z : α) (n : Nat) (m : List (List α)) : Matrix (Fin n) (Fin n) K :=
  of fun r c => e (ent z m r c)

theorem toMat_swap {K : Type*} (e : α → K) (z : α) {n : Nat} (m m' : List (List α)) (i j : Nat) (hi : i < n) (hj : j < n)
    (h : ∀ r < n, m'.getD r [] = m.getD (if r = i then j else if r = j then i else r) []) :
    toMat e z n m' = of fun r c => toMat e z n m (Equiv.swap (⟨i, hi⟩ : Fin n) ⟨j, hj⟩ r) c := by
  ext r c
  simp only [toMat, of_apply, ent]
  rw [h r r.isLt]
  congr 3
  rw [Equiv.swap_apply_def]
  by_cases h1 : r.val = i
  · have : r = ⟨i, hi⟩ := Fin.ext h1
    subst this; simp
  · by_cases h2 : r.val = j
    · have : r = ⟨j, hj⟩ := Fin.ext h2
      subst this
      simp [h1, Fin.ext_iff]
    · simp [h1, h2, Fin.ext_iff]

end Entries

end Kunlun.MatInv
