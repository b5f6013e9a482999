import Verif.Model.OkvsTri
import Mathlib.Algebra.BigOperators.Group.List.Lemmas
import Mathlib.Algebra.BigOperators.Group.Finset.Basic
/-!
Linear algebra of the OKVS: what elimination (`get_FC_1`) and back substitution compute, for values in a commutative group in which
`x + x = 0`.
-/

namespace Kunlun.OKVS
open Kunlun

variable {V : Type} [AddCommGroup V]

/-- The operations of `value_type` from a group. -/
abbrev grpOps (mul : V → Block → V) (b : Nat) : ValOps V := ⟨0, (· + ·), mul, b⟩

theorem foldl_add_map {α : Type} (f : α → V) (l : List α) (acc : V) : l.foldl (fun a c => a + f c) acc = acc + (l.map f).sum := by
  induction l generalizing acc with
  | nil => simp
  | cons a l ih => rw [List.foldl_cons, ih, List.map_cons, List.sum_cons, add_assoc]

theorem spSum_eq (mul : V → Block → V) (b : Nat) (x : Nat → V) (acc : V) (row : List Nat) :
    spSum (grpOps mul b) x acc row = acc + (row.map x).sum := foldl_add_map x row acc

theorem binSum_eq (mul : V → Block → V) (b ds : Nat) (d : Block) (x : Nat → V) (acc : V) (js : List Nat) :
    binSum (grpOps mul b) ds d x acc js = acc + (js.map fun j => if bitAt ds d j then x j else 0).sum := by
  rw [← foldl_add_map]
  unfold binSum
  congr 1
  funext a j
  split <;> simp

theorem gfSum_eq (mul : V → Block → V) (b ds : Nat) (d : Block) (x : Nat → V) (acc : V) :
    gfSum (grpOps mul b) ds d x acc = acc + ((List.range ds).map fun j => mul (x j) (gpow d j)).sum :=
  foldl_add_map _ _ _

section char2
variable (h2 : ∀ x : V, x + x = 0)
include h2

theorem add_add_cancel2 (a b : V) : a + (a + b) = b := by rw [← add_assoc, h2, zero_add]

theorem eq_of_add_zero {a b : V} (h : a + b = 0) : a = b := by
  have := congrArg (a + ·) h
  simp only [add_add_cancel2 h2, add_zero] at this
  exact this.symm

theorem toggle_sum (f : List Nat) (j : Nat) (y : Nat → V) : ((toggle f j).map y).sum = (f.map y).sum + y j := by
  unfold toggle
  split
  · rename_i h
    rw [← List.sum_map_erase y h, add_comm (y j), add_assoc, h2, add_zero]
  · rw [List.map_cons, List.sum_cons, add_comm]

theorem elimRow_sum (perm : Nat → Option Nat) (mx : Nat) (y : Nat → V) (row f f' : List Nat) (e : elimRow perm mx row f = some f') :
    (f'.map y).sum = (f.map y).sum + (row.map fun c => (perm c).elim 0 y).sum := by
  induction row generalizing f with
  | nil => cases e; simp
  | cons c cs ih =>
    unfold elimRow at e
    cases hp : perm c with
    | none => rw [hp] at e; rw [ih f e]; simp [hp]
    | some j =>
      rw [hp] at e
      simp only at e
      split at e
      · rw [ih _ e, toggle_sum h2]; simp [hp, add_assoc]
      · cases e

omit h2 in
theorem startF_sum (perm : Nat → Option Nat) (hinj : ∀ c c' j, perm c = some j → perm c' = some j → c = c') (y : Nat → V)
    (row f : List Nat) (hn : row.Nodup) (hd : ∀ c ∈ row, ∀ j, perm c = some j → j ∉ f) :
    ((startF perm row f).map y).sum = (f.map y).sum + (row.map fun c => (perm c).elim 0 y).sum := by
  induction row generalizing f with
  | nil => simp [startF]
  | cons c cs ih =>
    have hn' := List.nodup_cons.1 hn
    unfold startF
    cases hp : perm c with
    | none =>
      simp only
      rw [ih f hn'.2 (fun x hx => hd x (List.mem_cons_of_mem _ hx))]; simp [hp]
    | some j =>
      simp only
      rw [if_neg (hd c (List.mem_cons_self ..) j hp), ih (j :: f) hn'.2 ?_]
      · simp only [List.map_cons, List.sum_cons, hp, Option.elim_some, add_assoc]
        exact add_left_comm _ _ _
      · intro x hx k hk hmem
        rcases List.mem_cons.1 hmem with rfl | hmem
        · have := hinj x c k hk hp
          subst this
          exact hn'.1 hx
        · exact hd x (List.mem_cons_of_mem _ hx) k hk hmem

theorem elimF_sum (m : Mat) (triR : List Nat) (perm : Nat → Option Nat) (y : Nat → V) (fuel : Nat) (f acc fc : List Nat)
    (e : elimF m triR perm fuel f acc = some fc) :
    ∃ new, fc = acc ++ new ∧ (∀ r ∈ new, r ∈ triR) ∧
      (f.map y).sum = (new.map fun r => ((m.row r).map fun c => (perm c).elim 0 y).sum).sum := by
  induction fuel generalizing f acc with
  | zero =>
    cases f with
    | nil => cases e; exact ⟨[], by simp⟩
    | cons => cases e
  | succ fuel ih =>
    cases f with
    | nil => cases e; exact ⟨[], by simp⟩
    | cons x xs =>
      unfold elimF at e
      simp only at e
      split at e
      · rename_i hmx
        cases h1 : elimRow perm (xs.foldl max x) (m.row (triR.getD (triR.length - xs.foldl max x - 1) 0)) (x :: xs) with
        | none => rw [h1] at e; simp at e
        | some f' =>
          rw [h1] at e
          obtain ⟨new, e1, e2, e3⟩ := ih f' _ e
          refine ⟨triR.getD (triR.length - xs.foldl max x - 1) 0 :: new, by rw [e1]; simp, ?_, ?_⟩
          · intro r hr
            rcases List.mem_cons.1 hr with rfl | hr
            · have hl : triR.length - xs.foldl max x - 1 < triR.length := by omega
              rw [List.getD_eq_getElem?_getD, List.getElem?_eq_getElem hl]
              exact List.getElem_mem hl
            · exact e2 r hr
          · have := elimRow_sum h2 perm _ y _ _ _ h1
            rw [List.map_cons (f := fun r => ((m.row r).map fun c => (perm c).elim 0 y).sum), List.sum_cons, ← e3, this,
              add_left_comm, h2, add_zero]
      · cases e

end char2

theorem colPerm_spec (triC : List Nat) (c : Nat) :
    (colPerm triC c = none ∧ c ∉ triC) ∨ ∃ j < triC.length, triC.getD (triC.length - j - 1) 0 = c ∧ colPerm triC c = some j := by
  have key : ∀ (g : Nat → Nat) (n : Nat),
      let f := (List.range n).foldl (fun f j => Function.update f (g j) (some j)) fun _ => none
      (f c = none ∧ ∀ j < n, g j ≠ c) ∨ ∃ j < n, g j = c ∧ f c = some j := by
    intro g n
    induction n with
    | zero => simp
    | succ n ih =>
      simp only [List.range_succ, List.foldl_append, List.foldl_cons, List.foldl_nil] at ih ⊢
      by_cases h : g n = c
      · right; exact ⟨n, by omega, h, by rw [← h, Function.update_self]⟩
      · rw [Function.update_of_ne (fun e => h e.symm)]
        rcases ih with ⟨h1, h3⟩ | ⟨j, hj, h1, h3⟩
        · left
          refine ⟨h1, fun j hj => ?_⟩
          rcases Nat.lt_succ_iff_lt_or_eq.1 hj with hj | rfl
          · exact h3 j hj
          · exact h
        · right; exact ⟨j, by omega, h1, h3⟩
  rcases key (fun j => triC.getD (triC.length - j - 1) 0) triC.length with ⟨h1, h3⟩ | h
  · left
    refine ⟨h1, fun hc => ?_⟩
    obtain ⟨i, hi, rfl⟩ := List.getElem_of_mem hc
    refine h3 (triC.length - i - 1) (by omega) ?_
    rw [show triC.length - (triC.length - i - 1) - 1 = i by omega, List.getD_eq_getElem?_getD, List.getElem?_eq_getElem hi]
    rfl
  · right; exact h

/-- Elimination of one gap row: for all vectors that vanish outside the pivot columns (for all vectors, if the row equals the first row),
the gap row is the sum of the rows returned. -/
theorem fcRow_spec (h2 : ∀ x : V, x + x = 0) {m : Mat} {tr : Tri} {r fr : Nat} {fc : List Nat} (hfr : fr ∈ tr.triR)
    (hn : (m.row r).Nodup) (e : fcRow m tr r fr = some fc) :
    (∀ q ∈ fc, q ∈ tr.triR) ∧ ∀ x : Nat → V, ((∀ c, c ∉ tr.triC → x c = 0) ∨ m.row r = m.row fr) →
      ((m.row r).map x).sum = (fc.map fun q => ((m.row q).map x).sum).sum := by
  unfold fcRow at e
  split at e
  · rename_i hrow
    cases e
    refine ⟨by simpa using hfr, fun x _ => by simp [hrow]⟩
  · rename_i hrow
    refine ⟨?_, fun x hx => ?_⟩
    · obtain ⟨new, e1, e2, -⟩ := elimF_sum h2 m tr.triR _ (fun _ => (0 : V)) _ _ _ _ e
      rw [e1]; simpa using e2
    · have hx := hx.resolve_right hrow
      obtain ⟨new, e1, -, e3⟩ := elimF_sum h2 m tr.triR _ (fun j => x (tr.triC.getD (tr.triC.length - j - 1) 0)) _ _ _ _ e
      have hel : ∀ c, ((colPerm tr.triC c).elim 0 fun j => x (tr.triC.getD (tr.triC.length - j - 1) 0)) = x c := by
        intro c
        rcases colPerm_spec tr.triC c with ⟨h1, h3⟩ | ⟨j, hj, h1, h3⟩
        · rw [h1]; exact (hx c h3).symm
        · rw [h3]; simp only [Option.elim_some]; rw [h1]
      rw [startF_sum _ ?_ _ _ _ hn (by simp)] at e3
      · simp only [hel, List.map_nil, List.sum_nil, zero_add] at e3
        rw [e1, List.nil_append]
        exact e3
      · intro c c' j hc hc'
        rcases colPerm_spec tr.triC c with ⟨h1, -⟩ | ⟨i, -, h1, h3⟩
        · rw [h1] at hc; cases hc
        · rcases colPerm_spec tr.triC c' with ⟨h1', -⟩ | ⟨i', -, h1', h3'⟩
          · rw [h1'] at hc'; cases hc'
          · rw [h3] at hc; rw [h3'] at hc'
            cases hc; cases hc'
            exact h1.symm.trans h1'

/-- Back substitution: what every step leaves behind. -/
theorem triSolve_frame {V : Type} (rhs : (Nat → V) → Nat → V) (l : List (Nat × Nat)) (out : Nat → V) (a : Nat)
    (h : a ∉ l.map Prod.snd) : triSolve rhs l out a = out a := by
  induction l generalizing out with
  | nil => rfl
  | cons p l ih =>
    obtain ⟨r, c⟩ := p
    simp only [List.map_cons, List.mem_cons, not_or] at h
    unfold triSolve
    rw [ih _ h.2, Function.update_of_ne h.1]

theorem triSolve_spec {V : Type} (rhs : (Nat → V) → Nat → V) (row : Nat → List Nat) (s : Nat)
    (hcongr : ∀ x x' r, (∀ c ∈ row r, x c = x' c) → (∀ a, s ≤ a → x a = x' a) → rhs x r = rhs x' r)
    (l : List (Nat × Nat)) (hord : l.Pairwise fun a b => b.2 ∉ row a.1) (hmem : ∀ p ∈ l, p.2 ∈ row p.1) (hlt : ∀ p ∈ l, p.2 < s)
    (out : Nat → V) :
    ∀ p ∈ l, triSolve rhs l out p.2 = rhs (Function.update (triSolve rhs l out) p.2 (out p.2)) p.1 := by
  induction l generalizing out with
  | nil => simp
  | cons q l ih =>
    obtain ⟨r, c⟩ := q
    have ho := List.pairwise_cons.1 hord
    have hcl : c ∉ l.map Prod.snd := by
      intro h
      obtain ⟨b, hb, e⟩ := List.mem_map.1 h
      exact ho.1 b hb (e ▸ hmem (r, c) (List.mem_cons_self ..))
    intro p hp
    unfold triSolve
    rcases List.mem_cons.1 hp with rfl | hp
    · simp only
      rw [triSolve_frame _ _ _ _ hcl, Function.update_self]
      refine hcongr _ _ _ (fun x hx => ?_) (fun a ha => ?_)
      · by_cases hxc : x = c
        · subst hxc; rw [Function.update_self]
        · rw [Function.update_of_ne hxc, triSolve_frame _ _ _ _ ?_, Function.update_of_ne hxc]
          intro h
          obtain ⟨b, hb, e⟩ := List.mem_map.1 h
          exact ho.1 b hb (e ▸ hx)
      · have hac : a ≠ c := by have := hlt (r, c) (List.mem_cons_self ..); simp only at this; omega
        rw [Function.update_of_ne hac, triSolve_frame _ _ _ _ ?_, Function.update_of_ne hac]
        intro h
        obtain ⟨b, hb, e⟩ := List.mem_map.1 h
        have := hlt b (List.mem_cons_of_mem _ hb)
        omega
    · have hpc : p.2 ≠ c := by
        intro e
        exact hcl (e ▸ List.mem_map_of_mem hp)
      have := ih ho.2 (fun p hp => hmem p (List.mem_cons_of_mem _ hp)) (fun p hp => hlt p (List.mem_cons_of_mem _ hp))
        (Function.update out c (rhs out r)) p hp
      rw [Function.update_of_ne hpc] at this
      exact this

theorem sum_update (row : List Nat) (hn : row.Nodup) (c : Nat) (hc : c ∈ row) (x : Nat → V) (y : V) :
    (row.map x).sum = x c - y + (row.map (Function.update x c y)).sum := by
  rw [← List.sum_map_erase x hc, ← List.sum_map_erase (Function.update x c y) hc, Function.update_self, ← add_assoc, sub_add_cancel]
  congr 2
  refine List.map_congr_left (fun a ha => ?_)
  rw [Function.update_of_ne]
  rintro rfl
  exact (hn.mem_erase_iff.1 ha).1 rfl

/-- After back substitution every row of the triangle has its value. -/
theorem tri_rows (h2 : ∀ x : V, x + x = 0) (v : Nat → V) (row : Nat → List Nat) (s : Nat) (dense : (Nat → V) → Nat → V)
    (hdense : ∀ x x' r, (∀ a, s ≤ a → x a = x' a) → dense x r = dense x' r) (rhs : (Nat → V) → Nat → V)
    (hrhs : ∀ x r, rhs x r = v r + ((row r).map x).sum + dense x r)
    (l : List (Nat × Nat)) (hord : l.Pairwise fun a b => b.2 ∉ row a.1) (hmem : ∀ p ∈ l, p.2 ∈ row p.1) (hlt : ∀ p ∈ l, p.2 < s)
    (hnd : ∀ p ∈ l, (row p.1).Nodup) (out : Nat → V) (h0 : ∀ p ∈ l, out p.2 = 0) :
    ∀ p ∈ l, ((row p.1).map (triSolve rhs l out)).sum + dense (triSolve rhs l out) p.1 = v p.1 := by
  intro p hp
  have hs := triSolve_spec rhs row s (fun x x' r h h' => by
    rw [hrhs, hrhs, hdense x x' r h', List.map_congr_left h]) l hord hmem hlt out p hp
  rw [h0 p hp, hrhs] at hs
  rw [sum_update (row p.1) (hnd p hp) p.2 (hmem p hp) _ 0, sub_zero]
  rw [hdense _ (triSolve rhs l out) p.1 (fun a ha => by
    rw [Function.update_of_ne]; have := hlt p hp; omega)] at hs
  generalize ((row p.1).map (Function.update (triSolve rhs l out) p.2 0)).sum = b at hs ⊢
  generalize dense (triSolve rhs l out) p.1 = d at hs ⊢
  rw [hs, add_assoc, add_assoc (v p.1), add_assoc, h2 (b + d), add_zero]

end Kunlun.OKVS
