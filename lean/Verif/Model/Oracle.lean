import Verif.Model.Block
import Mathlib.Algebra.BigOperators.Ring.Finset
import Mathlib.Data.Real.Basic
import Mathlib.Data.Fintype.BigOperators
/-!
Random oracles as used in statements about hash functions that behave like random functions: all functions from a finite set of strings to
a finite set of values are equally likely. Nothing of the code is modelled here. The main lemma says how a program that sets values of the
oracle (a simulator) compares with one that reads them.
-/

namespace Kunlun.Oracle

open Finset

variable {V : Type} {Q : Finset Bytes}

/-- The value at a string; strings outside `Q` have the value `v0`. -/
def ext (v0 : V) (o : Q → V) (b : Bytes) : V := if h : b ∈ Q then o ⟨b, h⟩ else v0

/-- The oracle with one value set. -/
def put (o : Q → V) (b : Bytes) (e : V) : Q → V := fun c => if c.1 = b then e else o c

/-- The oracle with several values set. -/
def prog : List (Bytes × V) → (Q → V) → Q → V
  | [], o => o
  | (b, e) :: l, o => put (prog l o) b e

theorem ext_put (v0 : V) (o : Q → V) (b : Bytes) (e : V) (h : b ∈ Q) : ext v0 (put o b e) b = e := by
  simp [ext, put, h]

theorem ext_put_ne (v0 : V) (o : Q → V) (b c : Bytes) (e : V) (h : c ≠ b) : ext v0 (put o b e) c = ext v0 o c := by
  simp [ext, put, h]

theorem put_put (o : Q → V) (b : Bytes) (e e' : V) : put (put o b e) b e' = put o b e' := by
  funext c
  unfold put
  split <;> simp_all

theorem put_comm (o : Q → V) (b c : Bytes) (e e' : V) (h : b ≠ c) : put (put o b e) c e' = put (put o c e') b e := by
  funext d
  unfold put
  split <;> split <;> simp_all

theorem put_ext (v0 : V) (o : Q → V) (b : Bytes) : put o b (ext v0 o b) = o := by
  funext c
  unfold put ext
  split
  · next h => subst h; simp
  · rfl

theorem prog_put (l : List (Bytes × V)) (o : Q → V) (b : Bytes) (e : V) (h : b ∉ l.map Prod.fst) :
    prog l (put o b e) = put (prog l o) b e := by
  induction l with
  | nil => rfl
  | cons x l ih =>
    obtain ⟨c, a⟩ := x
    simp only [List.map_cons, List.mem_cons, not_or] at h
    rw [prog, prog, ih h.2, put_comm _ _ _ _ _ h.1]

theorem prog_append (l l' : List (Bytes × V)) (o : Q → V) : prog (l ++ l') o = prog l (prog l' o) := by
  induction l with
  | nil => rfl
  | cons x l ih =>
    obtain ⟨c, a⟩ := x
    rw [List.cons_append, prog, prog, ih]

theorem ext_prog (v0 : V) (l : List (Bytes × V)) (o : Q → V) (b : Bytes) (h : b ∉ l.map Prod.fst) :
    ext v0 (prog l o) b = ext v0 o b := by
  induction l with
  | nil => rfl
  | cons x l ih =>
    obtain ⟨c, a⟩ := x
    simp only [List.map_cons, List.mem_cons, not_or] at h
    rw [prog, ext_put_ne _ _ _ _ _ h.1, ih h.2]

variable [Fintype V] [DecidableEq V]

/-- Reading the value at a point and going on if it is `e` is, on average, as good as setting it to `e`. The point may depend on the other
values of the oracle. -/
theorem sum_step (v0 : V) (l : List (Bytes × V)) (p : (Q → V) → Bytes) (f : (Q → V) → ℝ) (e : V)
    (h1 : ∀ o, p (prog l o) ∈ Q) (h2 : ∀ o, p (prog l o) ∉ l.map Prod.fst)
    (h3 : ∀ o a, p (prog l (put o (p (prog l o)) a)) = p (prog l o)) :
    (Fintype.card V : ℝ) * ∑ o, (if ext v0 (prog l o) (p (prog l o)) = e then f (prog l o) else 0) =
      ∑ o, f (prog l (put o (p (prog l o)) e)) := by
  have inv : Function.Involutive (fun x : (Q → V) × V => (put x.1 (p (prog l x.1)) x.2, ext v0 x.1 (p (prog l x.1)))) := by
    rintro ⟨o, a⟩
    simp only [h3, put_put, put_ext, ext_put _ _ _ _ (h1 o)]
  have key := Equiv.sum_comp inv.toPerm (fun x : (Q → V) × V => if ext v0 (prog l x.1) (p (prog l x.1)) = e then f (prog l x.1) else 0)
  rw [Fintype.sum_prod_type, Fintype.sum_prod_type] at key
  have e1 : ∑ o : Q → V, ∑ _a : V, (if ext v0 (prog l o) (p (prog l o)) = e then f (prog l o) else 0) =
      (Fintype.card V : ℝ) * ∑ o, (if ext v0 (prog l o) (p (prog l o)) = e then f (prog l o) else 0) := by
    rw [mul_sum]
    refine sum_congr rfl fun o _ => ?_
    rw [sum_const, card_univ, nsmul_eq_mul]
  rw [← e1, ← key]
  refine sum_congr rfl fun o _ => ?_
  rw [sum_eq_single e]
  · show (if ext v0 (prog l (put o (p (prog l o)) e)) (p (prog l (put o (p (prog l o)) e))) = e then _ else _) = _
    rw [h3, if_pos]
    · rfl
    · rw [prog_put _ _ _ _ (h2 o), ext_put _ _ _ _ (h1 o)]
  · intro a _ ha
    show (if ext v0 (prog l (put o (p (prog l o)) a)) (p (prog l (put o (p (prog l o)) a))) = e then _ else _) = _
    rw [h3, if_neg]
    rw [prog_put _ _ _ _ (h2 o), ext_put _ _ _ _ (h1 o)]
    exact ha
  · intro h
    exact absurd (mem_univ _) h

/-- The same for a point that does not depend on the oracle. -/
theorem sum_step_const (v0 : V) (l : List (Bytes × V)) (b : Bytes) (f : (Q → V) → ℝ) (e : V) (h1 : b ∈ Q) (h2 : b ∉ l.map Prod.fst) :
    (Fintype.card V : ℝ) * ∑ o, (if ext v0 (prog l o) b = e then f (prog l o) else 0) = ∑ o, f (prog (l ++ [(b, e)]) o) := by
  rw [sum_step v0 l (fun _ => b) f e (fun _ => h1) (fun _ => h2) fun _ _ => rfl]
  refine sum_congr rfl fun o _ => ?_
  rw [prog_append]
  rfl

/-- One challenge of a proof: if for every oracle the sum over the prover's scalars is the sum over challenges and simulator's scalars,
restricted to challenges that the oracle gives, then on average the simulator may set the value. -/
theorem stage {A B : Type} [Fintype A] [Fintype B] (v0 : V) (l : List (Bytes × V)) (F : (Q → V) → A → ℝ) (P : V → B → Bytes)
    (F' : (Q → V) → V → B → ℝ) (h : ∀ o, ∑ a, F o a = ∑ e, ∑ b, if ext v0 o (P e b) = e then F' o e b else 0)
    (hQ : ∀ e b, P e b ∈ Q) (hl : ∀ e b, P e b ∉ l.map Prod.fst) :
    (Fintype.card V : ℝ) * ∑ o, ∑ a, F (prog l o) a = ∑ e, ∑ b, ∑ o, F' (prog (l ++ [(P e b, e)]) o) e b := by
  simp only [h]
  rw [sum_comm, mul_sum]
  refine sum_congr rfl fun e _ => ?_
  rw [sum_comm, mul_sum]
  refine sum_congr rfl fun b _ => ?_
  exact sum_step_const v0 l (P e b) (fun o => F' o e b) e (hQ e b) (hl e b)

omit [Fintype V] in
/-- Splitting a sum by the value read. -/
theorem sum_read {A : Type} [Fintype A] [Fintype V] (O : Bytes → V) (p : A → Bytes) (g : A → V → ℝ) :
    ∑ a, g a (O (p a)) = ∑ e, ∑ a, if O (p a) = e then g a e else 0 := by
  rw [sum_comm]
  refine sum_congr rfl fun a _ => ?_
  rw [sum_ite_eq]
  simp

end Kunlun.Oracle
