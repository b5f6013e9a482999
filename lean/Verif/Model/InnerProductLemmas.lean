import Mathlib.Algebra.BigOperators.Group.List.Basic
import Mathlib.Algebra.BigOperators.Intervals
import Mathlib.Tactic.FieldSimp
import Mathlib.Tactic.LinearCombination
import Verif.Model.InnerProduct
import Verif.Props.Word
/-!
Lemmas about the inner-product model: linear combinations over `Z_q`, the vectors `s`, array copies.
-/

namespace Kunlun

theorem blit_append {α : Type} (pre rest xs : List α) (h : xs.length ≤ rest.length) (off : Nat) (hoff : off = pre.length) :
    blit (pre ++ rest) xs off = some (pre ++ xs ++ rest.drop xs.length) := by
  subst hoff
  unfold blit
  rw [if_neg (by simp; omega)]
  congr 1
  rw [List.take_left', List.drop_append]
  · simp
  · rfl

theorem blit_start {α : Type} (arr xs : List α) (h : xs.length ≤ arr.length) :
    blit arr xs 0 = some (xs ++ arr.drop xs.length) := by
  have := blit_append [] arr xs h 0 rfl
  simpa using this

theorem set_last {α : Type} (pre rest : List α) (z : α) (h : rest.length = 1) (n : Nat) (hn : n = pre.length) :
    (pre ++ rest).set n z = pre ++ [z] := by
  subst hn
  match rest, h with
  | [r], _ => simp

theorem resize_length {α : Type} (arr : List α) (n : Nat) (d : α) : (resize arr n d).length = n := by
  unfold resize
  simp
  omega

theorem powerOfTwo_iff (n : Nat) (h : n < 2 ^ 64) : powerOfTwo n = true ↔ ∃ k, n = 2 ^ k := by
  unfold powerOfTwo
  rw [Word.isPowerOfTwo_iff, BitVec.toNat_ofNat, Nat.mod_eq_of_lt h]

/-! ### Linear combinations -/

section dot

variable {F M : Type} [Field F] [AddCommGroup M] [Module F M]

/-- `Σ s_i • g_i`. -/
def dot (g : List M) (s : List F) : M := (List.zipWith (fun P c => c • P) g s).sum

@[simp] theorem dot_nil (s : List F) : dot ([] : List M) s = 0 := by simp [dot]
@[simp] theorem dot_nil' (g : List M) : dot g ([] : List F) = 0 := by simp [dot]
@[simp] theorem dot_cons (P : M) (g : List M) (c : F) (s : List F) : dot (P :: g) (c :: s) = c • P + dot g s := by simp [dot]

theorem dot_append (g g' : List M) (s s' : List F) (h : g.length = s.length) : dot (g ++ g') (s ++ s') = dot g s + dot g' s' := by
  unfold dot
  rw [List.zipWith_append h, List.sum_append]

theorem dot_mul (g : List M) (s : List F) (c : F) : dot g (s.map (c * ·)) = c • dot g s := by
  induction g generalizing s with
  | nil => simp
  | cons P g ih => cases s <;> simp [ih, mul_smul]

theorem dot_smul (g : List M) (s : List F) (c : F) : dot (g.map (c • ·)) s = c • dot g s := by
  induction g generalizing s with
  | nil => simp
  | cons P g ih => cases s <;> simp [ih, smul_comm c]

theorem dot_add_left (g g' : List M) (s : List F) (h : g.length = g'.length) :
    dot (List.zipWith (· + ·) g g') s = dot g s + dot g' s := by
  induction g generalizing g' s with
  | nil => cases g' <;> simp_all
  | cons P g ih =>
    cases g' with
    | nil => simp at h
    | cons P' g' =>
      cases s with
      | nil => simp
      | cons c s =>
        simp only [List.zipWith_cons_cons, dot_cons, ih g' s (by simpa using h)]
        module

theorem dot_add_right (g : List M) (s s' : List F) (h : s.length = s'.length) :
    dot g (List.zipWith (· + ·) s s') = dot g s + dot g s' := by
  induction g generalizing s s' with
  | nil => simp
  | cons P g ih =>
    cases s with
    | nil => cases s' <;> simp_all
    | cons c s =>
      cases s' with
      | nil => simp at h
      | cons c' s' =>
        simp only [List.zipWith_cons_cons, dot_cons, ih s s' (by simpa using h)]
        module

/-- One halving step of the generators against the halved scalars. -/
theorem fold_dot (x xi : F) (hx : x * xi = 1) (gL gR : List M) (aL aR : List F) (hg : gL.length = gR.length)
    (ha : aL.length = aR.length) :
    dot (List.zipWith (· + ·) (gL.map (xi • ·)) (gR.map (x • ·))) (List.zipWith (· + ·) (aL.map (x * ·)) (aR.map (xi * ·))) =
      dot gL aL + dot gR aR + (x * x) • dot gR aL + (xi * xi) • dot gL aR := by
  rw [dot_add_left _ _ _ (by simpa using hg), dot_add_right _ _ _ (by simpa using ha), dot_add_right _ _ _ (by simpa using ha)]
  simp only [dot_smul, dot_mul]
  have h1 : xi • x • dot gL aL = dot gL aL := by rw [← mul_smul, mul_comm, hx, one_smul]
  have h2 : x • xi • dot gR aR = dot gR aR := by rw [← mul_smul, hx, one_smul]
  have h3 : x • xi • dot gL aL = dot gL aL := by rw [← mul_smul, hx, one_smul]
  have h4 : xi • x • dot gR aR = dot gR aR := by rw [← mul_smul, mul_comm, hx, one_smul]
  simp only [h1, h2, h3, h4, smul_add, mul_smul]
  abel

/-- The verifier's scalars in the specification: `s_i` is the product of `x_j` or its inverse by the bits of `i`. -/
def svec : List F → List F
  | [] => [1]
  | x :: xs => (svec xs).map (x⁻¹ * ·) ++ (svec xs).map (x * ·)

theorem svec_length (xs : List F) : (svec xs).length = 2 ^ xs.length := by
  induction xs with
  | nil => rfl
  | cons x xs ih => simp [svec, ih, pow_succ]; ring

theorem svec_inv (xs : List F) : (svec xs).map (·⁻¹) = svec (xs.map (·⁻¹)) := by
  induction xs with
  | nil => simp [svec]
  | cons x xs ih =>
    simp only [svec, List.map_append, List.map_map, List.map_cons, ← ih]
    congr 1 <;> · apply List.map_congr_left; intro s _; simp [mul_comm]

theorem fold_svec (x : F) (xs : List F) (gL gR : List M) (hL : gL.length = 2 ^ xs.length) (hR : gR.length = 2 ^ xs.length) :
    dot (gL ++ gR) (svec (x :: xs)) = dot (List.zipWith (· + ·) (gL.map (x⁻¹ • ·)) (gR.map (x • ·))) (svec xs) := by
  rw [svec, dot_append _ _ _ _ (by simp [svec_length, hL]), dot_mul, dot_mul, dot_add_left _ _ _ (by simp [hL, hR]), dot_smul, dot_smul]

theorem svec_get (xs : List F) (i : Nat) (hi : i < 2 ^ xs.length) :
    (svec xs)[i]? = some (∏ j ∈ Finset.range xs.length,
      if i.testBit (xs.length - j - 1) then (xs[j]?).getD 0 else ((xs[j]?).getD 0)⁻¹) := by
  induction xs generalizing i with
  | nil =>
    have : i = 0 := by simpa using hi
    subst this
    simp [svec]
  | cons x xs ih =>
    rw [svec, List.length_cons, Finset.prod_range_succ']
    simp only [List.getElem?_cons_zero, Option.getD_some, List.getElem?_cons_succ]
    have e0 : xs.length + 1 - 0 - 1 = xs.length := by omega
    have ej : ∀ j, xs.length + 1 - (j + 1) - 1 = xs.length - j - 1 := by intro j; omega
    simp only [e0, ej]
    by_cases hlt : i < 2 ^ xs.length
    · rw [List.getElem?_append_left (by simpa [svec_length] using hlt), List.getElem?_map, ih i hlt]
      have hb : i.testBit xs.length = false := Nat.testBit_lt_two_pow hlt
      simp [hb, mul_comm]
    · have hi' : i - 2 ^ xs.length < 2 ^ xs.length := by
        rw [List.length_cons, pow_succ] at hi
        omega
      rw [List.getElem?_append_right (by simp [svec_length]; omega), List.getElem?_map, List.length_map, svec_length, ih _ hi']
      have hi2 : i = 2 ^ xs.length + (i - 2 ^ xs.length) := by omega
      have hb : i.testBit xs.length = true := by
        rw [hi2, Nat.testBit_two_pow_add_eq, Nat.testBit_lt_two_pow hi']; rfl
      have hbj : ∀ j ∈ Finset.range xs.length, (i - 2 ^ xs.length).testBit (xs.length - j - 1) = i.testBit (xs.length - j - 1) := by
        intro j hj
        have hj := Finset.mem_range.1 hj
        conv_rhs => rw [hi2]
        rw [Nat.testBit_two_pow_add_gt (by omega)]
      rw [Finset.prod_congr rfl (fun j hj => by rw [hbj j hj])]
      simp [hb, mul_comm]

end dot

section cast

variable {G : Type} [AddCommGroup G] (cv : Curve G)

/-- Residues of a list of scalars. -/
def residues (q : ℕ) (l : List ℤ) : List (ZMod q) := l.map (Int.cast : ℤ → ZMod q)

theorem residues_length (q : ℕ) (l : List ℤ) : (residues q l).length = l.length := by simp [residues]

theorem msm_cast (g : List G) (l : List ℤ) :
    haveI := cv.fact
    letI := cv.toModule
    msm g l = dot g (residues cv.order l) := by
  haveI := cv.fact
  letI := cv.toModule
  unfold residues
  induction g generalizing l with
  | nil => simp [msm]
  | cons P g ih =>
    cases l with
    | nil => simp [msm]
    | cons x l => rw [msm_cons, List.map_cons, dot_cons, ih, ← cv.cast_smul]

theorem dotLoop_cast (q : ℕ) [Fact q.Prime] (a b : List ℤ) (acc : ℤ) :
    ((BigInt.dotLoop a b acc : ℤ) : ZMod q) = acc + dot (residues q a) (residues q b) := by
  unfold residues
  induction a generalizing b acc with
  | nil => simp [BigInt.dotLoop]
  | cons x a ih =>
    cases b with
    | nil => simp [BigInt.dotLoop]
    | cons y b =>
      rw [BigInt.dotLoop, ih]
      simp only [List.map_cons, dot_cons, smul_eq_mul]
      push_cast
      ring

theorem inner_cast (a b : List ℤ) (h : a.length = b.length) :
    haveI := cv.fact
    ∃ c, BigInt.vecModInnerProduct a b cv.order = some c ∧ (c : ZMod cv.order) = dot (residues cv.order a) (residues cv.order b) := by
  haveI := cv.fact
  refine ⟨_, by unfold BigInt.vecModInnerProduct; rw [if_neg (by simpa using h)], ?_⟩
  rw [cv.cast_mod, dotLoop_cast]
  simp

theorem cast_modSquare (x : ℤ) : ((BigInt.modSquare x cv.order : ℤ) : ZMod cv.order) = (x : ZMod cv.order) * x := by
  have := cv.cast_mod (x * x)
  unfold BigInt.mod at this
  unfold BigInt.modSquare
  rw [this]
  push_cast
  rfl

theorem residues_scalar (l : List ℤ) (c : ℤ) :
    residues cv.order (BigInt.vecScalar l c) = (residues cv.order l).map ((c : ZMod cv.order) * ·) := by
  unfold residues BigInt.vecScalar
  rw [List.map_map, List.map_map]
  apply List.map_congr_left
  intro x _
  simp [mul_comm]

theorem residues_modScalar (l : List ℤ) (c : ℤ) :
    residues cv.order (BigInt.vecModScalar l c cv.order) = (residues cv.order l).map ((c : ZMod cv.order) * ·) := by
  unfold residues BigInt.vecModScalar
  rw [List.map_map, List.map_map]
  apply List.map_congr_left
  intro x _
  simp [cv.cast_mod, mul_comm]

theorem residues_modInverse (l : List ℤ) :
    residues cv.order (BigInt.vecModInverse l cv.order) = (residues cv.order l).map (·⁻¹) := by
  haveI := cv.fact
  unfold residues BigInt.vecModInverse
  rw [List.map_map, List.map_map]
  apply List.map_congr_left
  intro x _
  exact cv.cast_modInverse x

theorem residues_zipMod (f : ℤ → ℤ → ℤ) (f' : ZMod cv.order → ZMod cv.order → ZMod cv.order)
    (hf : ∀ x y : ℤ, ((f x y : ℤ) : ZMod cv.order) = f' x y) (a b : List ℤ) :
    residues cv.order (List.zipWith (fun x y => BigInt.mod (f x y) cv.order) a b) =
      List.zipWith f' (residues cv.order a) (residues cv.order b) := by
  unfold residues
  rw [List.map_zipWith, List.zipWith_map]
  congr 1
  funext x y
  rw [cv.cast_mod, hf]

theorem residues_modAdd (a b : List ℤ) (h : a.length = b.length) :
    ∃ c, BigInt.vecModAdd a b cv.order = some c ∧ c.length = a.length ∧
      residues cv.order c = List.zipWith (· + ·) (residues cv.order a) (residues cv.order b) := by
  refine ⟨_, by unfold BigInt.vecModAdd; rw [if_neg (by simpa using h)], by simp [h], ?_⟩
  exact residues_zipMod cv _ _ (by intro x y; push_cast; rfl) a b

theorem residues_modSub (a b : List ℤ) (h : a.length = b.length) :
    ∃ c, BigInt.vecModSub a b cv.order = some c ∧ c.length = a.length ∧
      residues cv.order c = List.zipWith (· - ·) (residues cv.order a) (residues cv.order b) := by
  refine ⟨_, by unfold BigInt.vecModSub; rw [if_neg (by simpa using h)], by simp [h], ?_⟩
  exact residues_zipMod cv _ _ (by intro x y; push_cast; rfl) a b

theorem residues_modProduct (a b : List ℤ) (h : a.length = b.length) :
    ∃ c, BigInt.vecModProduct a b cv.order = some c ∧ c.length = a.length ∧
      residues cv.order c = List.zipWith (· * ·) (residues cv.order a) (residues cv.order b) := by
  refine ⟨_, by unfold BigInt.vecModProduct; rw [if_neg (by simpa using h)], by simp [h], ?_⟩
  exact residues_zipMod cv _ _ (by intro x y; push_cast; rfl) a b

theorem ecScalar_cast (g : List G) (x : ℤ) :
    letI := cv.toModule
    ecVecScalar g x = g.map (((x : ZMod cv.order)) • ·) := by
  letI := cv.toModule
  unfold ecVecScalar
  apply List.map_congr_left
  intro P _
  exact cv.cast_smul x P

theorem reduced_eq (q : ℕ) (a b : ℤ) (ha : 0 ≤ a ∧ a < q) (hb : 0 ≤ b ∧ b < q) (h : (a : ZMod q) = b) : a = b := by
  rw [ZMod.intCast_eq_intCast_iff'] at h
  rwa [Int.emod_eq_of_lt ha.1 ha.2, Int.emod_eq_of_lt hb.1 hb.2] at h

end cast

namespace InnerProduct

variable {G : Type} [AddCommGroup G] (cv : Curve G)

theorem foldl_bits (q : ℕ) (hcast : ∀ x : ℤ, ((BigInt.mod x q : ℤ) : ZMod q) = x) (xs xis : List ℤ) (i m n : Nat) :
    (((List.range n).foldl (fun s j => if nthBit i j m then BigInt.mod (s * (xs[j]?).getD 0) q
        else BigInt.mod (s * (xis[j]?).getD 0) q) (1 : ℤ) : ℤ) : ZMod q) =
      ∏ j ∈ Finset.range n, if i.testBit (m - j - 1) then (((xs[j]?).getD 0 : ℤ) : ZMod q) else (((xis[j]?).getD 0 : ℤ) : ZMod q) := by
  induction n with
  | zero => simp
  | succ n ih =>
    rw [List.range_succ, List.foldl_append, List.foldl_cons, List.foldl_nil, Finset.prod_range_succ, ← ih]
    unfold nthBit
    split <;> · rw [hcast]; push_cast; rfl

theorem computeSS_length (q n : Nat) (xs xis : List ℤ) : (computeSS q n xs xis).length = n := by simp [computeSS]

theorem computeSS_svec (xs : List ℤ) :
    haveI := cv.fact
    residues cv.order (computeSS cv.order (2 ^ xs.length) xs (xs.map fun x => BigInt.modInverse x cv.order)) =
      svec (residues cv.order xs) := by
  haveI := cv.fact
  apply List.ext_getElem?
  intro i
  by_cases hi : i < 2 ^ xs.length
  · rw [svec_get _ _ (by simpa [residues] using hi)]
    unfold residues computeSS
    rw [List.getElem?_map, List.getElem?_map, List.getElem?_range hi, Option.map_some, Option.map_some, Option.some.injEq,
      foldl_bits _ cv.cast_mod, List.length_map]
    apply Finset.prod_congr rfl
    intro j hj
    have hj := Finset.mem_range.1 hj
    rw [List.getElem?_map, List.getElem?_map, List.getElem?_eq_getElem hj]
    simp only [Option.map_some, Option.getD_some]
    rw [cv.cast_modInverse]
  · rw [List.getElem?_eq_none (by rw [residues_length, computeSS_length]; omega),
      List.getElem?_eq_none (by rw [svec_length, residues_length]; omega)]

theorem computeSS_range (n : Nat) (xs xis : List ℤ) : ∀ s ∈ computeSS cv.order n xs xis, 0 ≤ s ∧ s < cv.order := by
  unfold computeSS
  simp only [List.mem_map, List.mem_range]
  rintro s ⟨i, _, rfl⟩
  generalize xs.length = m
  have : ∀ k, 0 ≤ (List.range k).foldl (fun s j => if nthBit i j m then BigInt.mod (s * (xs[j]?).getD 0) cv.order
        else BigInt.mod (s * (xis[j]?).getD 0) cv.order) (1 : ℤ) ∧ (List.range k).foldl (fun s j => if nthBit i j m then BigInt.mod (s * (xs[j]?).getD 0) cv.order
        else BigInt.mod (s * (xis[j]?).getD 0) cv.order) (1 : ℤ) < cv.order := by
    intro k
    cases k with
    | zero =>
      have : (1 : ℤ) < cv.order := by exact_mod_cast cv.prime.one_lt
      simpa using this
    | succ k =>
      rw [List.range_succ, List.foldl_append, List.foldl_cons, List.foldl_nil]
      split <;> exact cv.mod_range _
  exact this m

theorem fastLoop_length (q m : Nat) (xsq : List ℤ) (s0 : ℤ) (n : Nat) : (fastLoop q m xsq s0 n).length = n + 1 := by
  induction n with
  | zero => rfl
  | succ n ih => simp [fastLoop, ih]

theorem fastLoop_prefix (q m : Nat) (xsq : List ℤ) (s0 : ℤ) (n i : Nat) (hi : i ≤ n) :
    (fastLoop q m xsq s0 n)[i]? = (fastLoop q m xsq s0 i)[i]? := by
  induction n with
  | zero => have : i = 0 := by omega
            subst this; rfl
  | succ n ih =>
    by_cases h : i = n + 1
    · subst h; rfl
    · rw [← ih (by omega), fastLoop]
      rw [List.getElem?_append_left (by rw [fastLoop_length]; omega)]

theorem foldl_mul (l : List ℤ) (z : ℤ) : l.foldl (· * ·) z = z * l.prod := by
  induction l generalizing z with
  | nil => simp
  | cons x l ih => rw [List.foldl_cons, ih, List.prod_cons]; ring

theorem prod_range_getD {R : Type} [CommMonoid R] (l : List R) (d : R) : l.prod = ∏ j ∈ Finset.range l.length, (l[j]?).getD d := by
  induction l with
  | nil => simp
  | cons x l ih => rw [List.prod_cons, List.length_cons, Finset.prod_range_succ', ih]; simp [mul_comm]

/-- Flipping the top bit of the index multiplies the product by the square of the challenge. -/
theorem bitProd_step {F : Type} [Field F] (y : Nat → F) (m i k : Nat) (hi : i < 2 ^ k) (hk : k < m) :
    ∏ j ∈ Finset.range m, (if (2 ^ k + i).testBit (m - j - 1) then y j else (y j)⁻¹) =
      (∏ j ∈ Finset.range m, if i.testBit (m - j - 1) then y j else (y j)⁻¹) * (y (m - 1 - k) * y (m - 1 - k)) := by
  have hmem : m - 1 - k ∈ Finset.range m := Finset.mem_range.2 (by omega)
  rw [← Finset.mul_prod_erase _ _ hmem, ← Finset.mul_prod_erase _ (fun j => if i.testBit (m - j - 1) then y j else (y j)⁻¹) hmem]
  have e : m - (m - 1 - k) - 1 = k := by omega
  rw [e, Nat.testBit_two_pow_add_eq, Nat.testBit_lt_two_pow hi]
  simp only [Bool.not_false, if_true]
  have : ∀ j ∈ (Finset.range m).erase (m - 1 - k), (2 ^ k + i).testBit (m - j - 1) = i.testBit (m - j - 1) := by
    intro j hj
    rw [Finset.mem_erase, Finset.mem_range] at hj
    by_cases hlt : m - j - 1 < k
    · exact Nat.testBit_two_pow_add_gt hlt i
    · have h1 : k + 1 ≤ m - j - 1 := by omega
      have h2 : 2 ^ (k + 1) ≤ 2 ^ (m - j - 1) := Nat.pow_le_pow_right (by omega) h1
      rw [Nat.testBit_lt_two_pow (by rw [pow_succ] at h2; omega), Nat.testBit_lt_two_pow (by rw [pow_succ] at h2; omega)]
  rw [Finset.prod_congr rfl (fun j hj => by rw [this j hj])]
  by_cases h0 : y (m - 1 - k) = 0
  · rw [h0]; simp
  · simp only [Bool.false_eq_true, if_false]
    field_simp

/-- Every entry of the fast table, for all challenges (also zero ones, whose computed inverse is zero). -/
theorem fastLoop_get (xs : List ℤ) (i : Nat) (hi : i < 2 ^ xs.length) :
    haveI := cv.fact
    ∃ s, (fastLoop cv.order xs.length (xs.map fun x => BigInt.modSquare x cv.order)
        (BigInt.mod ((xs.map fun x => BigInt.modInverse x cv.order).foldl (· * ·) 1) cv.order) i)[i]? = some s ∧
      (0 ≤ s ∧ s < cv.order) ∧
      (s : ZMod cv.order) = ∏ j ∈ Finset.range xs.length,
        if i.testBit (xs.length - j - 1) then (((xs[j]?).getD 0 : ℤ) : ZMod cv.order) else (((xs[j]?).getD 0 : ℤ) : ZMod cv.order)⁻¹ := by
  haveI := cv.fact
  induction i using Nat.strong_induction_on with
  | _ i ih =>
    cases i with
    | zero =>
      refine ⟨_, rfl, cv.mod_range _, ?_⟩
      rw [cv.cast_mod, foldl_mul, one_mul, Int.cast_list_prod, prod_range_getD _ 1, List.length_map, List.length_map]
      apply Finset.prod_congr rfl
      intro j hj
      have hj := Finset.mem_range.1 hj
      simp [hj, cv.cast_modInverse]
    | succ i =>
      have hlog : 2 ^ (i + 1).log2 ≤ i + 1 := Nat.log2_self_le (by omega)
      have hlog' : i + 1 < 2 ^ ((i + 1).log2 + 1) := Nat.lt_log2_self
      have hkm : (i + 1).log2 < xs.length := by
        by_contra hc
        have : 2 ^ xs.length ≤ 2 ^ (i + 1).log2 := Nat.pow_le_pow_right (by omega) (by omega)
        omega
      rw [fastLoop]
      generalize hk : (i + 1).log2 = k at *
      have hpos : 0 < 2 ^ k := Nat.pow_pos (by omega)
      obtain ⟨s, hs, _, hv⟩ := ih (i + 1 - 2 ^ k) (by omega) (by omega)
      rw [← fastLoop_prefix _ _ _ _ i _ (by omega)] at hs
      simp only [hs, Option.getD_some]
      rw [List.getElem?_append_right (by rw [fastLoop_length]), fastLoop_length, Nat.sub_self]
      refine ⟨_, rfl, cv.mod_range _, ?_⟩
      rw [cv.cast_mod]
      push_cast
      rw [hv]
      have hi' : i + 1 - 2 ^ k < 2 ^ k := by rw [pow_succ] at hlog'; omega
      have := bitProd_step (fun j => (((xs[j]?).getD 0 : ℤ) : ZMod cv.order)) xs.length (i + 1 - 2 ^ k) k hi' hkm
      have e : 2 ^ k + (i + 1 - 2 ^ k) = i + 1 := by omega
      rw [e] at this
      rw [this]
      have hj : xs.length - 1 - k < xs.length := by omega
      simp [hj, cast_modSquare]

/-- C37: the two scalar tables are equal, entry by entry, for every list of challenges. -/
theorem fastSS_eq (xs : List ℤ) :
    fastSS cv.order (xs.map fun x => BigInt.modSquare x cv.order) (xs.map fun x => BigInt.modInverse x cv.order) =
      computeSS cv.order (2 ^ xs.length) xs (xs.map fun x => BigInt.modInverse x cv.order) := by
  haveI := cv.fact
  have hpos : 0 < 2 ^ xs.length := Nat.pow_pos (by omega)
  unfold fastSS
  rw [List.length_map]
  apply List.ext_getElem?
  intro i
  by_cases hi : i < 2 ^ xs.length
  · rw [fastLoop_prefix _ _ _ _ _ _ (by omega)]
    obtain ⟨s, hs, hr, hv⟩ := fastLoop_get cv xs i hi
    rw [hs]
    have hlen : i < (computeSS cv.order (2 ^ xs.length) xs (xs.map fun x => BigInt.modInverse x cv.order)).length := by
      rw [computeSS_length]; exact hi
    rw [List.getElem?_eq_getElem hlen, Option.some.injEq]
    apply reduced_eq cv.order _ _ hr (computeSS_range cv _ _ _ _ (List.getElem_mem hlen))
    rw [hv]
    have h1 := congrArg (fun l => l[i]?) (computeSS_svec cv xs)
    rw [svec_get _ _ (by rw [residues_length]; exact hi)] at h1
    unfold residues at h1
    rw [List.getElem?_map, List.getElem?_eq_getElem hlen, Option.map_some, Option.some.injEq] at h1
    rw [h1, List.length_map]
    apply Finset.prod_congr rfl
    intro j hj
    have hj := Finset.mem_range.1 hj
    simp [hj]
  · rw [List.getElem?_eq_none (by rw [fastLoop_length]; omega), List.getElem?_eq_none (by rw [computeSS_length]; omega)]

end InnerProduct

end Kunlun
