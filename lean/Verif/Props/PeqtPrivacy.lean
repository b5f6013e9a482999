import Verif.Props.DdhMpc
import Mathlib.Logic.Equiv.Fintype
import Mathlib.Logic.Equiv.Sum
import Mathlib.Data.Finite.Sum
/-!
Property C113: what the receiver of the permuted equality test (`mpc/peqt/peqt_from_ddh.hpp`) sees besides its bits.

The sender's key enters its messages only through `F z = k·H(z)`. The receiver gets the values `F y` and, after unblinding, the values `F x`, both moved by
the same secret row and column permutations. It can therefore compare any `y` with any `x`, not only those at the same position, and
any two `x` with each other.
-/

namespace Kunlun.DDHPEQT

open Kunlun Kunlun.Proto

variable {G : Type} [AddCommGroup G]

/-- The receiver (`receive`) that ends with what it received. -/
def viewReceive (net : Net G) (H : Block → G) (r : ℤ) (X : List Block) : Proc (List G × List G) :=
  sendPoints net (X.map fun x => r • H x) <| recvPoints net X.length fun FY => recvPoints net X.length fun FX => .done (FY, FX)

/-- **C113** The messages of a run: both matrices arrive moved by the sender's permutation `map`. -/
theorem peqt_view (cv : Curve G) (net : Net G) (hn : net.Ok) (H : Block → G) (k r : ℤ) (rowMap colMap s1 s2 : List Nat)
    (rows cols : Nat) (Y X : List Block) (hY : Y.length = rows * cols) (hX : X.length = rows * cols) (hrow : IsPerm rowMap rows)
    (hcol : IsPerm colMap cols) (h1 : IsPerm s1 (rows * cols)) (h2 : IsPerm s2 (rows * cols)) (hk : 0 < k ∧ k < cv.order)
    (hr : 0 < r ∧ r < cv.order) (hH : ∀ x, x ∈ X ∨ x ∈ Y → H x ≠ 0) :
    ∃ map FY FX, Runs (send net H k rowMap colMap s1 s2 Y rows cols) (viewReceive net H r X) map (FY, FX) ∧ IsPerm map (rows * cols) ∧
      FY.length = rows * cols ∧ FX.length = rows * cols ∧
      (∀ i j a b, rowMap[i]? = some a → colMap[j]? = some b → map[i * cols + j]? = some (a * cols + b)) ∧
      ∀ (i t : Nat) x y, map[i]? = some t → X[i]? = some x → Y[i]? = some y → FY[t]? = some (k • H y) ∧ FX[t]? = some (r • k • H x) := by
  obtain ⟨map, m1, m2, m3⟩ := permutationMap_spec rowMap colMap rows cols hrow hcol
  obtain ⟨FY, y1, y2, y3⟩ := scatter_spec map (fun i => k • H (Y.getD i 0)) _ m2 s1 h1 (0 : G)
  obtain ⟨FX, x1, x2, x3⟩ := scatter_spec map (fun i => k • (X.map fun x => r • H x).getD i 0) _ m2 s2 h2 (0 : G)
  have hXg : ∀ i < rows * cols, X[i]? = some (X.getD i 0) := fun i hi => by simp [List.getD, hX, hi]
  have hYg : ∀ i < rows * cols, Y[i]? = some (Y.getD i 0) := fun i hi => by simp [List.getD, hY, hi]
  have hmg : ∀ i < rows * cols, (X.map fun x => r • H x).getD i 0 = r • H (X.getD i 0) := fun i hi =>
    getD_of_getElem? (by rw [List.getElem?_map, hXg i hi]; rfl)
  refine ⟨map, FY, FX, ?_, m2, y2, x2, m3, ?_⟩
  · unfold send viewReceive
    rw [hY, m1]
    simp only [y1]
    refine .pointsRL net hn (by simp [hX]) ?_ (.pointsLR net hn (by omega) ?_ ?_)
    · intro p hp
      rw [List.mem_map] at hp
      obtain ⟨x, hx, rfl⟩ := hp
      exact cv.smul_ne_zero hr.1 hr.2 (hH x (.inl hx))
    · intro p hp
      obtain ⟨i, hi, rfl⟩ := scatter_mem map _ _ m2 FY y2 y3 p hp
      exact cv.smul_ne_zero hk.1 hk.2 (hH _ (.inr (List.mem_of_getElem? (hYg i hi))))
    · rw [x1]
      refine .pointsLR net hn (by omega) ?_ (.done _ _)
      intro p hp
      obtain ⟨i, hi, rfl⟩ := scatter_mem map _ _ m2 FX x2 x3 p hp
      rw [hmg i hi]
      exact cv.smul_ne_zero hk.1 hk.2 (cv.smul_ne_zero hr.1 hr.2 (hH _ (.inl (List.mem_of_getElem? (hXg i hi)))))
  · intro i t x y hi hx hy
    have hin : i < rows * cols := by
      obtain ⟨a, -⟩ := List.getElem?_eq_some_iff.1 hi
      rw [m2.length] at a
      exact a
    rw [y3 i t hi, x3 i t hi, hmg i hin, getD_of_getElem? hx, getD_of_getElem? hy, smul_comm k r]
    exact ⟨rfl, rfl⟩

theorem smul_inj (cv : Curve G) {k : ℤ} (h0 : 0 < k) (h1 : k < cv.order) {P Q : G} : k • P = k • Q ↔ P = Q := by
  constructor
  · intro h
    have h' := congrArg (fun P => BigInt.modInverse k cv.order • P) h
    simpa only [cv.unblind h0 h1] using h'
  · intro h; rw [h]

/-- **C113 (violation)** The receiver sees at which (moved) positions `s`, `t` the sender's item of `s` equals its own item of `t`, also when the two items stand at
different positions; and it sees which of its own items at `s`, `t` are equal. -/
theorem peqt_reveals_matches (cv : Curve G) (H : Block → G) (k r : ℤ) (hk : 0 < k ∧ k < cv.order) (hr : 0 < r ∧ r < cv.order) (map : List Nat)
    (X Y : List Block) (FY FX : List G)
    (h : ∀ (i t : Nat) x y, map[i]? = some t → X[i]? = some x → Y[i]? = some y → FY[t]? = some (k • H y) ∧ FX[t]? = some (r • k • H x))
    (i j s t : Nat) (x x' y y' : Block) (hi : map[i]? = some s) (hj : map[j]? = some t) (hx : X[i]? = some x) (hy : Y[i]? = some y)
    (hx' : X[j]? = some x') (hy' : Y[j]? = some y') :
    (FY.getD s 0 = BigInt.modInverse r cv.order • FX.getD t 0 ↔ H y = H x') ∧ (FX.getD s 0 = FX.getD t 0 ↔ H x = H x') := by
  obtain ⟨a, b⟩ := h i s x y hi hx hy
  obtain ⟨-, d⟩ := h j t x' y' hj hx' hy'
  rw [getD_of_getElem? a, getD_of_getElem? b, getD_of_getElem? d, cv.unblind hr.1 hr.2, smul_inj cv hk.1 hk.2, smul_inj cv hr.1 hr.2,
    smul_inj cv hk.1 hk.2]
  exact ⟨Iff.rfl, Iff.rfl⟩

/-- **C113 (violation)** If one item of the receiver is the only one that occurs once, the receiver finds the position it was moved to, and with it the bit that
says whether the sender has this item at this place: the permutation does not hide it. -/
theorem peqt_reveals_position (cv : Curve G) (H : Block → G) (k r : ℤ) (hk : 0 < k ∧ k < cv.order) (hr : 0 < r ∧ r < cv.order) (n : Nat) (map : List Nat)
    (hm : IsPerm map n) (X Y : List Block) (hX : X.length = n) (hY : Y.length = n) (hinj : ∀ x ∈ X, ∀ x' ∈ X, H x = H x' → x = x') (FY FX : List G)
    (h : ∀ (i t : Nat) x y, map[i]? = some t → X[i]? = some x → Y[i]? = some y → FY[t]? = some (k • H y) ∧ FX[t]? = some (r • k • H x))
    (i : Nat) (hi : i < n) (once : ∀ j < n, (∀ l < n, l ≠ j → X[l]? ≠ X[j]?) ↔ j = i) :
    ∀ t < n, (∀ u < n, u ≠ t → FX.getD u 0 ≠ FX.getD t 0) ↔ map[i]? = some t := by
  have hXg : ∀ i < n, X[i]? = some (X.getD i 0) := fun i hi => by simp [List.getD, hX, hi]
  have hYg : ∀ i < n, Y[i]? = some (Y.getD i 0) := fun i hi => by simp [List.getD, hY, hi]
  have eqv : ∀ (a b s t : Nat), map[a]? = some s → map[b]? = some t → a < n → b < n → (FX.getD s 0 = FX.getD t 0 ↔ X[a]? = X[b]?) := by
    intro a b s t ha hb hla hlb
    rw [(peqt_reveals_matches cv H k r hk hr map X Y FY FX h a b s t _ _ _ _ ha hb (hXg a hla) (hYg a hla) (hXg b hlb) (hYg b hlb)).2, hXg a hla,
      hXg b hlb, Option.some.injEq]
    exact ⟨hinj _ (List.mem_of_getElem? (hXg a hla)) _ (List.mem_of_getElem? (hXg b hlb)), fun e => by rw [e]⟩
  intro t ht
  obtain ⟨j, hj, hjt⟩ := hm.surj ht
  have key : (∀ u < n, u ≠ t → FX.getD u 0 ≠ FX.getD t 0) ↔ ∀ l < n, l ≠ j → X[l]? ≠ X[j]? := by
    constructor
    · intro hu l hl hlj he
      obtain ⟨u, hlu⟩ : ∃ u, map[l]? = some u := ⟨_, List.getElem?_eq_getElem (by rw [hm.length]; exact hl)⟩
      exact hu u (hm.lt hlu) (fun e => hlj (hm.inj (e ▸ hlu) hjt)) ((eqv l j u t hlu hjt hl hj).2 he)
    · intro hl u hu hut he
      obtain ⟨l, hln, hlu⟩ := hm.surj hu
      refine hl l hln (fun e => hut ?_) ((eqv l j u t hlu hjt hln hj).1 he)
      rw [e, hjt] at hlu
      exact (Option.some.inj hlu).symm
  rw [key, once j hj]
  constructor
  · rintro rfl; exact hjt
  · intro hit
    exact hm.inj hjt hit

/-- **C113** What the permutation and the sender's function do hide. Let the receiver's items be different from each other, and let `Y` and `Y'` be two matrices of
different items of the sender whose matches with the receiver's items (at any positions) differ by a permutation `σ` of the rows and `κ` of the columns. There is a
renaming `ρ` of items such that a sender with `Y'`, function `F ∘ ρ⁻¹` and permutations `α σ⁻¹`, `β κ⁻¹` shows the receiver what a sender with `Y`, function `F` and
permutations `α`, `β` shows it. Missing: that matches at different positions, and equal items of the receiver, do not show, which is false
(`peqt_reveals_matches`, `peqt_reveals_position`). -/
theorem peqt_view_hides_partial {rows cols : Nat} (X Y Y' : Fin rows × Fin cols → Block) (σ : Equiv.Perm (Fin rows)) (κ : Equiv.Perm (Fin cols))
    (hX : Function.Injective X) (hY : Function.Injective Y) (hY' : Function.Injective Y')
    (hb : ∀ p q : Fin rows × Fin cols, Y p = X q ↔ Y' (σ p.1, κ p.2) = X (σ q.1, κ q.2)) :
    ∃ ρ : Equiv.Perm Block, ∀ (F : Block → G) (α : Equiv.Perm (Fin rows)) (β : Equiv.Perm (Fin cols)) (p : Fin rows × Fin cols),
      (F ∘ ρ.symm) (Y' ((α * σ⁻¹).symm p.1, (β * κ⁻¹).symm p.2)) = F (Y (α.symm p.1, β.symm p.2)) ∧
      (F ∘ ρ.symm) (X ((α * σ⁻¹).symm p.1, (β * κ⁻¹).symm p.2)) = F (X (α.symm p.1, β.symm p.2)) := by
  classical
  let τ : Equiv.Perm (Fin rows × Fin cols) := σ.prodCongr κ
  have hfin : Finite Block := Finite.of_injective (fun b : Block => (⟨b.toNat, b.isLt⟩ : Fin (2 ^ 128))) fun a b h => BitVec.eq_of_toNat_eq (Fin.mk.inj h)
  have hb' : ∀ p q, Y p = X q ↔ Y' (τ p) = X (τ q) := hb
  obtain ⟨ρ, hρ⟩ := Equiv.Perm.exists_extending_pair (α := (Fin rows × Fin cols) ⊕ {p // ∀ q, Y p ≠ X q}) (β := Block)
    (Sum.elim X fun p => Y p.1) (Sum.elim (fun q => X (τ q)) fun p => Y' (τ p.1)) (by
      rintro (a | a) (b | b) h
      · exact congrArg Sum.inl (hX h)
      · exact absurd h.symm (b.2 a)
      · exact absurd h (a.2 b)
      · exact congrArg Sum.inr (Subtype.ext (hY h))) (by
      have cross : ∀ (p : {p // ∀ q, Y p ≠ X q}) q, Y' (τ p.1) ≠ X (τ q) := fun p q h => p.2 q ((hb' _ _).2 h)
      rintro (a | a) (b | b) h
      · exact congrArg Sum.inl (τ.injective (hX h))
      · exact absurd h.symm (cross b a)
      · exact absurd h (cross a b)
      · exact congrArg Sum.inr (Subtype.ext (τ.injective (hY' h))))
  have rX : ∀ q, ρ (X q) = X (τ q) := fun q => hρ (.inl q)
  have rY : ∀ p, ρ (Y p) = Y' (τ p) := by
    intro p
    by_cases h : ∀ q, Y p ≠ X q
    · exact hρ (.inr ⟨p, h⟩)
    · push Not at h
      obtain ⟨q, hq⟩ := h
      rw [hq, rX, (hb' p q).1 hq]
  refine ⟨ρ, fun F α β p => ?_⟩
  have e : ((α * σ⁻¹).symm p.1, (β * κ⁻¹).symm p.2) = τ (α.symm p.1, β.symm p.2) := by
    have h1 : (α * σ⁻¹).symm p.1 = σ (α.symm p.1) := by
      rw [Equiv.symm_apply_eq]
      simp
    have h2 : (β * κ⁻¹).symm p.2 = κ (β.symm p.2) := by
      rw [Equiv.symm_apply_eq]
      simp
    rw [h1, h2]
    rfl
  rw [e, Function.comp_apply, Function.comp_apply, ← rY, ← rX, Equiv.symm_apply_apply, Equiv.symm_apply_apply]
  exact ⟨rfl, rfl⟩

/-- One row and two columns: the receiver has 1, 2; the sender has 1, 5 or 6, 2, which is the same up to exchanging the columns. -/
example : ∃ ρ : Equiv.Perm Block, ∀ (F : Block → ZMod 7) (α : Equiv.Perm (Fin 1)) (β : Equiv.Perm (Fin 2)) (p : Fin 1 × Fin 2),
    (F ∘ ρ.symm) (![6, 2] ((β * (Equiv.swap 0 1)⁻¹).symm p.2)) = F (![1, 5] (β.symm p.2)) ∧
    (F ∘ ρ.symm) (![1, 2] ((β * (Equiv.swap 0 1)⁻¹).symm p.2)) = F (![1, 2] (β.symm p.2)) := by
  obtain ⟨ρ, h⟩ := peqt_view_hides_partial (G := ZMod 7) (rows := 1) (cols := 2) (fun p => ![1, 2] p.2) (fun p => ![1, 5] p.2) (fun p => ![6, 2] p.2) 1 (Equiv.swap 0 1)
    (by decide) (by decide) (by decide) (by decide)
  exact ⟨ρ, fun F α β p => h F α β p⟩

/-- A run in the toy group, and a receiver with items 5, 5, 6: only the third occurs once. -/
example : (∃ map FY FX, Runs (send toyNet (fun b => if b = 5 then 1 else 2) 3 [0] [1, 2, 0] [2, 0, 1] [0, 1, 2] [6, 5, 6] 1 3)
      (viewReceive toyNet (fun b => if b = 5 then 1 else 2) 4 [5, 5, 6]) map (FY, FX)) ∧
    ∀ j < 3, (∀ l < 3, l ≠ j → ([5, 5, 6] : List Block)[l]? ≠ ([5, 5, 6] : List Block)[j]?) ↔ j = 2 := by
  refine ⟨?_, by decide⟩
  obtain ⟨map, FY, FX, h, -⟩ := peqt_view toyCurve toyNet toyNet_ok (fun b => if b = 5 then 1 else 2) 3 4 [0] [1, 2, 0] [2, 0, 1] [0, 1, 2] 1 3 [6, 5, 6] [5, 5, 6] rfl rfl
    (by unfold IsPerm; decide) (by unfold IsPerm; decide) (by unfold IsPerm; decide) (by unfold IsPerm; decide) (by decide) (by decide)
    (by intro x _; split <;> decide)
  exact ⟨map, FY, FX, h⟩

end Kunlun.DDHPEQT
