import Verif.Model.InnerProductLemmas
import Verif.Model.IpExtract
/-!
The one-shot equation of the inner-product verifier along every path of a tree of answers is the round-by-round acceptance.
-/

namespace Kunlun.IpExtract

variable {F : Type} [Field F] {M : Type} [AddCommGroup M] [Module F M]

theorem acc_congr (u : M) (k : ℕ) (g g' h h' : ℕ → M) (P : M) (t : Tree F M) (hg : ∀ i < 2 ^ k, g i = g' i) (hh : ∀ i < 2 ^ k, h i = h' i)
    (ha : Acc u k g h P t) : Acc u k g' h' P t := by
  induction k generalizing g g' h h' P t with
  | zero =>
    simp only [Acc] at ha ⊢
    rw [← hg 0 (by simp), ← hh 0 (by simp)]
    exact ha
  | succ k ih =>
    intro i
    have h2 : 2 ^ (k + 1) = 2 ^ k + 2 ^ k := by rw [pow_succ]; omega
    refine ih _ _ _ _ _ _ ?_ ?_ (ha i)
    · intro j hj
      simp only [foldG]
      rw [hg j (by omega), hg (2 ^ k + j) (by omega)]
    · intro j hj
      simp only [foldH]
      rw [hh j (by omega), hh (2 ^ k + j) (by omega)]

/-- The `i`-th entry of a list of points. -/
def at0 (g : List M) (i : ℕ) : M := (g[i]?).getD 0

theorem acc_of_paths (u : M) (k : ℕ) (g h : List M) (P : M) (t : Tree F M) (hg : g.length = 2 ^ k) (hh : h.length = 2 ^ k)
    (ha : ∀ p : List (Fin 4), p.length = k → t.a p • dot g (svec (t.pathX p)) + t.b p • dot h (svec ((t.pathX p).map (·⁻¹))) +
        (t.a p * t.b p) • u =
      dot (t.pathL p) ((t.pathX p).map fun y => y * y) + dot (t.pathR p) ((t.pathX p).map fun y => y⁻¹ * y⁻¹) + P) :
    Acc u k (at0 g) (at0 h) P t := by
  induction k generalizing g h P t with
  | zero =>
    have h0 := ha [] rfl
    simp only [Tree.pathL, Tree.pathR, Tree.pathX, svec, List.map_nil, dot_nil, zero_add, add_zero] at h0
    obtain ⟨g0, rfl⟩ := List.length_eq_one_iff.1 (by simpa using hg)
    obtain ⟨h0', rfl⟩ := List.length_eq_one_iff.1 (by simpa using hh)
    simp only [dot_cons, dot_nil, one_smul, add_zero] at h0
    simp only [Acc, at0]
    exact h0.symm
  | succ k ih =>
    intro i
    have h2 : 2 ^ (k + 1) = 2 ^ k + 2 ^ k := by rw [pow_succ]; omega
    have hgl : (g.take (2 ^ k)).length = 2 ^ k := by rw [List.length_take]; omega
    have hgr : (g.drop (2 ^ k)).length = 2 ^ k := by rw [List.length_drop]; omega
    have hhl : (h.take (2 ^ k)).length = 2 ^ k := by rw [List.length_take]; omega
    have hhr : (h.drop (2 ^ k)).length = 2 ^ k := by rw [List.length_drop]; omega
    have hentry : ∀ (l : List M) (s r : F) (j : ℕ), l.length = 2 ^ (k + 1) → j < 2 ^ k →
        at0 (List.zipWith (· + ·) ((l.take (2 ^ k)).map (s • ·)) ((l.drop (2 ^ k)).map (r • ·))) j = s • at0 l j + r • at0 l (2 ^ k + j) := by
      intro l s r j hl hj
      simp only [at0, List.getElem?_zipWith, List.getElem?_map, List.getElem?_take, if_pos hj, List.getElem?_drop]
      rw [List.getElem?_eq_getElem (show j < l.length by omega), List.getElem?_eq_getElem (show 2 ^ k + j < l.length by omega)]
      rfl
    refine acc_congr u k _ _ _ _ _ _ (fun j hj => hentry g (t.x [] i)⁻¹ (t.x [] i) j hg hj) (fun j hj => hentry h (t.x [] i) (t.x [] i)⁻¹ j hh hj)
      (ih _ _ _ _ ?_ ?_ ?_)
    · simp [hgl, hgr]; omega
    · simp [hhl, hhr]; omega
    · intro p hp
      have h0 := ha (i :: p) (by simp [hp])
      have hx : ((t.sub i).pathX p).length = k := by rw [Tree.pathX_length, hp]
      simp only [Tree.pathL, Tree.pathR, Tree.pathX, List.map_cons, dot_cons] at h0
      rw [← List.take_append_drop (2 ^ k) g, ← List.take_append_drop (2 ^ k) h,
        fold_svec _ _ _ _ (by rw [hgl, hx]) (by rw [hgr, hx]),
        fold_svec _ _ _ _ (by rw [hhl, List.length_map, hx]) (by rw [hhr, List.length_map, hx]), inv_inv] at h0
      refine h0.trans ?_
      rw [pow_two, pow_two]
      abel

end Kunlun.IpExtract
