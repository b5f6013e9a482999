import Verif.Props.OtePrivacy
import Verif.Props.Vole
/-!
C96: what B sees in the base VOLE (basevole.hpp:204-347) does not tell A's vector `u`.

B receives one key of each pair by oblivious transfer and the corrections `gama`. The keys B does not receive are renamed with the inverse of the
block cipher; this changes `u` to any other vector and nothing B receives.
-/

namespace Kunlun.VOLE

open Kunlun Kunlun.Proto Kunlun.AES

/-- The block cipher of `prf` and its inverse. -/
def E (x : Block) : Block := enc (PRG.setSeed CwPRF.fixedSeed 0).key x
def D (x : Block) : Block := dec (deriveDecKey (genEncKey CwPRF.fixedSeed)) x

theorem D_E (x : Block) : D (E x) = x := aes_block_round_trip CwPRF.fixedSeed x

theorem E_D (x : Block) : E (D x) = x := by
  have hinj : Function.Injective E := fun a b h => by rw [← D_E a, h, D_E]
  have : Finite Block := Finite.of_injective (fun b : Block => (⟨b.toNat, b.isLt⟩ : Fin (2 ^ 128)))
    fun a b h => BitVec.eq_of_toNat_eq (Fin.mk.inj h)
  obtain ⟨y, rfl⟩ := Finite.injective_iff_surjective.1 hinj x
  rw [D_E]

/-- The key `k` replaced so that its image under the cipher changes by `d`. -/
def move (d k : Block) : Block := D (E k ^^^ d)

/-- The renaming of A's keys: at each position the key B does not get is moved by the difference of the two vectors. -/
def hide (u u' : List Block) (sel : Bytes) (k : List Block × List Block) : List Block × List Block :=
  let d := fun i => u.getD (i / 128) 0 ^^^ u'.getD (i / 128) 0
  ((List.range k.1.length).map fun i => if sel.getD i 0 = 0 then k.1.getD i 0 else move (d i) (k.1.getD i 0),
    (List.range k.2.length).map fun i => if sel.getD i 0 = 0 then move (d i) (k.2.getD i 0) else k.2.getD i 0)

/-- The key of position `i` that B receives by oblivious transfer. -/
def received (sel : Bytes) (k : List Block × List Block) (i : Nat) : Block := if sel.getD i 0 = 0 then k.1.getD i 0 else k.2.getD i 0

theorem move_move (d k : Block) : move d (move d k) = k := by
  unfold move
  rw [E_D, OTE.xor_cancel, D_E]

theorem hide_length (u u' : List Block) (sel : Bytes) (k : List Block × List Block) :
    (hide u u' sel k).1.length = k.1.length ∧ (hide u u' sel k).2.length = k.2.length := by
  simp [hide]

theorem prf_getD (k : List Block) (n i : Nat) (hk : k.length = n) (hi : i < n) : (k.map E).getD i 0 = E (k.getD i 0) := by
  rw [List.getD, List.getElem?_map, List.getElem?_eq_getElem (by omega), List.getD, List.getElem?_eq_getElem (by omega)]
  rfl

/-- **C96** Whatever bits B has and for any two vectors `u`, `u'` of A there is a renaming of A's keys, one-to-one because it undoes itself, under which
B receives the same keys and the same corrections. Both runs reach the point where the corrections are sent. -/
theorem base_vole_hides_u (t : Nat) (sel : Bytes) (u u' : List Block) (k0 k1 : List Block) (l0 : k0.length = t * 128) (l1 : k1.length = t * 128) :
    let k' := hide u u' sel (k0, k1)
    (∃ w0 w1 w0' w1', prf k0 (t * 128) = some w0 ∧ prf k1 (t * 128) = some w1 ∧ prf k'.1 (t * 128) = some w0' ∧ prf k'.2 (t * 128) = some w1' ∧
      gammas t w0' w1' u' = gammas t w0 w1 u) ∧
    (∀ i < t * 128, received sel k' i = received sel (k0, k1) i) ∧ hide u u' sel k' = (k0, k1) := by
  intro k'
  have h1 : k'.1.length = t * 128 := by rw [(hide_length u u' sel (k0, k1)).1, l0]
  have h2 : k'.2.length = t * 128 := by rw [(hide_length u u' sel (k0, k1)).2, l1]
  have g1 : ∀ i < t * 128, k'.1.getD i 0 = if sel.getD i 0 = 0 then k0.getD i 0 else move (u.getD (i / 128) 0 ^^^ u'.getD (i / 128) 0) (k0.getD i 0) :=
    fun i hi => OTE.range_getD _ _ i (by rw [← l0] at hi; exact hi)
  have g2 : ∀ i < t * 128, k'.2.getD i 0 = if sel.getD i 0 = 0 then move (u.getD (i / 128) 0 ^^^ u'.getD (i / 128) 0) (k1.getD i 0) else k1.getD i 0 :=
    fun i hi => OTE.range_getD _ _ i (by rw [← l1] at hi; exact hi)
  refine ⟨⟨_, _, _, _, prf_spec k0 _ l0, prf_spec k1 _ l1, prf_spec k'.1 _ h1, prf_spec k'.2 _ h2, ?_⟩, ?_, ?_⟩
  · unfold gammas
    apply List.map_congr_left
    intro i hi
    rw [List.mem_range] at hi
    show (k'.1.map E).getD i 0 ^^^ (k'.2.map E).getD i 0 ^^^ u'.getD (i / 128) 0 = (k0.map E).getD i 0 ^^^ (k1.map E).getD i 0 ^^^ u.getD (i / 128) 0
    rw [prf_getD _ _ i h1 hi, prf_getD _ _ i h2 hi, prf_getD _ _ i l0 hi, prf_getD _ _ i l1 hi, g1 i hi, g2 i hi]
    by_cases hz : sel.getD i 0 = 0
    · rw [if_pos hz, if_pos hz]
      unfold move
      rw [E_D]
      generalize E (k0.getD i 0) = x; generalize E (k1.getD i 0) = y; generalize u.getD (i / 128) 0 = a; generalize u'.getD (i / 128) 0 = b
      ext j hj
      simp only [BitVec.getElem_xor]
      cases x[j] <;> cases y[j] <;> cases a[j] <;> cases b[j] <;> rfl
    · rw [if_neg hz, if_neg hz]
      unfold move
      rw [E_D]
      generalize E (k0.getD i 0) = x; generalize E (k1.getD i 0) = y; generalize u.getD (i / 128) 0 = a; generalize u'.getD (i / 128) 0 = b
      ext j hj
      simp only [BitVec.getElem_xor]
      cases x[j] <;> cases y[j] <;> cases a[j] <;> cases b[j] <;> rfl
  · intro i hi
    unfold received
    by_cases hz : sel.getD i 0 = 0
    · rw [if_pos hz, if_pos hz, g1 i hi, if_pos hz]
    · rw [if_neg hz, if_neg hz, g2 i hi, if_neg hz]
  · have e1 : (hide u u' sel k').1 = k0 := by
      refine OTE.vec_ext _ _ (t * 128) (by rw [(hide_length u u' sel k').1, h1]) l0 fun i hi => ?_
      have : (hide u u' sel k').1.getD i 0 =
          if sel.getD i 0 = 0 then k'.1.getD i 0 else move (u.getD (i / 128) 0 ^^^ u'.getD (i / 128) 0) (k'.1.getD i 0) :=
        OTE.range_getD _ _ i (by omega)
      rw [this, g1 i hi]
      by_cases hz : sel.getD i 0 = 0
      · rw [if_pos hz, if_pos hz]
      · rw [if_neg hz, if_neg hz, move_move]
    have e2 : (hide u u' sel k').2 = k1 := by
      refine OTE.vec_ext _ _ (t * 128) (by rw [(hide_length u u' sel k').2, h2]) l1 fun i hi => ?_
      have : (hide u u' sel k').2.getD i 0 =
          if sel.getD i 0 = 0 then move (u.getD (i / 128) 0 ^^^ u'.getD (i / 128) 0) (k'.2.getD i 0) else k'.2.getD i 0 :=
        OTE.range_getD _ _ i (by omega)
      rw [this, g2 i hi]
      by_cases hz : sel.getD i 0 = 0
      · rw [if_pos hz, if_pos hz, move_move]
      · rw [if_neg hz, if_neg hz]
    exact Prod.ext e1 e2

example : (hide [3] [9] [0, 1] ([1, 1], [2, 2])).2 ≠ [2, 2] := by
  intro h
  have h0 : (hide [3] [9] [0, 1] ([1, 1], [2, 2])).2.getD 0 0 = 2 := by rw [h]; rfl
  have : move (3 ^^^ 9) 2 = 2 := h0
  have h1 := congrArg E this
  unfold move at h1
  rw [E_D] at h1
  have h2 : E 2 ^^^ (E 2 ^^^ (3 ^^^ 9)) = 0#128 := by rw [h1, BitVec.xor_self]
  rw [← BitVec.xor_assoc, BitVec.xor_self, BitVec.zero_xor] at h2
  exact absurd h2 (by decide)

example : ∀ i < 128, received (deltaBits 5) (hide [3] [9] (deltaBits 5) (List.replicate 128 1, List.replicate 128 2)) i =
    received (deltaBits 5) (List.replicate 128 1, List.replicate 128 2) i :=
  (base_vole_hides_u 1 (deltaBits 5) [3] [9] (List.replicate 128 1) (List.replicate 128 2) (by simp) (by simp)).2.1

end Kunlun.VOLE
