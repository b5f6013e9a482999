import Verif.Model.Gf128Field
import Mathlib.Algebra.Polynomial.Div
/-!
C58: `gf128_mul` and `gf128_inv` are the arithmetic of the field GF(2)[X]/(X^128 + X^7 + X^2 + X + 1), and the gadget inner
product of the base VOLE recombines a value from its bits.
-/

namespace Kunlun.GF

open Kunlun Polynomial

/-- `gf128_mul` is commutative. -/
theorem gf_mul_comm (x y : Block) : mul x y = mul y x := toF_inj (by rw [toF_mul, toF_mul, mul_comm])

/-- `gf128_mul` is associative. -/
theorem gf_mul_assoc (x y z : Block) : mul (mul x y) z = mul x (mul y z) := toF_inj (by simp only [toF_mul, mul_assoc])

/-- `gf128_mul` distributes over xor, on the right and on the left. -/
theorem gf_mul_xor (x y z : Block) : mul x (y ^^^ z) = mul x y ^^^ mul x z := toF_inj (by simp only [toF_mul, toF_xor, mul_add])

theorem gf_xor_mul (x y z : Block) : mul (x ^^^ y) z = mul x z ^^^ mul y z := toF_inj (by simp only [toF_mul, toF_xor, add_mul])

/-- `MakeBlock(0, 1)`, the `one_block` of the callers, is neutral. -/
theorem gf_mul_one (x : Block) : mul x (Block.makeBlock 0#64 1#64) = x := by
  have h1 : Block.makeBlock 0#64 1#64 = 1#128 := by decide
  rw [h1]
  exact toF_inj (by rw [toF_mul, toF_one, mul_one])

theorem gf_mul_zero (x : Block) : mul x 0#128 = 0#128 := toF_inj (by rw [toF_mul, toF_zero, mul_zero])

/-- There are no zero divisors. -/
theorem gf_mul_eq_zero (x y : Block) : mul x y = 0#128 ↔ x = 0#128 ∨ y = 0#128 := by
  rw [← toF_eq_zero, ← toF_eq_zero, ← toF_eq_zero, toF_mul, mul_eq_zero]

/-- `gf128_inv` gives the inverse of every non-zero element. -/
theorem gf_mul_inv (x : Block) (hx : x ≠ 0#128) : mul x (inv x) = Block.makeBlock 0#64 1#64 := by
  have h1 : Block.makeBlock 0#64 1#64 = 1#128 := by decide
  rw [h1]
  refine toF_inj ?_
  have h0 : toF x ≠ 0 := fun h => hx (toF_eq_zero.1 h)
  have hp := pow_card_F (toF x)
  rw [toF_mul, toF_inv, toF_one]
  refine mul_left_cancel₀ h0 ?_
  generalize toF x = t at *
  have hs : ∀ N, 2 ≤ N → t ^ N = t → t * (t * t ^ (N - 2)) = t * 1 := by
    intro N hN h
    rw [mul_one, ← mul_assoc, ← pow_two, ← pow_add, Nat.add_sub_cancel' hN, h]
  exact hs (2 ^ 128) (by norm_num) hp

/-- `gf128_inv` maps zero to zero: the caller must test for it. -/
theorem gf_inv_zero : inv 0#128 = 0#128 := by decide +kernel

/-- The inverse is the only one: division is determined. -/
theorem gf_inv_unique (x y : Block) (h : mul x y = 1#128) : y = inv x := by
  have hx : x ≠ 0#128 := by
    rintro rfl
    rw [gf_mul_comm, gf_mul_zero] at h
    exact absurd h (by decide)
  have h2 := gf_mul_inv x hx
  have h1 : Block.makeBlock 0#64 1#64 = 1#128 := by decide
  rw [h1] at h2
  have h0 : toF x ≠ 0 := fun h => hx (toF_eq_zero.1 h)
  refine toF_inj (mul_left_cancel₀ h0 ?_)
  rw [← toF_mul, ← toF_mul, h, h2]

/-- What is computed: reading bit `i` of a block as the coefficient of `X^i`, `gf128_mul` multiplies the polynomials and
reduces modulo `X^128 + X^7 + X^2 + X + 1`. -/
theorem gf_mul_is_polynomial_product (x y : Block) :
    poly (mul x y) = (poly x * poly y) %ₘ (X ^ 128 + (X ^ 7 + X ^ 2 + X + 1)) := by
  have hP : (X ^ 128 + (X ^ 7 + X ^ 2 + X + 1) : (ZMod 2)[X]) = P := by rw [P_eq]; unfold form; rfl
  rw [hP]
  have hdeg : P.degree = ((128 : ℕ) : WithBot ℕ) := by rw [degree_eq_natDegree P_monic.ne_zero, P_natDegree]
  have h : AdjoinRoot.mk P (poly (mul x y)) = AdjoinRoot.mk P (poly x * poly y) := by
    rw [map_mul, ← ev_eq_mk, ← ev_eq_mk, ← ev_eq_mk]; exact toF_mul x y
  rw [AdjoinRoot.mk_eq_mk] at h
  have hv := poly_degree (mul x y)
  rw [← hdeg] at hv
  generalize poly (mul x y) = p at *
  generalize poly x * poly y = q at *
  have h2 : (p - q) %ₘ P = 0 := (modByMonic_eq_zero_iff_dvd P_monic).2 h
  rw [sub_modByMonic, sub_eq_zero, (modByMonic_eq_self_iff P_monic).2 hv] at h2
  exact h2

/-- The modulus is irreducible, so the polynomials modulo it are a field. -/
theorem gf_modulus_irreducible : Irreducible (X ^ 128 + (X ^ 7 + X ^ 2 + X + 1) : (ZMod 2)[X]) := by
  have hP : (X ^ 128 + (X ^ 7 + X ^ 2 + X + 1) : (ZMod 2)[X]) = P := by rw [P_eq]; unfold form; rfl
  rw [hP]; exact P_irreducible

/-! ### The gadget inner product -/

theorem toF_unit (n : Nat) (hn : n < 128) :
    toF (if n < 64 then Block.makeBlock 0#64 (1#64 <<< n) else Block.makeBlock (1#64 <<< (n - 64)) 0#64) = α ^ n := by
  have hb : ∀ n < 128, (if n < 64 then Block.makeBlock 0#64 (1#64 <<< n) else Block.makeBlock (1#64 <<< (n - 64)) 0#64) =
      (BitVec.ofNat 128 (2 ^ n)) := by decide +kernel
  rw [hb n hn]
  unfold toF ev
  rw [Finset.sum_eq_single n]
  · simp [BitVec.getLsbD_ofNat, hn]
  · intro i _ h
    simp [BitVec.getLsbD_ofNat, Nat.testBit_two_pow, Ne.symm h]
  · simp; omega

theorem gadgetN_spec (v : List Block) (n : Nat) (h : n ≤ v.length) (hn : n ≤ 128) :
    ∃ r, gadgetN v n = some r ∧ toF r = ∑ i ∈ Finset.range n, α ^ i * toF (v.getD i 0#128) := by
  induction n with
  | zero => exact ⟨_, rfl, toF_zero⟩
  | succ n ih =>
    obtain ⟨r, hr, hs⟩ := ih (by omega) (by omega)
    have hv : v[n]? = some (v.getD n 0#128) := by
      rw [List.getD_eq_getElem?_getD, List.getElem?_eq_getElem (by omega)]; rfl
    refine ⟨_, by rw [gadgetN, hr, hv]; rfl, ?_⟩
    rw [toF_xor, toF_mul, toF_unit n (by omega), hs, Finset.sum_range_succ]

/-- The inner product with the powers of `X` puts a value back together: if entry `i` of the vector is `d` when bit `i` of
`x` is set and zero otherwise, the result is `x * d`.  This is the step by which the base VOLE turns 128 one-bit
correlations into one field multiplication. -/
theorem gadget_recombines (x d : Block) :
    gadget ((List.range 128).map fun i => if x.getLsbD i then d else 0#128) = some (mul x d) := by
  obtain ⟨r, hr, hs⟩ := gadgetN_spec ((List.range 128).map fun i => if x.getLsbD i then d else 0#128) 128
    (by rw [List.length_map, List.length_range]) (by omega)
  rw [gadget, if_pos (by rw [List.length_map, List.length_range]), hr]
  refine congrArg some (toF_inj ?_)
  rw [hs, toF_mul]
  unfold toF
  rw [ev, Finset.sum_mul]
  refine Finset.sum_congr rfl fun i hi => ?_
  simp only [Finset.mem_range] at hi
  rw [List.getD_eq_getElem?_getD, List.getElem?_map, List.getElem?_range hi]
  simp only [Option.map_some, Option.getD_some]
  split
  · rfl
  · rw [ev_zero]; simp

theorem gadget_len {v : List Block} {a : Block} (h : gadget v = some a) : v.length = 128 := by
  by_contra hn
  rw [gadget, if_neg hn] at h
  exact absurd h (by simp)

/-- The inner product is linear in the vector, so masks cancel. -/
theorem gadget_xor (u v w : List Block) (a b : Block) (hu : gadget u = some a) (hv : gadget v = some b)
    (hw : Block.xorVec u v = some w) : gadget w = some (a ^^^ b) := by
  have lu : u.length = 128 := gadget_len hu
  have lv : v.length = 128 := gadget_len hv
  have hz : ∀ (u v : List Block), u.length = v.length →
      Block.xorVec u v = some (List.zipWith (· ^^^ ·) u v) := by
    intro u
    induction u with
    | nil => intro v h; cases v with
      | nil => rfl
      | cons _ _ => simp at h
    | cons x u ih => intro v h; cases v with
      | nil => simp at h
      | cons y v =>
        have h3 := ih v (by simpa using! h)
        unfold Block.xorVec at h3 ⊢
        simp [Block.zipLoop, h3]
  rw [hz u v (by rw [lu, lv])] at hw
  obtain rfl := Option.some.inj hw
  have lw : (List.zipWith (· ^^^ ·) u v).length = 128 := by rw [List.length_zipWith, lu, lv]; rfl
  rw [gadget, if_pos lu] at hu
  rw [gadget, if_pos lv] at hv
  obtain ⟨r, hr, hs⟩ := gadgetN_spec u 128 (by omega) (by omega)
  obtain ⟨r', hr', hs'⟩ := gadgetN_spec v 128 (by omega) (by omega)
  obtain ⟨r'', hr'', hs''⟩ := gadgetN_spec _ 128 (Nat.le_of_eq lw.symm) (by omega)
  rw [gadget, if_pos lw, hr'']
  refine congrArg some (toF_inj ?_)
  rw [toF_xor, ← Option.some.inj (hr.symm.trans hu), ← Option.some.inj (hr'.symm.trans hv), hs, hs', hs'', ← Finset.sum_add_distrib]
  refine Finset.sum_congr rfl fun i hi => ?_
  simp only [Finset.mem_range] at hi
  rw [← mul_add, ← toF_xor]
  refine congrArg (fun t => α ^ i * toF t) ?_
  simp only [List.getD_eq_getElem?_getD, List.getElem?_zipWith]
  rw [List.getElem?_eq_getElem (by omega), List.getElem?_eq_getElem (by omega)]
  rfl

/-- A vector of any other length stops the program. -/
theorem gadget_length (v : List Block) : (gadget v).isSome ↔ v.length = 128 := by
  unfold gadget
  constructor
  · intro h
    by_contra hn
    rw [if_neg hn] at h
    exact absurd h (by simp)
  · intro h
    rw [if_pos h]
    obtain ⟨r, hr, _⟩ := gadgetN_spec v 128 (by omega) (by omega)
    rw [hr]; rfl

/-! Non-trivial cases -/

example : mul 0x80000000000000000000000000000001#128 2#128 = 0x85#128 := by decide +kernel
example : mul 3#128 (inv 3#128) = 1#128 ∧ inv 3#128 ≠ 3#128 := by decide +kernel
example : (0x1234567890abcdef1234567890abcdef#128 : Block) ≠ 0#128 := by decide
example : ∃ a b, gadget (List.replicate 128 3#128) = some a ∧ gadget (List.replicate 128 5#128) = some b ∧ a ≠ b :=
  ⟨_, _, (Option.eq_some_of_isSome ((gadget_length _).2 List.length_replicate)), (Option.eq_some_of_isSome ((gadget_length _).2 List.length_replicate)), by decide +kernel⟩

end Kunlun.GF
