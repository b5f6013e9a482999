import Verif.Model.X25519Order
/-! The points of Curve25519 and its twist whose eightfold is zero. -/

namespace Kunlun.X25519

open Mont WeierstrassCurve.Affine

abbrev F := ZMod p

theorem nonsq (d : ℕ) (hd : P256.powMod p 256 d ((p - 1) / 2) = p - 1) (a b : F) (h : a ^ 2 = (d : F) * b ^ 2) : b = 0 := by
  have hlt : (p - 1) / 2 < 2 ^ 256 := by rw [p_val]; norm_num
  have hp : 2 * ((p - 1) / 2) = p - 1 := by rw [p_val]
  have h1 : (d : F) ^ ((p - 1) / 2) = -1 := by
    have := congrArg (Nat.cast (R := F)) hd
    rw [P256.powMod_eq _ _ _ _ hlt, ZMod.natCast_mod, Nat.cast_pow, Nat.cast_sub p_prime.one_le, ZMod.natCast_self, Nat.cast_one, zero_sub] at this
    exact this
  by_contra hb
  have h2 := congrArg (· ^ ((p - 1) / 2)) h
  simp only [mul_pow, ← pow_mul, hp, h1] at h2
  rw [ZMod.pow_card_sub_one_eq_one hb] at h2
  by_cases ha : a = 0
  · rw [ha, zero_pow (by rw [p_val]; norm_num)] at h2
    simp at h2
  · rw [ZMod.pow_card_sub_one_eq_one ha] at h2
    apply two_ne (K := F)
    linear_combination h2

/-- The two first coordinates of the points of order eight. -/
def e1 : ℕ := 325606250916557431795983626356110631294008115727848805560023387167927233504
def e2 : ℕ := 39382357235489614581723060781553021112529911719440698176882885853963445705823
/-- A square root of `A + 2`. -/
def s : ℕ := 48802004052532134862652268456126542835229456083994414501085850622543968879637

theorem castEq (a b : ℕ) (h : a % p = b % p) : (a : F) = b := (ZMod.natCast_eq_natCast_iff' a b p).2 h

theorem s_sq : (s : F) ^ 2 = A F + 2 := by
  have := castEq (s ^ 2) (486662 + 2) (by decide +kernel)
  push_cast at this
  exact this

theorem e_sum : (e1 : F) + e2 = 2 + 2 * s := by
  have := castEq (e1 + e2) (2 + 2 * s) (by decide +kernel)
  push_cast at this
  exact this

theorem e_prod : (e1 : F) * e2 = 1 := by
  have := castEq (e1 * e2) 1 (by decide +kernel)
  push_cast at this
  exact this

/-- The numbers without square roots that occur. -/
theorem d1 : P256.powMod p 256 (486662 ^ 2 - 4) ((p - 1) / 2) = p - 1 := by decide +kernel
theorem d2 : P256.powMod p 256 (p - 486660) ((p - 1) / 2) = p - 1 := by decide +kernel
theorem d3 : P256.powMod p 256 ((2 + 2 * (p - s)) ^ 2 - 4) ((p - 1) / 2) = p - 1 := by decide +kernel

theorem d1_cast : ((486662 ^ 2 - 4 : ℕ) : F) = A F ^ 2 - 4 := by
  rw [A]; norm_num

theorem d2_cast : ((p - 486660 : ℕ) : F) = -(A F - 2) := by
  rw [Nat.cast_sub (by rw [p_val]; norm_num), ZMod.natCast_self, A]; norm_num

theorem d3_cast : (((2 + 2 * (p - s)) ^ 2 - 4 : ℕ) : F) = (2 - 2 * (s : F)) ^ 2 - 4 := by
  rw [Nat.cast_sub (by decide +kernel)]
  push_cast
  rw [Nat.cast_sub (by decide +kernel), ZMod.natCast_self]
  ring

theorem quad (X Z : F) (h : X ^ 2 + A F * X * Z + Z ^ 2 = 0) : X = 0 ∧ Z = 0 := by
  have hz : Z = 0 := by
    refine nonsq _ d1 (2 * X + A F * Z) Z ?_
    rw [d1_cast]
    linear_combination 4 * h
  subst hz
  refine ⟨?_, rfl⟩
  simpa using h

def dblX (X Z : F) : F := (X ^ 2 - Z ^ 2) ^ 2
def dblZ (X Z : F) : F := 4 * X * Z * (X ^ 2 + A F * X * Z + Z ^ 2)

theorem four_ne : (4 : F) ≠ 0 := by
  have : (4 : F) = 2 * 2 := by norm_num
  rw [this]; exact mul_ne_zero two_ne two_ne

theorem dblZ_zero {X Z : F} (h : dblZ X Z = 0) : X = 0 ∨ Z = 0 := by
  unfold dblZ at h
  rcases mul_eq_zero.1 h with h | h
  · rcases mul_eq_zero.1 h with h | h
    · exact .inl ((mul_eq_zero.1 h).resolve_left four_ne)
    · exact .inr h
  · exact .inl (quad _ _ h).1

theorem order8 (x : F) (hx : x ≠ 0) (h : dblX x 1 = dblZ x 1) : x = e1 ∨ x = e2 := by
  unfold dblX dblZ at h
  have h1 : (x ^ 2 + 1 - 2 * x - 2 * s * x) * (x ^ 2 + 1 - 2 * x + 2 * s * x) = 0 := by
    linear_combination h - 4 * x ^ 2 * s_sq
  rcases mul_eq_zero.1 h1 with h2 | h2
  · have h3 : (x - e1) * (x - e2) = 0 := by linear_combination h2 - x * e_sum + e_prod
    rcases mul_eq_zero.1 h3 with h3 | h3
    · exact .inl (sub_eq_zero.1 h3)
    · exact .inr (sub_eq_zero.1 h3)
  · refine absurd (nonsq _ d3 (2 * x - (2 - 2 * s)) 1 ?_) one_ne_zero
    rw [d3_cast]
    linear_combination 4 * h2

theorem order8' (x : F) (hx : x ≠ 0) (h : dblX x 1 = -dblZ x 1) : False := by
  unfold dblX dblZ at h
  have : 2 * x = 0 := by
    refine nonsq _ d2 (x ^ 2 + 1 + 2 * x) (2 * x) ?_
    rw [d2_cast]
    linear_combination h
  exact hx ((mul_eq_zero.1 this).resolve_left two_ne)

theorem small (x : F) (h : dblZ (dblX (dblX x 1) (dblZ x 1)) (dblZ (dblX x 1) (dblZ x 1)) = 0) :
    x = 0 ∨ x = 1 ∨ x = -1 ∨ x = e1 ∨ x = e2 := by
  by_cases hx : x = 0
  · exact .inl hx
  right
  rcases dblZ_zero h with h | h
  · unfold dblX at h
    have h := pow_eq_zero_iff (two_ne_zero) |>.1 h
    rcases sq_eq_sq_iff_eq_or_eq_neg.1 (sub_eq_zero.1 h) with h | h
    · exact .inr (.inr (order8 x hx h))
    · exact (order8' x hx h).elim
  · rcases dblZ_zero h with h | h
    · unfold dblX at h
      have h := pow_eq_zero_iff (two_ne_zero) |>.1 h
      rcases sq_eq_sq_iff_eq_or_eq_neg.1 (sub_eq_zero.1 h) with h | h
      · exact .inl h
      · exact .inr (.inl h)
    · rcases dblZ_zero h with h | h
      · exact absurd h hx
      · exact absurd h one_ne_zero

theorem rep_zero_iff (P : Pt) (X Z : Cl) (h : Rep P X Z) : P = 0 ↔ Z = 0 := by
  cases P with
  | zero => exact ⟨fun _ => h.2, fun _ => rfl⟩
  | some x y hn => exact ⟨fun e => absurd e (Point.some_ne_zero hn), fun e => absurd e h.1⟩

theorem eight_zero_iff (P : Pt) (x : ℕ) (hx : xc P = x) (hlt : x < p) :
    (8 : ℕ) • P = 0 ↔ x ∈ [0, 1, p - 1, e1, e2] := by
  constructor
  · intro h8
    by_cases h0 : P = 0
    · rw [h0, xc_zero] at hx
      have : x = 0 := cast_inj (K := Cl) hlt p_prime.pos (by rw [← hx, Nat.cast_zero])
      simp [this]
    let f := algebraMap F Cl
    have hA : f (A F) = A Cl := map_ofNat f 486662
    have h4 : f 4 = 4 := map_ofNat f 4
    have hr : Rep P (f x) (f 1) := by
      cases P with
      | zero => exact absurd rfl h0
      | some a b hn =>
        rw [xc_some] at hx
        refine ⟨by simp [f], by rw [hx]; simp [f]⟩
    have dbl : ∀ (Q : Pt) (X Z : F), Rep Q (f X) (f Z) → Rep ((2 : ℕ) • Q) (f (dblX X Z)) (f (dblZ X Z)) := by
      intro Q X Z h
      have := rep_dbl two_ne A_sq Q _ _ h
      rw [two_smul]
      unfold dblX dblZ
      simpa [hA, h4] using this
    have h := dbl _ _ _ (dbl _ _ _ (dbl _ _ _ hr))
    rw [smul_smul, smul_smul] at h
    have hz := (rep_zero_iff _ _ _ h).1 h8
    have hz := (map_eq_zero f).1 hz
    have hm : ((p - 1 : ℕ) : F) = -1 := by rw [Nat.cast_sub p_prime.one_le]; simp
    have fin : ∀ y : ℕ, y < p → (x : F) = y → x = y := fun y hy h => cast_inj (K := F) hlt hy h
    have := small (x : F) hz
    rcases this with h | h | h | h | h
    · simp [fin 0 p_prime.pos (by simpa using h)]
    · simp [fin 1 p_prime.one_lt (by simpa using h)]
    · rw [← hm] at h
      simp [fin (p - 1) (by have := p_prime.pos; omega) h]
    · simp [fin e1 (by decide +kernel) h]
    · simp [fin e2 (by decide +kernel) h]
  · intro h
    have hg : Good 1 := ⟨Nat.coprime_one_left _, Nat.coprime_one_left _⟩
    rw [← xc_zero_iff P (mem_or P x hx) 1 hg, xc_smul P x hx hlt _ (by norm_num)]
    have : ladder (digits (1 * 8)) x = 0 := by
      have key : ∀ y ∈ [0, 1, p - 1, e1, e2], ladder (digits (1 * 8)) y = 0 := by decide +kernel
      exact key x h
    rw [this, Nat.cast_zero]

end Kunlun.X25519
