import Verif.Model.X25519
import Mathlib.GroupTheory.OrderOfElement
import Mathlib.GroupTheory.Coset.Card
import Mathlib.SetTheory.Cardinal.Finite
/-!
The points whose first coordinate is a number below `p`: those fixed by the Frobenius map (the curve) and those it negates (the twisted
curve).  The two groups are killed by `8 l` and `8 l'`.
-/

namespace Kunlun.X25519

open Mont WeierstrassCurve.Affine

/-- Points over the closure. -/
abbrev Pt := (E (A Cl)).Point

theorem frob_exists : ∃ φ : Pt →+ Pt, ∀ x y h, ∃ h', φ (.some x y h) = .some (x ^ p) (y ^ p) h' := by
  have key : ∀ W : WeierstrassCurve.Affine Cl, W = (E (A (ZMod p))).baseChange Cl →
      ∃ φ : W.Point →+ W.Point, ∀ x y h, ∃ h', φ (.some x y h) = .some (x ^ p) (y ^ p) h' := by
    rintro W rfl
    refine ⟨Point.map (W' := E (A (ZMod p))) (FiniteField.frobeniusAlgHom (ZMod p) Cl), fun x y h => ?_⟩
    have he : ∀ z : Cl, FiniteField.frobeniusAlgHom (ZMod p) Cl z = z ^ p := fun z => by
      rw [FiniteField.coe_frobeniusAlgHom, ZMod.card]
    have : ∃ h', Point.map (W' := E (A (ZMod p))) (FiniteField.frobeniusAlgHom (ZMod p) Cl) (.some x y h) =
        .some (FiniteField.frobeniusAlgHom (ZMod p) Cl x) (FiniteField.frobeniusAlgHom (ZMod p) Cl y) h' := ⟨_, Point.map_some _ h⟩
    rwa [he, he] at this
  refine key _ ?_
  have hA : A Cl = algebraMap (ZMod p) Cl (A (ZMod p)) := by
    unfold A
    exact (map_ofNat (algebraMap (ZMod p) Cl) 486662).symm
  ext <;> simp [E, hA, WeierstrassCurve.map]

/-- The Frobenius map on points. -/
noncomputable def φ : Pt →+ Pt := frob_exists.choose

theorem φ_some (x y : Cl) (h) : ∃ h', φ (.some x y h) = .some (x ^ p) (y ^ p) h' := frob_exists.choose_spec x y h

/-- Points of the curve. -/
noncomputable def Hp : AddSubgroup Pt := (φ - AddMonoidHom.id Pt).ker
/-- Points of the twisted curve. -/
noncomputable def Hm : AddSubgroup Pt := (φ + AddMonoidHom.id Pt).ker

theorem mem_Hp (P : Pt) : P ∈ Hp ↔ φ P = P := by
  rw [Hp, AddMonoidHom.mem_ker, AddMonoidHom.sub_apply, AddMonoidHom.id_apply, sub_eq_zero]
theorem mem_Hm (P : Pt) : P ∈ Hm ↔ φ P = -P := by
  rw [Hm, AddMonoidHom.mem_ker, AddMonoidHom.add_apply, AddMonoidHom.id_apply, add_eq_zero_iff_eq_neg]

theorem φ_ne_zero (P : Pt) (h : P ≠ 0) : φ P ≠ 0 := by
  cases P with
  | zero => exact absurd rfl h
  | some x y hn => obtain ⟨h', e⟩ := φ_some x y hn; rw [e]; exact Point.some_ne_zero _

theorem xc_φ (P : Pt) : xc (φ P) = xc P ^ p := by
  cases P with
  | zero => rw [← Point.zero_def, map_zero, xc_zero, zero_pow p_prime.ne_zero]
  | some x y hn => obtain ⟨h', e⟩ := φ_some x y hn; rw [e, xc_some, xc_some]

/-- Every number is the first coordinate of points of one of the two groups. -/
theorem mem_or (P : Pt) (u : ℕ) (h : xc P = u) : P ∈ Hp ∨ P ∈ Hm := by
  rw [mem_Hp, mem_Hm]
  by_cases h0 : P = 0
  · subst h0; left; rw [map_zero]
  · refine same_x _ _ (φ_ne_zero P h0) h0 ?_
    rw [xc_φ, h, cast_pow_p]

theorem xc_fixed (P : Pt) (h : P ∈ Hp ∨ P ∈ Hm) : xc P ^ p = xc P := by
  rw [← xc_φ]
  rcases h with h | h
  · rw [(mem_Hp P).1 h]
  · rw [(mem_Hm P).1 h, xc_neg]

theorem fixed_iff (x : Cl) (h : x ^ p = x) : ∃ a : ZMod p, algebraMap (ZMod p) Cl a = x := by
  have := (Subfield.mem_bot_iff_pow_eq_self Cl p).2 h
  rw [← ZMod.fieldRange_castHom_eq_bot p] at this
  obtain ⟨a, ha⟩ := this
  refine ⟨a, ?_⟩
  rw [← ha]
  exact (DFunLike.congr_fun (Subsingleton.elim (algebraMap (ZMod p) Cl) (ZMod.castHom (dvd_refl p) Cl)) a)

theorem exists_point' (x : Cl) : ∃ P : Pt, P ≠ 0 ∧ xc P = x := by
  obtain ⟨y, hy⟩ := IsAlgClosed.exists_pow_nat_eq (x ^ 3 + A Cl * x ^ 2 + x) (n := 2) (by norm_num)
  exact ⟨.some x y ((nonsingular_iff two_ne A_sq x y).2 hy), Point.some_ne_zero _, rfl⟩

theorem card_le (H : AddSubgroup Pt) (hH : ∀ P ∈ H, P ∈ Hp ∨ P ∈ Hm) : Finite H ∧ Nat.card H ≤ 2 * p + 1 := by
  classical
  let pt : ZMod p → Pt := fun a => (exists_point' (algebraMap (ZMod p) Cl a)).choose
  have hpt : ∀ a, xc (pt a) = algebraMap (ZMod p) Cl a := fun a => (exists_point' (algebraMap (ZMod p) Cl a)).choose_spec.2
  have hp0 : ∀ a, pt a ≠ 0 := fun a => (exists_point' (algebraMap (ZMod p) Cl a)).choose_spec.1
  let f : Option (ZMod p × Bool) → H := fun o =>
    match o with
    | none => 0
    | some (a, b) => if h : (if b then pt a else -pt a) ∈ H then ⟨_, h⟩ else 0
  have hf : Function.Surjective f := by
    rintro ⟨P, hP⟩
    by_cases h0 : P = 0
    · exact ⟨none, Subtype.ext h0.symm⟩
    · obtain ⟨a, ha⟩ := fixed_iff _ (xc_fixed P (hH P hP))
      rcases same_x P (pt a) h0 (hp0 a) (by rw [hpt, ha]) with h | h
      · refine ⟨some (a, true), ?_⟩
        simp only [f, if_true]
        rw [dif_pos (by rwa [← h])]
        exact Subtype.ext h.symm
      · refine ⟨some (a, false), ?_⟩
        simp only [f, Bool.false_eq_true, if_false]
        rw [dif_pos (by rwa [← h])]
        exact Subtype.ext h.symm
  have : Finite H := Finite.of_surjective f hf
  refine ⟨this, ?_⟩
  have := Nat.card_le_card_of_surjective f hf
  rw [Finite.card_option, Nat.card_prod, Nat.card_zmod] at this
  simp at this
  omega

/-! ### Which group a number belongs to -/

/-- `x³ + A x² + x` -/
def rhs (x : ℕ) : ℕ := (x ^ 3 + 486662 * x ^ 2 + x) % p

theorem rhs_cast (x : ℕ) : ((rhs x : ℕ) : Cl) = (x : Cl) ^ 3 + A Cl * (x : Cl) ^ 2 + x := by
  rw [rhs, cast_mod, A]
  push_cast
  rfl

/-- Euler's criterion. -/
def euler (x : ℕ) : ℕ := P256.powMod p 256 (rhs x) ((p - 1) / 2)

theorem euler_cast (x : ℕ) (y : Cl) (h : y ^ 2 = (x : Cl) ^ 3 + A Cl * (x : Cl) ^ 2 + x) : y ^ p = y * (euler x : ℕ) := by
  have hlt : (p - 1) / 2 < 2 ^ 256 := by rw [p_val]; norm_num
  have hp : p = 2 * ((p - 1) / 2) + 1 := by rw [p_val]
  rw [euler, P256.powMod_eq _ _ _ _ hlt, cast_mod, Nat.cast_pow, rhs_cast, ← h, ← pow_mul]
  have hy : y ^ p = y ^ (2 * ((p - 1) / 2) + 1) := congrArg (fun n => y ^ n) hp
  rw [hy, pow_succ, mul_comm]

theorem mem_Hp_of (P : Pt) (x : ℕ) (hx : xc P = x) (he : euler x = 1) : P ∈ Hp := by
  rw [mem_Hp]
  cases P with
  | zero => rw [← Point.zero_def, map_zero]
  | some x' y hn =>
    rw [xc_some] at hx
    subst hx
    obtain ⟨h', e⟩ := φ_some _ y hn
    have hy := euler_cast x y ((Mont.equation_iff _ _).1 hn.1)
    rw [he, Nat.cast_one, mul_one] at hy
    rw [e]
    have hxx : (x : Cl) ^ p = x := cast_pow_p x
    simp only [hxx, hy]

theorem mem_Hm_of (P : Pt) (x : ℕ) (hx : xc P = x) (he : euler x = p - 1) : P ∈ Hm := by
  rw [mem_Hm]
  cases P with
  | zero => rw [← Point.zero_def, map_zero, neg_zero]
  | some x' y hn =>
    rw [xc_some] at hx
    subst hx
    obtain ⟨h', e⟩ := φ_some _ y hn
    obtain ⟨h'', e''⟩ := neg_some _ y hn
    have hy := euler_cast x y ((Mont.equation_iff _ _).1 hn.1)
    rw [he, Nat.cast_sub p_prime.one_lt.le, CharP.cast_eq_zero Cl p, Nat.cast_one, zero_sub, mul_neg, mul_one] at hy
    rw [e, e'']
    have hxx : (x : Cl) ^ p = x := cast_pow_p x
    simp only [hxx, hy]

/-! ### Orders -/

theorem two_smul_ne (P : Pt) (x : ℕ) (hx : xc P = x) (hr : rhs x ≠ 0) : (2 : ℕ) • P ≠ 0 := by
  have hlt : rhs x < p := Nat.mod_lt _ p_prime.pos
  have hr' := cast_ne_zero (K := Cl) _ hr hlt
  rw [rhs_cast] at hr'
  rw [two_smul]
  intro h
  cases P with
  | zero =>
    rw [← Point.zero_def, xc_zero] at hx
    rw [← hx] at hr'
    simp at hr'
  | some x' y hn =>
    rw [xc_some] at hx
    subst hx
    obtain ⟨h', e⟩ := neg_some _ y hn
    rw [add_eq_zero_iff_eq_neg, e, Point.some.injEq] at h
    have hy := (Mont.equation_iff _ _).1 hn.1
    have : y = 0 := by
      have h2 : (2 : Cl) * y = 0 := by linear_combination h.2
      exact (mul_eq_zero.1 h2).resolve_left two_ne
    rw [← hy, this] at hr'
    simp at hr'

theorem two_smul_of_xc (P : Pt) (h : xc P = 0) : (2 : ℕ) • P = 0 := by
  rw [two_smul]
  cases P with
  | zero => rw [← Point.zero_def, add_zero]
  | some x y hn =>
    rw [xc_some] at h
    subst h
    have he := (Mont.equation_iff _ _).1 hn.1
    have hy : y = 0 := by
      have : y ^ 2 = 0 := by rw [he]; ring
      exact pow_eq_zero_iff (by norm_num) |>.1 this
    subst hy
    exact Point.add_of_Y_eq rfl (by rw [negY_eq, neg_zero])

/-- Binary digits of a number, highest first. -/
def digits (m : ℕ) : List Bool := (List.range 255).map fun i => m.testBit (255 - 1 - i)

theorem xc_smul (P : Pt) (x : ℕ) (hx : xc P = x) (h : x < p) (m : ℕ) (hm : m < 2 ^ 255) : xc (m • P) = (ladder (digits m) x : ℕ) := by
  have := ladder_spec (digits m) x h P hx
  rw [digits, valFrom_testBit, zero_mul, zero_add, Nat.mod_eq_of_lt hm] at this
  exact this.symm

theorem prime_dvd_order (P : Pt) (q : ℕ) (hq : q.Prime) (x : ℕ) (hx : xc P = x) (hlt : x < p) (hr : rhs x ≠ 0) (hq2 : q < 2 ^ 255)
    (hl : ladder (digits q) x = 0) : q ∣ addOrderOf P := by
  have h2 := two_smul_ne P x hx hr
  have h0 : xc (q • P) = 0 := by rw [xc_smul P x hx hlt q hq2, hl, Nat.cast_zero]
  have hk : (2 * q) • P = 0 := by rw [mul_smul, two_smul_of_xc _ h0]
  have hd := addOrderOf_dvd_of_nsmul_eq_zero hk
  rcases (Nat.coprime_or_dvd_of_prime hq (addOrderOf P)) with hc | hc
  · exfalso
    apply h2
    have : addOrderOf P ∣ 2 := hc.symm.dvd_of_dvd_mul_right hd
    exact addOrderOf_dvd_iff_nsmul_eq_zero.1 this
  · exact hc

theorem dvd_card (H : AddSubgroup Pt) (P : Pt) (hP : P ∈ H) (n : ℕ) (h : n ∣ addOrderOf P) : n ∣ Nat.card H := by
  have : addOrderOf (⟨P, hP⟩ : H) ∣ Nat.card H := addOrderOf_dvd_natCard _
  rw [← AddSubgroup.addOrderOf_coe] at this
  exact h.trans this

theorem smul_of_card (H : AddSubgroup Pt) (P : Pt) (hP : P ∈ H) (n : ℕ) (h : Nat.card H ∣ n) : n • P = 0 := by
  have : addOrderOf (⟨P, hP⟩ : H) ∣ Nat.card H := addOrderOf_dvd_natCard _
  rw [← AddSubgroup.addOrderOf_coe] at this
  exact addOrderOf_dvd_iff_nsmul_eq_zero.1 (this.trans h)

/-- The first coordinate of a point of order 8. -/
def w8 : ℕ := 325606250916557431795983626356110631294008115727848805560023387167927233504

/-- The curve has `8 l` points. -/
theorem card_Hp : Nat.card Hp = 8 * l := by
  obtain ⟨fin, hc⟩ := card_le Hp fun P hP => .inl hP
  have hl : l ∣ Nat.card Hp := by
    obtain ⟨B, hB⟩ := exists_point ((9 : ℕ) : Cl)
    refine dvd_card Hp B (mem_Hp_of B 9 hB (by decide +kernel)) l ?_
    exact prime_dvd_order B l l_prime 9 hB (by rw [p_val]; norm_num) (by decide +kernel) (by unfold l; norm_num) (by decide +kernel)
  have h8 : 8 ∣ Nat.card Hp := by
    obtain ⟨W, hW⟩ := exists_point ((w8 : ℕ) : Cl)
    refine dvd_card Hp W (mem_Hp_of W w8 hW (by decide +kernel)) 8 ?_
    have hlt : w8 < p := by rw [p_val]; unfold w8; norm_num
    have h2 : xc ((2 : ℕ) • W) = (1 : ℕ) := by
      rw [xc_smul W w8 hW hlt 2 (by norm_num), show ladder (digits 2) w8 = 1 by decide +kernel]
    have h4 : (4 : ℕ) • W ≠ 0 := by
      have := two_smul_ne _ 1 h2 (by decide +kernel)
      rwa [smul_smul] at this
    have h8 : (8 : ℕ) • W = 0 := by
      have h0 : xc ((4 : ℕ) • W) = 0 := by
        rw [xc_smul W w8 hW hlt 4 (by norm_num), show ladder (digits 4) w8 = 0 by decide +kernel, Nat.cast_zero]
      have := two_smul_of_xc _ h0
      rwa [smul_smul] at this
    have : addOrderOf W = 2 ^ 3 := addOrderOf_eq_prime_pow (p := 2) (n := 2) h4 h8
    rw [this]
    norm_num
  obtain ⟨c, hc'⟩ := (Nat.Coprime.mul_dvd_of_dvd_of_dvd (by unfold l; decide +kernel) h8 hl : 8 * l ∣ Nat.card Hp)
  have hpos : 0 < Nat.card Hp := Nat.card_pos
  have hb : 2 * p + 1 < 8 * l * 2 := by unfold p l; norm_num
  rw [hc'] at hc hpos ⊢
  have h1 : c < 2 := by
    by_contra h
    have : 8 * l * 2 ≤ 8 * l * c := Nat.mul_le_mul_left _ (by omega)
    omega
  have h2 : c ≠ 0 := by rintro rfl; simp at hpos
  rw [show c = 1 by omega, mul_one]

/-- The points of the twisted curve are killed by `8 l'`. -/
theorem card_Hm : Nat.card Hm ∣ 8 * l' := by
  obtain ⟨fin, hc⟩ := card_le Hm fun P hP => .inr hP
  have hl : l' ∣ Nat.card Hm := by
    obtain ⟨B, hB⟩ := exists_point ((2 : ℕ) : Cl)
    refine dvd_card Hm B (mem_Hm_of B 2 hB (by decide +kernel)) l' ?_
    exact prime_dvd_order B l' l'_prime 2 hB (by rw [p_val]; norm_num) (by decide +kernel) (by unfold l'; norm_num) (by decide +kernel)
  have h4 : 4 ∣ Nat.card Hm := by
    obtain ⟨W, hW⟩ := exists_point ((p - 1 : ℕ) : Cl)
    refine dvd_card Hm W (mem_Hm_of W (p - 1) hW (by decide +kernel)) 4 ?_
    have hlt : p - 1 < p := by rw [p_val]; norm_num
    have h2 := two_smul_ne W (p - 1) hW (by decide +kernel)
    have h4 : (4 : ℕ) • W = 0 := by
      have h0 : xc ((2 : ℕ) • W) = 0 := by
        rw [xc_smul W _ hW hlt 2 (by norm_num), show ladder (digits 2) (p - 1) = 0 by decide +kernel, Nat.cast_zero]
      have := two_smul_of_xc _ h0
      rwa [smul_smul] at this
    have : addOrderOf W = 2 ^ 2 := addOrderOf_eq_prime_pow (p := 2) (n := 1) h2 h4
    rw [this]
    norm_num
  obtain ⟨c, hc'⟩ := (Nat.Coprime.mul_dvd_of_dvd_of_dvd (by unfold l'; decide +kernel) h4 hl : 4 * l' ∣ Nat.card Hm)
  have hpos : 0 < Nat.card Hm := Nat.card_pos
  have hb : 2 * p + 1 < 4 * l' * 3 := by unfold p l'; norm_num
  rw [hc'] at hc hpos ⊢
  have h1 : c < 3 := by
    by_contra h
    have : 4 * l' * 3 ≤ 4 * l' * c := Nat.mul_le_mul_left _ (by omega)
    omega
  have h2 : c ≠ 0 := by rintro rfl; simp at hpos
  rcases (by omega : c = 1 ∨ c = 2) with rfl | rfl
  · exact ⟨2, by ring⟩
  · exact ⟨1, by ring⟩

theorem kill_Hp (P : Pt) (h : P ∈ Hp) : (8 * l) • P = 0 := smul_of_card Hp P h _ (by rw [card_Hp])
theorem kill_Hm (P : Pt) (h : P ∈ Hm) : (8 * l') • P = 0 := smul_of_card Hm P h _ card_Hm

/-! ### Multiples of eight -/

theorem zero_of_coprime (P : Pt) (a b : ℕ) (h : Nat.Coprime a b) (ha : a • P = 0) (hb : b • P = 0) : P = 0 := by
  have h1 := addOrderOf_dvd_iff_nsmul_eq_zero.2 ha
  have h2 := addOrderOf_dvd_iff_nsmul_eq_zero.2 hb
  have := Nat.dvd_gcd h1 h2
  rw [h.gcd_eq_one] at this
  have := addOrderOf_dvd_iff_nsmul_eq_zero.1 this
  rwa [one_smul] at this

/-- The prime that kills eight times the points of a group. -/
def Kills (q : ℕ) (P : Pt) : Prop := q • (8 : ℕ) • P = 0

theorem kills_or (P : Pt) (h : P ∈ Hp ∨ P ∈ Hm) : Kills l P ∨ Kills l' P := by
  rcases h with h | h
  · left; rw [Kills, smul_smul, mul_comm]; exact kill_Hp P h
  · right; rw [Kills, smul_smul, mul_comm]; exact kill_Hm P h

theorem Kills.neg {q : ℕ} {P : Pt} (h : Kills q P) : Kills q (-P) := by
  unfold Kills at h ⊢
  rw [neg_nsmul, neg_nsmul, h, neg_zero]

theorem l_coprime : Nat.Coprime l l' := (Nat.coprime_primes l_prime l'_prime).2 (by unfold l l'; norm_num)

/-- A multiplier without common factors with the two primes. -/
structure Good (m : ℕ) : Prop where
  l : Nat.Coprime m l
  l' : Nat.Coprime m l'

theorem zero_of_xc {q : ℕ} (hq : Nat.Coprime 2 q) (P : Pt) (h : Kills q P) (n : ℕ) (h0 : xc ((n * 8) • P) = 0) : (n * 8) • P = 0 := by
  refine zero_of_coprime _ 2 q hq (two_smul_of_xc _ h0) ?_
  rw [mul_smul, smul_comm, h, nsmul_zero]

theorem two_l : Nat.Coprime 2 l := by unfold l; decide +kernel
theorem two_l' : Nat.Coprime 2 l' := by unfold l'; decide +kernel

theorem xc_zero_iff (P : Pt) (h : P ∈ Hp ∨ P ∈ Hm) (m : ℕ) (hm : Good m) : xc ((m * 8) • P) = 0 ↔ (8 : ℕ) • P = 0 := by
  constructor
  · intro h0
    rcases kills_or P h with hk | hk
    · have := zero_of_xc two_l P hk m h0
      rw [mul_smul] at this
      exact zero_of_coprime _ m l hm.l this hk
    · have := zero_of_xc two_l' P hk m h0
      rw [mul_smul] at this
      exact zero_of_coprime _ m l' hm.l' this hk
  · intro h0
    rw [mul_smul, h0, nsmul_zero]
    rfl

theorem eight_eq {P Q : Pt} (hP : Kills l P ∨ Kills l' P) (hQ : Kills l Q ∨ Kills l' Q) (m : ℕ) (hm : Good m) (h0 : (8 : ℕ) • P ≠ 0)
    (h : (m * 8) • P = (m * 8) • Q) : (8 : ℕ) • P = (8 : ℕ) • Q := by
  rw [mul_smul, mul_smul] at h
  have key : ∀ q, Nat.Coprime m q → Kills q P → Kills q Q → (8 : ℕ) • P = (8 : ℕ) • Q := by
    intro q hq h1 h2
    rw [← sub_eq_zero]
    refine zero_of_coprime _ m q hq ?_ ?_
    · rw [nsmul_sub, h, sub_self]
    · rw [nsmul_sub, h1, h2, sub_self]
  have mixed : ∀ q q', Nat.Coprime m q → Nat.Coprime q q' → Kills q P → Kills q' Q → False := by
    intro q q' hq hqq h1 h2
    apply h0
    refine zero_of_coprime _ m q hq ?_ h1
    refine zero_of_coprime _ q q' hqq ?_ ?_
    · rw [smul_comm, h1, nsmul_zero]
    · rw [h, smul_comm, h2, nsmul_zero]
  rcases hP with h1 | h1 <;> rcases hQ with h2 | h2
  · exact key l hm.l h1 h2
  · exact (mixed l l' hm.l l_coprime h1 h2).elim
  · exact (mixed l' l hm.l' l_coprime.symm h1 h2).elim
  · exact key l' hm.l' h1 h2

/-- Whether two points have the same multiple (up to sign) does not depend on the multiplier. -/
theorem xc_eq_iff (P Q : Pt) (hP : P ∈ Hp ∨ P ∈ Hm) (hQ : Q ∈ Hp ∨ Q ∈ Hm) (m : ℕ) (hm : Good m) :
    xc ((m * 8) • P) = xc ((m * 8) • Q) ↔ (8 : ℕ) • P = (8 : ℕ) • Q ∨ (8 : ℕ) • P = -((8 : ℕ) • Q) := by
  constructor
  · intro h
    by_cases h0 : (8 : ℕ) • P = 0
    · have := (xc_zero_iff P hP m hm).2 h0
      rw [h, xc_zero_iff Q hQ m hm] at this
      left; rw [h0, this]
    · have hp : (m * 8) • P ≠ 0 := fun hz => h0 ((xc_zero_iff P hP m hm).1 (by rw [hz]; rfl))
      have hq : (m * 8) • Q ≠ 0 := fun hz => h0 ((xc_zero_iff P hP m hm).1 (by rw [h, hz]; rfl))
      rcases same_x _ _ hp hq h with e | e
      · exact .inl (eight_eq (kills_or P hP) (kills_or Q hQ) m hm h0 e)
      · right
        rw [← neg_nsmul] at e ⊢
        exact eight_eq (kills_or P hP) ((kills_or Q hQ).imp Kills.neg Kills.neg) m hm h0 e
  · rintro (h | h)
    · rw [mul_smul, h, ← mul_smul]
    · rw [mul_smul, h, neg_nsmul, ← mul_smul, xc_neg]

end Kunlun.X25519
