import Verif.Model.P256Primes
import Mathlib.AlgebraicGeometry.EllipticCurve.Affine.Point
import Mathlib.FieldTheory.Finite.Basic
import Mathlib.GroupTheory.Perm.Cycle.Type
import Mathlib.GroupTheory.Index
/-!
The curve the library works on: `curve_id = NID_X9_62_prime256v1` (crypto/ec_group.hpp:16), the curve `y² = x³ - 3x + b` over the
integers modulo `p` with the generator `(gx, gy)`.  The constants are those of the standard (SEC 2, `secp256r1`); the group is Mathlib's
group of points.  It is proved that the generator has the prime order `n` and that there are no other points (cofactor 1).
-/

namespace Kunlun.P256

open WeierstrassCurve.Affine

instance : Fact p.Prime := ⟨p_prime⟩

instance : Fact n.Prime := ⟨n_prime⟩

/-- The field of the coordinates. -/
abbrev F := ZMod p

/-- The constant coefficient. -/
def b : ℕ := 0x5ac635d8aa3a93e7b3ebbd55769886bc651d06b0cc53b0f63bce3c3e27d2604b

/-- The coordinates of the generator. -/
def gx : ℕ := 0x6b17d1f2e12c4247f8bce6e563a440f277037d812deb33a0f4a13945d898c296

@[inherit_doc gx]
def gy : ℕ := 0x4fe342e2fe1a7f9b8ee7eb4a7c0f9e162bce33576b315ececbb6406837bf51f5

/-- ec_group.hpp:16, 37, 53: the curve. -/
def E : WeierstrassCurve.Affine F := ⟨0, 0, 0, -3, (b : F)⟩

/-- The points of the curve. -/
abbrev Pt := E.Point

/-! ### `x³ - 3x + b` has no root -/

/-- Polynomials of degree at most two. -/
abbrev Tri := ℕ × ℕ × ℕ

/-- Product modulo `x³ - 3x + b`. -/
def mulT (u v : Tri) : Tri :=
  let d3 := u.2.1 * v.2.2 + u.2.2 * v.2.1
  let d4 := u.2.2 * v.2.2
  ((u.1 * v.1 + (p - b) * d3) % p,
   (u.1 * v.2.1 + u.2.1 * v.1 + 3 * d3 + (p - b) * d4) % p,
   (u.1 * v.2.2 + u.2.1 * v.2.1 + u.2.2 * v.1 + 3 * d4) % p)

/-- Powers modulo `x³ - 3x + b`. -/
def powT : ℕ → Tri → ℕ → Tri
  | 0, _, _ => (1, 0, 0)
  | k + 1, u, e => if e % 2 = 1 then mulT u (powT k (mulT u u) (e / 2)) else powT k (mulT u u) (e / 2)

/-- The value at `r`. -/
def ev (r : F) (u : Tri) : F := u.1 + u.2.1 * r + u.2.2 * r ^ 2

theorem b_le : b ≤ p := by unfold b p; decide +kernel

theorem ev_mulT (r : F) (hr : r ^ 3 = 3 * r - b) (u v : Tri) : ev r (mulT u v) = ev r u * ev r v := by
  obtain ⟨u0, u1, u2⟩ := u
  obtain ⟨v0, v1, v2⟩ := v
  have h4 : r ^ 4 = 3 * r ^ 2 - b * r := by
    calc r ^ 4 = r ^ 3 * r := by ring
      _ = _ := by rw [hr]; ring
  simp only [ev, mulT, ZMod.natCast_mod]
  push_cast [Nat.cast_sub b_le]
  rw [ZMod.natCast_self]
  linear_combination (-(u1 * v2 + u2 * v1 : F)) * hr - (u2 * v2 : F) * h4

theorem ev_powT (r : F) (hr : r ^ 3 = 3 * r - b) (k : ℕ) (u : Tri) (e : ℕ) (h : e < 2 ^ k) : ev r (powT k u e) = ev r u ^ e := by
  induction k generalizing u e with
  | zero =>
    have : e = 0 := by simpa using h
    simp [powT, ev, this]
  | succ k ih =>
    have hi := ih (mulT u u) (e / 2) (by rw [pow_succ] at h; omega)
    rw [ev_mulT r hr, ← pow_two, ← pow_mul] at hi
    unfold powT
    split
    · next ho =>
      rw [ev_mulT r hr, hi, ← pow_succ']
      congr 1
      omega
    · next ho =>
      rw [hi]
      congr 1
      omega

/-- The inverse of `x^p - x` modulo `x³ - 3x + b`. -/
def bez : Tri := (0xa969487079f1744798bf0de6fded091b66e9d328eb0645fe5d979d1339b7f47f,
  0xa4a08891884100c13323460107a8d28eede4387fa3e6e9bfebec9f6d72d0b5cc,
  0x4cde11cf86cb876cd59cf0115813c55af0ecd3cda667d98bb9a347a56aa74a6d)

/-- `u - x`. -/
def subX (u : Tri) : Tri := (u.1, u.2.1 + (p - 1), u.2.2)

theorem bez_spec : mulT bez (subX (powT 256 (0, 1, 0) p)) = (1, 0, 0) := by
  decide +kernel

theorem no_root (r : F) : r ^ 3 - 3 * r + b ≠ 0 := by
  intro h
  have hr : r ^ 3 = 3 * r - b := by linear_combination h
  have hlt : p < 2 ^ 256 := by unfold p; decide +kernel
  have h1 := ev_mulT r hr bez (subX (powT 256 (0, 1, 0) p))
  have h2 := ev_powT r hr 256 (0, 1, 0) p hlt
  have hx : ev r (0, 1, 0) = r := by simp [ev]
  rw [hx, ZMod.pow_card] at h2
  have h3 : ev r (subX (powT 256 (0, 1, 0) p)) = 0 := by
    have : ev r (subX (powT 256 (0, 1, 0) p)) = ev r (powT 256 (0, 1, 0) p) - r := by
      simp only [ev, subX]
      push_cast [Nat.cast_sub p_prime.one_lt.le]
      rw [ZMod.natCast_self]
      ring
    rw [this, h2, sub_self]
  rw [bez_spec, h3, mul_zero] at h1
  simp [ev] at h1

/-! ### Points -/

theorem two_ne : (2 : F) ≠ 0 := by
  have h : ((2 : ℕ) : F) ≠ 0 := by
    rw [Ne, ZMod.natCast_eq_zero_iff]
    intro h
    have := Nat.le_of_dvd (by norm_num) h
    revert this
    unfold p
    decide +kernel
  exact_mod_cast h

theorem equation_iff (x y : F) : E.Equation x y ↔ y ^ 2 = x ^ 3 - 3 * x + b := by
  rw [WeierstrassCurve.Affine.equation_iff]
  simp only [E]
  constructor <;> intro h <;> linear_combination h

theorem y_ne_zero {x y : F} (h : E.Equation x y) : y ≠ 0 := by
  rintro rfl
  rw [equation_iff] at h
  exact no_root x (by linear_combination -h)

theorem negY_eq (x y : F) : E.negY x y = -y := by simp [WeierstrassCurve.Affine.negY, E]

theorem y_ne_neg {y : F} (h : y ≠ 0) : y ≠ -y := by
  intro he
  apply mul_ne_zero two_ne h
  linear_combination he

theorem nonsingular_iff (x y : F) : E.Nonsingular x y ↔ y ^ 2 = x ^ 3 - 3 * x + b := by
  rw [← equation_iff]
  constructor
  · exact fun h => h.1
  · intro h
    rw [WeierstrassCurve.Affine.nonsingular_iff]
    refine ⟨h, .inr ?_⟩
    have := y_ne_neg (y_ne_zero h)
    simpa [E] using this

/-- The point with the given coordinates. -/
def mk (x y : F) (h : y ^ 2 = x ^ 3 - 3 * x + b) : Pt := .some x y ((nonsingular_iff x y).2 h)

theorem g_eq : ((gy : F)) ^ 2 = (gx : F) ^ 3 - 3 * gx + b := by
  have h : gy ^ 2 % p = (gx ^ 3 + (p - 3) * gx + b) % p := by unfold p; decide +kernel
  have h3 : 3 ≤ p := by unfold p; decide +kernel
  have := (ZMod.natCast_eq_natCast_iff' _ _ p).2 h
  push_cast [Nat.cast_sub h3] at this
  rw [ZMod.natCast_self] at this
  linear_combination this

/-- ec_group.hpp:41 the generator. -/
def G : Pt := mk gx gy g_eq

/-! ### The order of the generator -/

/-- The inverse modulo `p`. -/
def inv (d : ℕ) : ℕ := powMod p 256 d (p - 2)

theorem inv_eq (d : ℕ) : ((inv d : ℕ) : F) = (d : F)⁻¹ := by
  have hlt : p - 2 < 2 ^ 256 := by unfold p; decide +kernel
  have h2 : 2 < p := by unfold p; decide +kernel
  rw [inv, powMod_eq _ _ _ _ hlt, ZMod.natCast_mod]
  push_cast
  by_cases hd : (d : F) = 0
  · rw [hd, inv_zero, zero_pow (by omega)]
  · apply eq_inv_of_mul_eq_one_left
    rw [← pow_succ, show p - 2 + 1 = p - 1 by omega, ZMod.pow_card_sub_one_eq_one hd]

/-- The third point of the line with slope `l` through `(x, y)` and a point with first coordinate `x2`, mirrored. -/
def chord (l x y x2 : ℕ) : ℕ × ℕ :=
  let x' := (l * l + (p - x) + (p - x2)) % p
  (x', (l * (x + (p - x')) + (p - y)) % p)

/-- Doubling. -/
def dbl (P : ℕ × ℕ) : ℕ × ℕ := chord ((3 * P.1 * P.1 + (p - 3)) % p * inv (2 * P.2) % p) P.1 P.2 P.1

/-- Addition of the generator. -/
def addG (P : ℕ × ℕ) : ℕ × ℕ := chord ((P.2 + (p - gy)) % p * inv (P.1 + (p - gx)) % p) P.1 P.2 gx

/-- `k` times the generator is the point with the coordinates `P`. -/
def At (k : ℕ) (P : ℕ × ℕ) : Prop := P.1 < p ∧ P.2 < p ∧ ∃ h, k • G = mk P.1 P.2 h

theorem mk_add {x1 y1 x2 y2 : F} (h1 h2) (hne : ¬(x1 = x2 ∧ y1 = -y2)) (l : F) (hl : l = E.slope x1 x2 y1 y2) :
    ∃ h, mk x1 y1 h1 + mk x2 y2 h2 = mk (l ^ 2 - x1 - x2) (l * (x1 - (l ^ 2 - x1 - x2)) - y1) h := by
  have hx : E.addX x1 x2 l = l ^ 2 - x1 - x2 := by simp [WeierstrassCurve.Affine.addX, E]
  have hy : E.addY x1 x2 y1 l = l * (x1 - (l ^ 2 - x1 - x2)) - y1 := by
    rw [WeierstrassCurve.Affine.addY, negY_eq, WeierstrassCurve.Affine.negAddY, hx]
    ring
  have hns := nonsingular_add ((nonsingular_iff x1 y1).2 h1) ((nonsingular_iff x2 y2).2 h2) (by rwa [negY_eq])
  rw [← hl, hx, hy] at hns
  refine ⟨(nonsingular_iff _ _).1 hns, ?_⟩
  unfold mk
  rw [Point.add_some (by rwa [negY_eq])]
  simp only [← hl, hx, hy]

theorem chord_cast (l x y x2 : ℕ) (hx : x < p) (hy : y < p) (h2 : x2 < p) :
    ((chord l x y x2).1 : F) = (l : F) ^ 2 - x - x2 ∧
    ((chord l x y x2).2 : F) = (l : F) * (x - ((l : F) ^ 2 - x - x2)) - y ∧ (chord l x y x2).1 < p ∧ (chord l x y x2).2 < p := by
  have e1 : ((chord l x y x2).1 : F) = (l : F) ^ 2 - x - x2 := by
    simp only [chord, ZMod.natCast_mod]
    push_cast [Nat.cast_sub hx.le, Nat.cast_sub h2.le]
    rw [ZMod.natCast_self]
    ring
  have hlt : (chord l x y x2).1 < p := Nat.mod_lt _ p_prime.pos
  refine ⟨e1, ?_, hlt, Nat.mod_lt _ p_prime.pos⟩
  have : (chord l x y x2).2 = (l * (x + (p - (chord l x y x2).1)) + (p - y)) % p := rfl
  rw [this, ZMod.natCast_mod]
  push_cast [Nat.cast_sub hy.le, Nat.cast_sub hlt.le]
  rw [ZMod.natCast_self, e1]
  ring

theorem at_chord {k m : ℕ} {P Q : ℕ × ℕ} (hP : At k P) (hQ : At m Q) (hne : ¬((P.1 : F) = Q.1 ∧ (P.2 : F) = -Q.2)) (l : ℕ)
    (hl : (l : F) = E.slope P.1 Q.1 P.2 Q.2) : At (k + m) (chord l P.1 P.2 Q.1) := by
  obtain ⟨p1, p2, hp, ep⟩ := hP
  obtain ⟨q1, q2, hq, eq⟩ := hQ
  obtain ⟨c1, c2, c3, c4⟩ := chord_cast l P.1 P.2 Q.1 p1 p2 q1
  obtain ⟨h, e⟩ := mk_add hp hq hne l hl
  refine ⟨c3, c4, ?_⟩
  rw [add_smul, ep, eq, e]
  simp only [c1, c2]
  exact ⟨h, trivial⟩

theorem cast_inj {x y : ℕ} (hx : x < p) (hy : y < p) (h : (x : F) = y) : x = y := by
  have := (ZMod.natCast_eq_natCast_iff' _ _ p).1 h
  rwa [Nat.mod_eq_of_lt hx, Nat.mod_eq_of_lt hy] at this

theorem at_dbl {k : ℕ} {P : ℕ × ℕ} (hP : At k P) : At (2 * k) (dbl P) := by
  obtain ⟨p1, p2, hp, ep⟩ := id hP
  have hy : (P.2 : F) ≠ -P.2 := y_ne_neg (y_ne_zero ((equation_iff _ _).2 hp))
  rw [two_mul]
  apply at_chord hP hP (fun h => hy h.2)
  have h3 : 3 ≤ p := by unfold p; decide +kernel
  rw [WeierstrassCurve.Affine.slope_of_Y_ne rfl (by rwa [negY_eq]), negY_eq]
  push_cast [Nat.cast_sub h3, ZMod.natCast_mod, inv_eq]
  rw [ZMod.natCast_self]
  simp only [E]
  rw [div_eq_mul_inv]
  congr 1
  · ring
  · congr 1
    ring

theorem g_lt : gx < p ∧ gy < p := by unfold p; decide +kernel

theorem at_one : At 1 (gx, gy) := ⟨g_lt.1, g_lt.2, g_eq, by rw [one_smul]; rfl⟩

theorem at_addG {k : ℕ} {P : ℕ × ℕ} (hP : At k P) (hne : P.1 ≠ gx) : At (k + 1) (addG P) := by
  have hx : (P.1 : F) ≠ gx := fun h => hne (cast_inj hP.1 g_lt.1 h)
  apply at_chord hP at_one (fun h => hx h.1)
  rw [WeierstrassCurve.Affine.slope_of_X_ne hx]
  push_cast [Nat.cast_sub g_lt.1.le, Nat.cast_sub g_lt.2.le, ZMod.natCast_mod, inv_eq]
  rw [ZMod.natCast_self, div_eq_mul_inv]
  congr 1
  · ring
  · congr 1
    ring

attribute [irreducible] dbl addG

/-- Doubling, and addition of the generator for a bit 1; `none` where the generator would be added to itself or its opposite. -/
def step (P : ℕ × ℕ) (c : Bool) : Option (ℕ × ℕ) :=
  match c with
  | false => some (dbl P)
  | true => if (dbl P).1 = gx then none else some (addG (dbl P))

/-- Steps from the top bit down. -/
def chain (f : ℕ × ℕ → Bool → Option (ℕ × ℕ)) : List Bool → ℕ × ℕ → Option (ℕ × ℕ)
  | [], P => some P
  | c :: l, P => (f P c).bind (chain f l)

theorem at_step {k : ℕ} {P Q : ℕ × ℕ} (c : Bool) (hP : At k P) (h : step P c = some Q) : At (2 * k + c.toNat) Q := by
  unfold step at h
  cases c with
  | false =>
    simp only [Option.some.injEq] at h
    rw [← h]
    exact at_dbl hP
  | true =>
    simp only at h
    split at h
    · simp at h
    · next hne =>
      simp only [Option.some.injEq] at h
      rw [← h]
      exact at_addG (at_dbl hP) hne

/-- The number with the bits `l` after the bits of `k`. -/
def bitsFrom (k : ℕ) (l : List Bool) : ℕ := l.foldl (fun k b => 2 * k + b.toNat) k

theorem at_chain {k : ℕ} {P Q : ℕ × ℕ} (l : List Bool) (hP : At k P) (h : chain step l P = some Q) : At (bitsFrom k l) Q := by
  induction l generalizing k P with
  | nil => simp only [chain, Option.some.injEq] at h; rwa [← h]
  | cons c l ih =>
    rw [chain, Option.bind_eq_some_iff] at h
    obtain ⟨R, hR, h⟩ := h
    exact ih (at_step c hP hR) h

/-- The bits of `m`, top first, without the top one. -/
def lowBits (m : ℕ) : List Bool := ((List.range m.log2).map fun i => m.testBit (m.log2 - 1 - i))

theorem bits_spec : bitsFrom 1 (lowBits (n - 1)) = n - 1 := by
  unfold bitsFrom lowBits n
  decide +kernel

theorem chain_spec : chain step (lowBits (n - 1)) (gx, gy) = some (gx, p - gy) := by
  decide +kernel

theorem neg_mk (x y : F) (h) : ∃ h', -mk x y h = mk x (-y) h' := by
  refine ⟨by linear_combination h, ?_⟩
  unfold mk
  simp only [Point.neg_some, negY_eq]

theorem n_smul_G : n • G = 0 := by
  have h := at_chain _ at_one chain_spec
  rw [bits_spec] at h
  obtain ⟨-, -, h, e⟩ := h
  obtain ⟨h', e'⟩ := neg_mk gx gy g_eq
  have hneg : (n - 1) • G = -G := by
    rw [e]
    show _ = -mk gx gy g_eq
    rw [e']
    have : ((p - gy : ℕ) : F) = -(gy : F) := by
      push_cast [Nat.cast_sub g_lt.2.le]
      rw [ZMod.natCast_self]
      ring
    simp only [this]
  have : n = n - 1 + 1 := by have := n_prime.pos; omega
  rw [this, add_smul, hneg, one_smul, neg_add_cancel]

theorem G_ne : G ≠ 0 := Point.some_ne_zero _

theorem order_G : addOrderOf G = n := addOrderOf_eq_prime n_smul_G G_ne

/-! ### There are no other points -/

/-- The first coordinate and the parity of the second: what the compressed form records. -/
def compress : Pt → Option (F × Bool)
  | .zero => none
  | .some x y _ => some (x, y.val % 2 == 1)

theorem p_odd : p % 2 = 1 := by unfold p; decide +kernel

theorem parity_neg (y : F) (hy : y ≠ 0) : (-y).val % 2 ≠ y.val % 2 := by
  have h := ZMod.neg_val y
  rw [if_neg hy] at h
  have h1 := ZMod.val_lt y
  have h2 := p_odd
  rw [h]
  omega

theorem compress_inj : Function.Injective compress := by
  rintro (_ | ⟨x, y, h⟩) (_ | ⟨x', y', h'⟩) he
  · rfl
  · simp [compress] at he
  · simp [compress] at he
  · simp only [compress, Option.some.injEq, Prod.mk.injEq] at he
    obtain ⟨rfl, he⟩ := he
    have e1 := (nonsingular_iff _ _).1 h
    have e2 := (nonsingular_iff _ _).1 h'
    have hy := y_ne_zero ((equation_iff _ _).2 e2)
    rcases sq_eq_sq_iff_eq_or_eq_neg.1 (e1.trans e2.symm) with rfl | rfl
    · rfl
    · exfalso
      apply parity_neg y' hy
      have h1 := Nat.mod_two_eq_zero_or_one (-y').val
      have h2 := Nat.mod_two_eq_zero_or_one y'.val
      rcases h1 with h1 | h1 <;> rcases h2 with h2 | h2 <;> simp_all

instance : Finite Pt := Finite.of_injective _ compress_inj

theorem card_le : Nat.card Pt ≤ 2 * p + 1 := by
  have h := Nat.card_le_card_of_injective _ compress_inj
  have h2 : Nat.card (Option (F × Bool)) = 2 * p + 1 := by
    rw [Finite.card_option, Nat.card_prod, Nat.card_zmod]
    simp [mul_comm]
  omega

theorem no_two_torsion (P : Pt) (h : P + P = 0) : P = 0 := by
  rcases P with _ | ⟨x, y, hn⟩
  · rfl
  · exfalso
    have hy := y_ne_zero hn.1
    rw [Point.add_self_of_Y_ne (by rw [negY_eq]; exact y_ne_neg hy)] at h
    exact Point.some_ne_zero _ h

theorem card_eq : Nat.card Pt = n := by
  have hd : n ∣ Nat.card Pt := order_G ▸ addOrderOf_dvd_natCard G
  have hpos : 0 < Nat.card Pt := Nat.card_pos
  obtain ⟨k, hk⟩ := hd
  have h3 : 2 * p + 1 < n * 3 := by unfold p n; decide +kernel
  have hc := card_le
  have hk3 : k < 3 := by
    by_contra hcon
    have : n * 3 ≤ n * k := Nat.mul_le_mul_left _ (by omega)
    omega
  have hk0 : k ≠ 0 := by rintro rfl; simp at hk; omega
  have hk2 : k ≠ 2 := by
    rintro rfl
    have : Fact (Nat.Prime 2) := ⟨Nat.prime_two⟩
    obtain ⟨P, hP⟩ := exists_prime_addOrderOf_dvd_card' (G := Pt) 2 (hk ▸ Dvd.intro_left n rfl)
    have h0 : (2 : ℕ) • P = 0 := hP ▸ addOrderOf_nsmul_eq_zero P
    have := no_two_torsion P (by rwa [two_smul] at h0)
    rw [this, addOrderOf_zero] at hP
    omega
  have : k = 1 := by omega
  rw [hk, this, mul_one]

theorem n_smul (P : Pt) : n • P = 0 := by
  rw [← card_eq]
  exact card_nsmul_eq_zero'

theorem generates (P : Pt) : ∃ k < n, P = k • G := by
  have htop : AddSubgroup.zmultiples G = ⊤ := by
    apply AddSubgroup.eq_top_of_card_eq
    rw [Nat.card_zmultiples, order_G, card_eq]
  have hP : P ∈ AddSubgroup.zmultiples G := htop ▸ AddSubgroup.mem_top P
  rw [← mem_multiples_iff_mem_zmultiples, mem_multiples_iff_mem_range_addOrderOf, order_G] at hP
  obtain ⟨k, hk, e⟩ := Finset.mem_image.1 hP
  exact ⟨k, Finset.mem_range.1 hk, e.symm⟩

end Kunlun.P256
