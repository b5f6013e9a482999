import Verif.Model.P256Codec
import Verif.Props.HashToCurve
import Verif.Props.AdcpBind
/-! Properties of the curve the library works on and of the byte strings of its points. -/

namespace Kunlun.P256

open Kunlun

/-! ### The group -/

/-- **C100** The group has the prime order `n` and no other points than the multiples of the generator: every point is `k * G` for exactly one
`k` below `n`. -/
theorem p256_unique_scalar (P : Pt) : ∃! k : ℕ, k < n ∧ P = k • G := by
  obtain ⟨k, hk, e⟩ := generates P
  refine ⟨k, ⟨hk, e⟩, ?_⟩
  rintro m ⟨hm, e'⟩
  have h := nsmul_injOn_Iio_addOrderOf (x := G) (by rw [order_G]; exact hm) (by rw [order_G]; exact hk) (e'.symm.trans e)
  exact h

/-- **C100** There are no points of small order: a multiple of a point other than infinity vanishes only for multiples of `n`, and every such
point generates the group. -/
theorem p256_no_small_order (P : Pt) (hP : P ≠ 0) :
    (∀ k : ℤ, k • P = 0 ↔ (n : ℤ) ∣ k) ∧ ∀ Q : Pt, ∃ k : ℕ, k < n ∧ Q = k • P := by
  have hk : ∀ k : ℤ, k • P = 0 ↔ (n : ℤ) ∣ k := fun k => curve.smul_eq_zero_iff k P hP
  refine ⟨hk, fun Q => ?_⟩
  have ho : addOrderOf P = n := addOrderOf_eq_prime (n_smul P) hP
  have htop : AddSubgroup.zmultiples P = ⊤ := by
    apply AddSubgroup.eq_top_of_card_eq
    rw [Nat.card_zmultiples, ho, card_eq]
  have hQ : Q ∈ AddSubgroup.zmultiples P := htop ▸ AddSubgroup.mem_top Q
  rw [← mem_multiples_iff_mem_zmultiples, mem_multiples_iff_mem_range_addOrderOf, ho] at hQ
  obtain ⟨k, hk, e⟩ := Finset.mem_image.1 hQ
  exact ⟨k, Finset.mem_range.1 hk, e.symm⟩

/-- **C100** `GenRandomGenerator` is uniform: each point other than infinity comes from exactly one of the `n - 1` values drawn, and infinity
from none. -/
theorem p256_random_point (P : Pt) :
    (P ≠ 0 → ∃! r : ℤ, 0 ≤ r ∧ r < n - 1 ∧ genRandomGenerator r = P) ∧ (P = 0 → ∀ r : ℤ, 0 ≤ r → r < n - 1 → genRandomGenerator r ≠ P) := by
  constructor
  · intro hP
    obtain ⟨k, ⟨hk, e⟩, hu⟩ := p256_unique_scalar P
    have hk0 : k ≠ 0 := by rintro rfl; exact hP (by rw [e]; exact zero_nsmul G)
    refine ⟨(k : ℤ) - 1, ⟨by omega, by omega, ?_⟩, ?_⟩
    · unfold genRandomGenerator BigInt.randomBetween
      rw [sub_add_cancel, e, natCast_zsmul]
    · rintro r ⟨h0, h1, hr⟩
      unfold genRandomGenerator BigInt.randomBetween at hr
      have : (r + 1).toNat = k := hu _ ⟨by omega, by rw [← hr, ← natCast_zsmul, Int.toNat_of_nonneg (by omega)]⟩
      omega
  · rintro rfl r h0 h1 hr
    unfold genRandomGenerator BigInt.randomBetween at hr
    have := ((p256_no_small_order G G_ne).1 _).1 hr
    have := Int.le_of_dvd (by omega) this
    omega

/-- The generator is a point other than infinity, the values 0 and 1 give `G` and `2 * G`. -/
example : G ≠ 0 ∧ genRandomGenerator 0 = G ∧ genRandomGenerator 1 = G + G := by
  refine ⟨G_ne, ?_, ?_⟩
  · unfold genRandomGenerator BigInt.randomBetween
    rw [zero_add, one_zsmul]
  · unfold genRandomGenerator BigInt.randomBetween
    rw [one_add_one_eq_two, two_zsmul]

/-! ### Bytes -/

theorem toBytes_length (P : Pt) : (toBytes P).length = 33 := by
  rcases P with _ | ⟨x, y, h⟩
  · simp [toBytes, bnLen]
  · simp [toBytes, beBytes_length, bnLen]

/-- **C100** The byte string of a point that is hashed into challenges and written into transactions has 33 bytes and determines the point, the
point at infinity included. -/
theorem p256_bytes_encode : curve.Encodes 33 := by
  refine ⟨toBytes_length, ?_⟩
  rintro (_ | ⟨x, y, h⟩) (_ | ⟨x', y', h'⟩) he
  · rfl
  · exfalso
    simp only [curve, toBytes, List.cons.injEq] at he
    have := congrArg UInt8.toNat he.1
    rcases Nat.mod_two_eq_zero_or_one y'.val with h2 | h2 <;> rw [h2] at this <;> simp at this
  · exfalso
    simp only [curve, toBytes, List.cons.injEq] at he
    have := congrArg UInt8.toNat he.1
    rcases Nat.mod_two_eq_zero_or_one y.val with h2 | h2 <;> rw [h2] at this <;> simp at this
  · simp only [curve, toBytes, List.cons.injEq] at he
    apply compress_inj
    have hx := beBytes_inj (val_lt_pow x) (val_lt_pow x') he.2
    have hx' : x = x' := ZMod.val_injective _ hx
    have hy := congrArg UInt8.toNat he.1
    simp only [compress, hx']
    rcases Nat.mod_two_eq_zero_or_one y.val with h2 | h2 <;> rcases Nat.mod_two_eq_zero_or_one y'.val with h3 | h3 <;>
      rw [h2, h3] at hy <;> simp at hy <;> simp [h2, h3]

/-- With this the theorems that take an injective point encoding of fixed length as a hypothesis (C82, C85, C88, C89) hold on this curve
without it; for instance for the message of a transaction. -/
example (ctx ctx' : ADCP.ToOne Pt) (h : ADCP.toSign curve ctx = ADCP.toSign curve ctx')
    (hs : (ADCP.hexString ctx.sn).length = (ADCP.hexString ctx'.sn).length) (hX : ctx.transfer.vecX.length = ctx'.transfer.vecX.length) :
    ctx.sn = ctx'.sn ∧ ctx.pks = ctx'.pks ∧ ctx.pkr = ctx'.pkr ∧ ctx.senderBalance = ctx'.senderBalance ∧ ctx.transfer = ctx'.transfer :=
  ADCP.adcp_message_binds curve p256_bytes_encode ctx ctx' h hs hX

/-- The hybrid form: as the uncompressed form, with the parity of the second coordinate in the first byte. -/
def hybrid : Pt → Bytes
  | .zero => [0]
  | .some x y _ => UInt8.ofNat (6 + y.val % 2) :: (beBytes bnLen x.val ++ beBytes bnLen y.val)

/-- **C100** Every string a stream or socket accepts as a point gives a point of the curve other than infinity, hence of order `n`: no check for
small subgroups is missing.  The strings accepted for a point are its uncompressed form, which is the one written, and its hybrid form. -/
theorem p256_decoded (s : Bytes) (P : Pt) :
    codec.dec s = some P ↔ P ≠ 0 ∧ (s = codec.enc P ∨ s = hybrid P) := by
  constructor
  · intro h
    rcases s with _ | ⟨t, bs⟩
    · simp [codec, dec] at h
    simp only [codec, dec] at h
    split at h
    · next hl =>
      split at h
      · next ht =>
        have hl1 : (bs.take bnLen).length = bnLen := by rw [List.length_take]; omega
        have hl2 : (bs.drop bnLen).length = bnLen := by rw [List.length_drop]; omega
        have b1 := Hash.beBytes_ofBE (bs.take bnLen)
        have b2 := Hash.beBytes_ofBE (bs.drop bnLen)
        rw [hl1] at b1
        rw [hl2] at b2
        unfold ofCoords at h
        split at h
        · next hc =>
          simp only [Option.some.injEq] at h
          subst h
          have v1 : ((ofBE (bs.take bnLen) : ℕ) : F).val = ofBE (bs.take bnLen) := ZMod.val_natCast_of_lt hc.1
          have v2 : ((ofBE (bs.drop bnLen) : ℕ) : F).val = ofBE (bs.drop bnLen) := ZMod.val_natCast_of_lt hc.2.1
          refine ⟨mk_ne_zero _ _ _, ?_⟩
          rcases ht with rfl | ht
          · left
            simp only [codec, enc, mk, v1, v2, b1, b2, List.take_append_drop]
          · right
            simp only [hybrid, mk, v1, v2, b1, b2, List.take_append_drop, List.cons.injEq, and_true]
            rw [← ht, UInt8.ofNat_toNat]
        · simp at h
      · simp at h
    · simp at h
  · rintro ⟨hP, rfl | rfl⟩
    · exact codec.dec_enc P hP
    · rcases P with _ | ⟨x, y, h⟩
      · exact absurd rfl hP
      · have := enc_some x y h
        have e1 : (beBytes bnLen x.val ++ beBytes bnLen y.val).drop bnLen = beBytes bnLen y.val := by
          rw [List.drop_append_of_le_length (by rw [beBytes_length]), List.drop_of_length_le (by rw [beBytes_length]), List.nil_append]
        simp only [enc, dec] at this
        simp only [codec, hybrid, dec]
        have hl : (beBytes bnLen x.val ++ beBytes bnLen y.val).length = 2 * bnLen := by
          rw [List.length_append, beBytes_length, beBytes_length]; omega
        rw [if_pos hl, if_pos (.inl trivial)] at this
        rw [if_pos hl, if_pos, this]
        right
        rw [e1, ofBE_beBytes _ _ (val_lt_pow y)]
        rcases Nat.mod_two_eq_zero_or_one y.val with h2 | h2 <;> rw [h2] <;> rfl

/-- The generator is written as the uncompressed form, read back from it and from its hybrid form, and these differ. -/
example : codec.dec (codec.enc G) = some G ∧ codec.dec (hybrid G) = some G ∧ hybrid G ≠ codec.enc G := by
  refine ⟨(p256_decoded _ _).2 ⟨G_ne, .inl rfl⟩, (p256_decoded _ _).2 ⟨G_ne, .inr rfl⟩, ?_⟩
  intro h
  simp only [G, mk, hybrid, codec, enc, List.cons.injEq] at h
  have := congrArg UInt8.toNat h.1
  rcases Nat.mod_two_eq_zero_or_one ((gy : F)).val with h2 | h2 <;> rw [h2] at this <;> simp at this

/-! ### Hashing to the curve -/

theorem p_mod_four : p % 4 = 3 := by unfold p; decide +kernel

theorem sqrt_cast (s : ℤ) : 0 ≤ sqrt s ∧ sqrt s < p ∧ ((sqrt s : ℤ) : F) = (s : F) ^ ((p + 1) / 4) := by
  obtain ⟨h0, h1, hm⟩ := BigInt.modExp_residue s ((p + 1) / 4) (m := (p : ℤ)) (by exact_mod_cast p_prime.pos)
  refine ⟨h0, h1, ?_⟩
  rw [← (ZMod.intCast_eq_intCast_iff _ _ _)] at hm
  rw [← Int.cast_pow]
  exact hm

theorem root_ok : Hash.RootOk p sqrt := by
  intro s hs
  obtain ⟨h0, h1, e⟩ := sqrt_cast s
  refine ⟨h0, h1, ?_⟩
  have h4 := p_mod_four
  rw [e, ← pow_mul]
  by_cases hz : (s : F) = 0
  · rw [hz, zero_pow (by omega)]
  · have := (ZMod.euler_criterion p hz).1 hs
    rw [show (p + 1) / 4 * 2 = p / 2 + 1 by omega, pow_succ, this, one_mul]

/-- **C100** `StringToECPoint` on this curve: every run that ends returns coordinates of a point, which has order `n`; and its second coordinate is
always the root that is itself a square, whatever its parity, so that the sign that lines 117-119 are meant to fix is fixed by `BN_mod_sqrt`. -/
theorem p256_string_to_point (H : Bytes → Bytes) (k : ℕ) (s : Bytes) (r : Option (ℤ × ℤ)) (hr : weier.stringToPoint H sqrt k s = some r) :
    ∃ (x y : ℕ) (P : Pt), r = some ((x : ℤ), (y : ℤ)) ∧ ofCoords x y = some P ∧ P ≠ 0 ∧ IsSquare (y : F) ∧ ¬ IsSquare (-(y : F)) := by
  have h2 : weier.p ≠ 2 := by
    intro h
    have := p_mod_four
    rw [show p = 2 from h] at this
    omega
  obtain ⟨x, y, e, hx, hy0, hy, hm⟩ := Hash.string_to_point_sound weier p_prime h2 H sqrt root_ok k s r hr
  have hc : ((y : F)) ^ 2 = (x : F) ^ 3 - 3 * x + b := by
    have hm : y ^ 2 ≡ x ^ 3 + (p - 3) * x + b [MOD p] := hm
    rw [← ZMod.natCast_eq_natCast_iff] at hm
    have h3 : 3 ≤ p := by unfold p; decide +kernel
    push_cast [Nat.cast_sub h3] at hm
    rw [ZMod.natCast_self] at hm
    linear_combination hm
  have hsq : IsSquare (y : F) := by
    obtain ⟨h1, h3⟩ := Hash.string_to_point_first weier p_prime h2 H sqrt root_ok k s
    have hcand : ∃ i, i < k ∧ weier.Hit (Hash.candidate weier.p H s i) := by
      by_contra hcon
      push Not at hcon
      rw [h1.2 hcon] at hr
      cases hr
    classical
    have hi := Nat.find_spec hcand
    have e' := h3 (Nat.find hcand) hi.1 hi.2 fun j hj hh => Nat.find_min hcand hj ⟨by omega, hh⟩
    rw [hr, e] at e'
    simp only [Option.some.injEq, Prod.mk.injEq] at e'
    generalize Hash.candidate weier.p H s (Nat.find hcand) = c at e' hi
    have hrc := Hash.rhs_cast weier p_prime c
    have hq : IsSquare ((weier.rhs c : ℤ) : ZMod weier.p) := by rw [hrc]; simpa using hi.2.2
    obtain ⟨-, -, es⟩ := sqrt_cast (weier.rhs c)
    have : (y : F) = ((weier.rhs c : ℤ) : F) ^ ((p + 1) / 4) := by
      rw [← es, ← e'.2]
      simp
    rw [this]
    exact IsSquare.pow _ hq
  have hyne : (y : F) ≠ 0 := y_ne_zero ((equation_iff _ _).2 hc)
  refine ⟨x, y, mk x y hc, e, ?_, mk_ne_zero _ _ _, hsq, ?_⟩
  · unfold ofCoords
    rw [dif_pos ⟨hx, hy, hc⟩]
  · intro hneg
    have hn1 : IsSquare (-1 : F) := by
      have : (-1 : F) = -(y : F) * ((y : F))⁻¹ := by field_simp
      rw [this]
      exact hneg.mul hsq.inv
    exact (ZMod.exists_sq_eq_neg_one_iff (p := p)).1 hn1 p_mod_four

/-- A hash function whose first value is the x-coordinate of the generator: the run ends after one attempt. -/
example : ∃ r, weier.stringToPoint (fun _ => beBytes 32 gx) sqrt 1 [] = some r := by
  have h2 : weier.p ≠ 2 := by
    intro h
    have := p_mod_four
    rw [show p = 2 from h] at this
    omega
  have hc : Hash.candidate weier.p (fun _ => beBytes 32 gx) [] 0 = gx := by
    show ofBE (beBytes 32 gx) % p = gx
    rw [ofBE_beBytes _ _ (by decide +kernel), Nat.mod_eq_of_lt g_lt.1]
  have e : ((gx : F)) ^ 3 + ((p - 3 : ℕ) : F) * gx + b = (gy : F) ^ 2 := by
    have h3 : 3 ≤ p := by unfold p; decide +kernel
    push_cast [Nat.cast_sub h3]
    rw [ZMod.natCast_self, g_eq]
    ring
  have hh : weier.Hit gx := by
    have hy := y_ne_zero ((equation_iff _ _).2 g_eq)
    have hr : ((gx : F)) ^ 3 + ((p - 3 : ℕ) : F) * gx + b ≠ 0 ∧ IsSquare (((gx : F)) ^ 3 + ((p - 3 : ℕ) : F) * gx + b) := by
      rw [e]
      exact ⟨pow_ne_zero 2 hy, IsSquare.sq _⟩
    exact hr
  exact ⟨_, (Hash.string_to_point_first weier p_prime h2 _ sqrt root_ok 1 []).2 0 (by omega) (by rw [hc]; exact hh) (by omega)⟩

end Kunlun.P256
