import Verif.Props.Bullet
/-!
Helper lemmas: `Bullet::Prove` on integer (possibly negative) witness values.
-/

namespace Kunlun.Bullet

variable {G : Type} [AddCommGroup G] [DecidableEq G]

/-- The challenges of a proof are usable: `y` and the round challenges are invertible modulo the order. -/
def Good (cv : Curve G) (H : Bytes → ℤ) (pf : Proof G) (tr : Bytes) : Prop :=
  ¬ (cv.order : ℤ) ∣ H (tr ++ cv.toBytes pf.A) ∧
    ∀ k xs tr', InnerProduct.challenges cv H k pf.ip.vecL pf.ip.vecR (tr4 cv H pf tr) = some (xs, tr') → ∀ x ∈ xs, ¬ (cv.order : ℤ) ∣ x

theorem challenges_mem (cv : Curve G) (H : Bytes → ℤ) (hH : ∀ b, ¬ (cv.order : ℤ) ∣ H b) (k : Nat) :
    ∀ (L R : List G) (tr : Bytes) (xs : List ℤ) (tr' : Bytes), InnerProduct.challenges cv H k L R tr = some (xs, tr') →
      ∀ x ∈ xs, ¬ (cv.order : ℤ) ∣ x := by
  induction k with
  | zero =>
    intro L R tr xs tr' h
    simp only [InnerProduct.challenges, Option.some.injEq, Prod.mk.injEq] at h
    simp [← h.1]
  | succ k ih =>
    intro L R tr xs tr' h
    cases L with
    | nil => simp [InnerProduct.challenges] at h
    | cons l L =>
      cases R with
      | nil => simp [InnerProduct.challenges] at h
      | cons r R =>
        simp only [InnerProduct.challenges, Option.map_eq_some_iff, Prod.mk.injEq] at h
        obtain ⟨⟨xs1, t1⟩, h1, h2⟩ := h
        obtain ⟨rfl, rfl⟩ := h2
        intro x hx
        rcases List.mem_cons.1 hx with rfl | hx
        · exact hH _
        · exact ih _ _ _ _ _ h1 x hx

/-- With a hash whose values are all invertible every proof is usable. -/
theorem good_of_hash (cv : Curve G) (H : Bytes → ℤ) (hH : ∀ b, ¬ (cv.order : ℤ) ∣ H b) (pf : Proof G) (tr : Bytes) : Good cv H pf tr :=
  ⟨hH _, fun k _ _ h => challenges_mem cv H hH k _ _ _ _ _ h⟩

theorem nthBit_toNat (a : ℤ) (j : Nat) : BigInt.nthBit a j = BigInt.nthBit (a.toNat : ℤ) j := by
  rcases le_or_gt 0 a with h | h
  · rw [Int.toNat_of_nonneg h]
  · have h0 : a.toNat = 0 := Int.toNat_of_nonpos h.le
    rw [h0]
    have hs : a.sign = -1 := Int.sign_eq_neg_one_of_neg h
    unfold BigInt.nthBit BigInt.lastNBits BigInt.rshift
    rw [hs]
    have : ¬ ((-1 * ((a.natAbs >>> j : Nat) : ℤ)).sign * (((-1 * ((a.natAbs >>> j : Nat) : ℤ)).natAbs % 2 ^ 1 : Nat) : ℤ) = 1) := by
      intro hc
      have h1 : (-1 * ((a.natAbs >>> j : Nat) : ℤ)).sign ≤ 0 := by
        rw [Int.sign_nonpos_iff]
        have := Int.natCast_nonneg (a.natAbs >>> j)
        linarith
      have h2 : (0 : ℤ) ≤ (((-1 * ((a.natAbs >>> j : Nat) : ℤ)).natAbs % 2 ^ 1 : Nat) : ℤ) := by positivity
      nlinarith
    rw [if_neg this]
    simp

theorem bits_toNat (R n : Nat) (v : List ℤ) : bits R n v = bits R n ((v.map Int.toNat).map (Nat.cast : ℕ → ℤ)) := by
  unfold bits
  apply List.map_congr_left
  intro k _
  rw [nthBit_toNat]
  have : (((v.map Int.toNat).map (Nat.cast : ℕ → ℤ))[k / R]?).getD 0 = ((((v[k / R]?).getD 0).toNat : ℕ) : ℤ) := by
    rw [List.getElem?_map, List.getElem?_map]
    cases v[k / R]? <;> simp
  rw [this]

theorem prove_toNat (cv : Curve G) (H : Bytes → ℤ) (pp : PP G) (n : Nat) (r v : List ℤ) (c : Coins) (tr : Bytes) :
    prove cv H pp n r v c tr = prove cv H pp n r ((v.map Int.toNat).map (Nat.cast : ℕ → ℤ)) c tr := by
  have : proveCommit cv.order pp n r v c = proveCommit cv.order pp n r ((v.map Int.toNat).map (Nat.cast : ℕ → ℤ)) c := by
    unfold proveCommit
    rw [bits_toNat pp.rangeLen n v]
    simp only [List.length_map]
  unfold prove
  rw [this]

/-- The part of a value the range proof does not see: negative values have no bits, bits above `RANGE_LEN` are dropped. -/
def excess (rangeLen : Nat) (v : ℤ) : ℤ := v - ((v.toNat % 2 ^ rangeLen : ℕ) : ℤ)

theorem excess_eq_zero_iff (rangeLen : Nat) (v : ℤ) : excess rangeLen v = 0 ↔ 0 ≤ v ∧ v < 2 ^ rangeLen := by
  unfold excess
  constructor
  · intro h
    have h1 : v.toNat % 2 ^ rangeLen < 2 ^ rangeLen := Nat.mod_lt _ (by positivity)
    have h2 : v = ((v.toNat % 2 ^ rangeLen : ℕ) : ℤ) := by omega
    constructor
    · rw [h2]; positivity
    · rw [h2]; exact_mod_cast h1
  · rintro ⟨h0, h1⟩
    have : v.toNat < 2 ^ rangeLen := by
      zify
      rw [Int.toNat_of_nonneg h0]
      exact_mod_cast h1
    rw [Nat.mod_eq_of_lt this, Int.toNat_of_nonneg h0]
    ring

/-- `Prove` on values committed as `g^{r_j} h^{v_j}`, in or out of range: `FastVerify` accepts iff the weighted excesses cancel. -/
theorem honest_int_iff (cv : Curve G) (H : Bytes → ℤ) (pp : PP G) (n k : Nat) (r v : List ℤ) (c : Coins) (tr : Bytes)
    (hpow : pp.rangeLen * n = 2 ^ k) (hk : k < 64) (hg : pp.rangeLen * n ≤ pp.vecG.length) (hh : pp.rangeLen * n ≤ pp.vecH.length)
    (hv : v.length = n) (hr : r.length = n) (hsL : c.sL.length = pp.rangeLen * n) (hsR : c.sR.length = pp.rangeLen * n) :
    ∃ pf tr', prove cv H pp n r v c tr = some (pf, tr') ∧ (Good cv H pf tr →
      let z := H (tr ++ cv.toBytes pf.A ++ cv.toBytes pf.S)
      let gap := (∑ j ∈ Finset.range n, z ^ (j + 2) * excess pp.rangeLen ((v[j]?).getD 0)) • pp.h
      let C := List.zipWith (fun (a b : ℤ) => a • pp.g + b • pp.h) r v
      verify cv H pp C tr pf = some (decide (gap = 0), tr') ∧
      ∀ s, fastVerify cv H pp C s tr pf = some (decide (s • gap = 0), tr')) := by
  obtain ⟨pf, tr', xs, hp, hch, h⟩ := bulletproof_honest_iff cv H pp n k r (v.map Int.toNat) c tr hpow hk hg hh (by simpa) hr hsL hsR
  refine ⟨pf, tr', by rw [prove_toNat]; exact hp, ?_⟩
  intro hgood z gap C
  have hC : C.length = n := by simp [C, hr, hv]
  obtain ⟨h1, h2⟩ := h hgood.1 (hgood.2 _ _ _ hch) C hC
  have hz : (∑ j ∈ Finset.range n, (H (tr ++ cv.toBytes pf.A ++ cv.toBytes pf.S) ^ (j + 2)) •
          ((C[j]?).getD 0 - (r[j]?).getD 0 • pp.g - ((((v.map Int.toNat)[j]?).getD 0 % 2 ^ pp.rangeLen : ℕ) : ℤ) • pp.h)) = gap := by
    simp only [gap, Finset.sum_smul]
    apply Finset.sum_congr rfl
    intro j hj
    have hj' := Finset.mem_range.1 hj
    have e1 : (C[j]?).getD 0 = (r[j]?).getD 0 • pp.g + ((v[j]?).getD 0) • pp.h := by
      simp only [C, List.getElem?_zipWith]
      rw [List.getElem?_eq_getElem (by omega), List.getElem?_eq_getElem (by omega)]
      rfl
    have e2 : ((v.map Int.toNat)[j]?).getD 0 = ((v[j]?).getD 0).toNat := by
      rw [List.getElem?_map]
      cases v[j]? <;> simp
    rw [e1, e2, mul_smul]
    congr 1
    unfold excess
    rw [sub_smul]
    abel
  rw [hz] at h1 h2
  exact ⟨h1, h2⟩

end Kunlun.Bullet
