import Verif.Model.P256Compressed
import Verif.Props.Serialization
import Verif.Props.P256
/-!
C09, C100 in builds with compressed points.
-/

namespace Kunlun.P256

open Kunlun

/-- **C100** In a compressed build every string a stream or socket accepts as a point gives a point of the curve other than infinity, and exactly one
string is accepted for it, the one that is written (an uncompressed build accepts two, `p256_decoded`). -/
theorem p256_compressed_decoded (s : Bytes) (P : Pt) : codecC.dec s = some P ↔ P ≠ 0 ∧ s = codecC.enc P := by
  constructor
  · intro h
    rcases s with _ | ⟨t, bs⟩
    · simp [codecC, decC] at h
    simp only [codecC, decC] at h
    split at h
    · next hc =>
      obtain ⟨hl, ht⟩ := hc
      split at h
      · next hx =>
        simp only [Option.some.injEq] at h
        subst h
        refine ⟨mk_ne_zero _ _ _, ?_⟩
        have b1 := Hash.beBytes_ofBE bs
        rw [hl] at b1
        have v1 : ((ofBE bs : ℕ) : F).val = ofBE bs := ZMod.val_natCast_of_lt hx.1
        have hy : E.Nonsingular ((ofBE bs : ℕ) : F) (rootC (ofBE bs : ℕ) (t.toNat - 2)) := (nonsingular_iff _ _).2 hx.2
        have hy0 := y_ne_zero hy.1
        have par : (rootC ((ofBE bs : ℕ) : F) (t.toNat - 2)).val % 2 = t.toNat - 2 := by
          have ht2 : t.toNat - 2 = 0 ∨ t.toNat - 2 = 1 := by
            rcases ht with rfl | rfl
            · exact .inl rfl
            · exact .inr rfl
          unfold rootC at hy0 ⊢
          dsimp only at hy0 ⊢
          split
          · next e => exact e
          · next e =>
            rw [if_neg e, neg_ne_zero] at hy0
            have := parity_neg _ hy0
            omega
        simp only [codecC, encC, mk, v1, b1, par, List.cons.injEq, and_true]
        rcases ht with rfl | rfl <;> rfl
      · simp at h
    · simp at h
  · rintro ⟨hP, rfl⟩
    exact codecC.dec_enc P hP

/-- A point is written in half the bytes and read back. -/
example : codecC.dec (codecC.enc G) = some G ∧ (codecC.enc G).length = 33 := ⟨(p256_compressed_decoded _ _).2 ⟨G_ne, rfl⟩, codecC.enc_len G G_ne⟩

/-- **C09** in a compressed build: what is written to a stream is read back, points in 33 bytes. -/
theorem p256_compressed_round_trip (g g' : ℕ → Bytes) (hg : ∀ n, (g n).length = n) (hg' : ∀ n, (g' n).length = n)
    (vs ds : List (Ser.Val Pt)) (hf : List.Forall₂ Ser.Fits vs ds) (hr : ∀ v ∈ vs, Ser.Representable codecC bnLen v) (suf : Bytes) :
    Ser.getAll codecC bnLen g' ds ⟨Ser.putAll codecC bnLen g vs ++ suf, false⟩ = (vs, ⟨suf, false⟩) ∧
      ∀ P, P ≠ 0 → (Ser.put codecC bnLen g (.point P)).length = 33 := by
  refine ⟨Ser.serialization_round_trip codecC bnLen g g' hg hg' vs ds hf hr suf, ?_⟩
  intro P hP
  have := codecC.enc_len P hP
  simp only [Ser.put, Ser.putPoint, List.length_append, List.length_drop, this, hg]
  rfl

/-- **C09** A build reads nothing from the file of the other one: the point read into keeps its value. -/
theorem p256_builds_differ (g g' : ℕ → Bytes) (hg : ∀ n, (g n).length = n) (hg' : ∀ n, (g' n).length = n) (P old : Pt) (hP : P ≠ 0) (suf : Bytes) :
    (Ser.get codecC bnLen g' (.point old) ⟨Ser.put codec bnLen g (.point P) ++ suf, false⟩).1 = .point old ∧
      (32 ≤ suf.length → (Ser.get codec bnLen g' (.point old) ⟨Ser.put codecC bnLen g (.point P) ++ suf, false⟩).1 = .point old) := by
  have d4 : ∀ t, decC (4 :: t) = none := by
    intro t
    simp only [decC]
    rw [if_neg (by rintro ⟨-, h | h⟩ <;> exact absurd h (by decide))]
  have d23 : ∀ k t, dec (UInt8.ofNat (2 + k % 2) :: t) = none := by
    intro k t
    have h4 : ∀ j, ¬(UInt8.ofNat (2 + k % 2) = 4 ∨ (UInt8.ofNat (2 + k % 2)).toNat = 6 + j) := by
      intro j
      rcases Nat.mod_two_eq_zero_or_one k with h2 | h2 <;> rw [h2]
      · rintro (h | h)
        · exact absurd h (by decide)
        · have : (2 : ℕ) = 6 + j := h
          omega
      · rintro (h | h)
        · exact absurd h (by decide)
        · have : (3 : ℕ) = 6 + j := h
          omega
    simp only [dec, h4, if_false]
    split <;> rfl
  rcases P with _ | ⟨x, y, h⟩
  · exact absurd rfl hP
  refine ⟨?_, fun hs => ?_⟩
  · simp only [Ser.get, Ser.getPoint, Ser.put, Ser.putPoint, Ser.readInto, hg', Bool.false_eq_true, if_false]
    rw [if_neg (by simp [codec, codecC, enc, beBytes_length, bnLen])]
    have e : ∀ t, codecC.dec (List.take codecC.byteLen (codec.enc (.some x y h) ++ t)) = none :=
      fun t => d4 (List.take bnLen (beBytes bnLen x.val ++ beBytes bnLen y.val ++ t))
    simp only [List.append_assoc, e, Option.getD_none]
  · simp only [Ser.get, Ser.getPoint, Ser.put, Ser.putPoint, Ser.readInto, hg', Bool.false_eq_true, if_false]
    have hl : (codecC.enc (.some x y h)).length = 33 := codecC.enc_len (.some x y h) hP
    rw [if_neg (by
      simp only [List.length_append, hl, List.length_drop, hg]
      simp only [codec, codecC, bnLen]
      omega)]
    have e : ∀ t, codec.dec (List.take codec.byteLen (codecC.enc (.some x y h) ++ t)) = none := fun t => d23 _ _
    simp only [List.append_assoc, e, Option.getD_none]

end Kunlun.P256
