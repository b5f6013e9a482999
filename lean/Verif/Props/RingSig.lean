import Verif.Model.RingSig
import Verif.Props.EncRelationSound
import Verif.Props.Pke
/-!
C34, C35: accountable ring signature.
-/

namespace Kunlun.RingSig

open Kunlun

variable {G : Type} [AddCommGroup G] [DecidableEq G]

theorem position_spec (ring : List G) (vk : G) (h : vk ∈ ring) : ring[position ring vk]? = some vk := by
  have hlt : position ring vk < ring.length := by
    unfold position
    rw [List.findIdx_lt_length]
    exact ⟨vk, h, by simp⟩
  rw [List.getElem?_eq_getElem hlt]
  have := List.findIdx_getElem (xs := ring) (p := fun R => decide (R = vk)) (w := hlt)
  simp only [decide_eq_true_eq] at this
  exact congrArg some this

omit [DecidableEq G] in
theorem statement_length (pp : PP G) (ring : List G) (ct : CT G) : (statement pp ring ct).cts.length = ring.length := by
  simp [statement]

/-- C34: for every ring of `2^m` keys, member secret key, message, randomness and hash function, `Sign` succeeds and `Verify`
accepts; `Open` returns the signer's public key; `Justify` accepts the opening proof. -/
theorem ringSig_correct (cv : Curve G) (flog : Nat → Nat → Nat) (H : Bytes → ℤ) (pp : PP G) (dk sk : ℤ) (ring : List G) (m : Nat)
    (msg : Bytes) (rnd : Rand) (a : ℤ) (hm : 0 < m) (hring : ring.length = 2 ^ m) (hflog : flog ring.length 2 = m)
    (hcom : m * 2 ≤ pp.com.vecH.length) (hek : pp.ek = Twisted.keyGen pp.enc dk) (hdk : ¬ (cv.order : ℤ) ∣ dk)
    (hcols : rnd.rel.cols.length = m) (hcol : ∀ c ∈ rnd.rel.cols, c.length = 2) (hmem : keyGen pp sk ∈ ring) :
    ∃ sig, sign cv flog H pp sk ring msg rnd = some sig ∧ verify cv flog H pp ring msg sig = some true ∧
      («open» cv H pp dk sig a).1 = keyGen pp sk ∧
      justify cv H pp sig (keyGen pp sk) («open» cv H pp dk sig a).2 = true := by
  have hpos := position_spec ring _ hmem
  have hstat : (statement pp ring (Twisted.encPoint pp.enc pp.ek (sk • pp.enc.g) rnd.r)).cts[position ring (sk • pp.enc.g)]? =
      some (Twisted.encPoint pp.enc (statement pp ring (Twisted.encPoint pp.enc pp.ek (sk • pp.enc.g) rnd.r)).ek 0 rnd.r) := by
    unfold keyGen at hpos
    simp only [statement, List.getElem?_map, hpos, Option.map_some, Option.some.injEq]
    simp only [CT.sub, Twisted.encPoint, CT.mk.injEq]
    constructor <;> module
  obtain ⟨pf, tr', hp, hv⟩ := EncRelation.encRelation_complete cv flog ⟨pp.com, pp.enc, 2⟩ H
    (statement pp ring (Twisted.encPoint pp.enc pp.ek (sk • pp.enc.g) rnd.r)) m _ rnd.r rnd.rel msg (by simp) hm
    (by rw [statement_length]; exact hring) (by rw [statement_length]; exact hflog) hcom hcols hcol hstat
  refine ⟨_, by simp only [sign, hp, Option.bind_eq_bind, Option.bind_some, Option.pure_def]; rfl, ?_, ?_, ?_⟩
  · simp only [verify, hv, Option.bind_eq_bind, Option.bind_some, Option.pure_def, Option.some.injEq, Bool.true_and,
      decide_eq_true_eq]
    simp only [CT.add, CT.scale, Twisted.encPoint, CT.mk.injEq, cv.mod_smul]
    constructor <;> module
  · simp only [«open», hek]
    exact Twisted.twisted_decPoint_encPoint cv pp.enc dk rnd.r _ hdk
  · have hd := Twisted.twisted_decPoint_encPoint cv pp.enc dk rnd.r (sk • pp.enc.g) hdk
    simp only [justify, «open», hek, hd, keyGen]
    rw [DLOGEquality.dlogEquality_complete cv H _ dk a []]
    · simp [openInstance, hek, Twisted.keyGen]
    · simp only [openInstance, Twisted.encPoint, Twisted.keyGen]
      module

/-- C34 from `Setup` on: with parameters for `N_max` generators, rings of `2^m` keys work whenever `2m ≤ N_max`. -/
theorem ringSig_setup_correct (cv : Curve G) (flog : Nat → Nat → Nat) (H : Bytes → ℤ) (points : List G) (enc : Twisted.PP G) (nMax : Nat) (dk sk : ℤ)
    (ring : List G) (m : Nat) (msg : Bytes) (rnd : Rand) (a : ℤ) (hp : points.length = nMax) (hm : 0 < m) (hN : 2 * m ≤ nMax)
    (hring : ring.length = 2 ^ m) (hflog : flog ring.length 2 = m) (hdk : ¬ (cv.order : ℤ) ∣ dk)
    (hcols : rnd.rel.cols.length = m) (hcol : ∀ c ∈ rnd.rel.cols, c.length = 2) (hmem : sk • enc.g ∈ ring) :
    let pp := (setup cv points enc nMax dk).1
    ∃ sig, sign cv flog H pp sk ring msg rnd = some sig ∧ verify cv flog H pp ring msg sig = some true ∧
      («open» cv H pp (setup cv points enc nMax dk).2 sig a).1 = sk • enc.g ∧
      justify cv H pp sig (sk • enc.g) («open» cv H pp (setup cv points enc nMax dk).2 sig a).2 = true :=
  ringSig_correct cv flog H (setup cv points enc nMax dk).1 dk sk ring m msg rnd a hm hring hflog
    (by simp only [setup, Pedersen.setup, List.length_take]; omega) rfl hdk hcols hcol hmem

/-- C34: whatever the signature (honest or not), the key `Open` returns is justified. -/
theorem ringSig_open_always_justified (cv : Curve G) (H : Bytes → ℤ) (pp : PP G) (dk a : ℤ) (sig : Signature G)
    (hek : pp.ek = Twisted.keyGen pp.enc dk) (hdk : ¬ (cv.order : ℤ) ∣ dk) :
    justify cv H pp sig («open» cv H pp dk sig a).1 («open» cv H pp dk sig a).2 = true := by
  simp only [justify, «open»]
  rw [DLOGEquality.dlogEquality_complete cv H _ dk a []]
  · simp [openInstance, hek, Twisted.keyGen]
  · simp only [openInstance, Twisted.decPoint]
    rw [sub_sub_cancel]
    have := Twisted.inv_smul_smul cv dk hdk sig.ctVk.X
    rw [smul_comm] at this
    exact this.symm

/-- C34: an opening is unambiguous: two accepted justifications of a key, with different challenges for one first message, prove
that the key is the one `Open` returns. So the authority cannot blame somebody else, except by predicting the hash. -/
theorem ringSig_justify_sound (cv : Curve G) (H H' : Bytes → ℤ) (pp : PP G) (dk a : ℤ) (sig : Signature G) (vk A1 A2 : G) (z z' : ℤ)
    (hg : pp.enc.g ≠ 0) (hek : pp.ek = Twisted.keyGen pp.enc dk) (hdk : ¬ (cv.order : ℤ) ∣ dk)
    (h1 : justify cv H pp sig vk ⟨A1, A2, z⟩ = true) (h2 : justify cv H' pp sig vk ⟨A1, A2, z'⟩ = true)
    (hne : ¬ (cv.order : ℤ) ∣ DLOGEquality.challenge cv H (openInstance pp sig vk) [] A1 A2 -
      DLOGEquality.challenge cv H' (openInstance pp sig vk) [] A1 A2) :
    vk = («open» cv H pp dk sig a).1 := by
  obtain ⟨e1, e2⟩ := DLOGEquality.dlogEquality_special_sound cv H H' (openInstance pp sig vk) [] [] A1 A2 z z' h1 h2 hne
  generalize extract cv z z' _ _ = w at e1 e2
  simp only [openInstance, hek, Twisted.keyGen] at e1 e2
  rw [cv.smul_eq_iff _ _ _ hg] at e1
  have hw : w • (sig.ctVk.Y - vk) = dk • (sig.ctVk.Y - vk) := by
    have : (dk - w) • (sig.ctVk.Y - vk) = 0 := by
      obtain ⟨k, hk⟩ := e1
      rw [hk, mul_comm, mul_smul]
      have := cv.smul_order (sig.ctVk.Y - vk)
      rw [← natCast_zsmul] at this
      rw [this, smul_zero]
    rw [sub_smul, sub_eq_zero] at this
    exact this.symm
  simp only [«open», Twisted.decPoint, e2, hw]
  rw [Twisted.inv_smul_smul cv dk hdk]
  abel

/-- The forger of C35: no secret key at all, and any key `victim` to be blamed. -/
def forge (cv : Curve G) (flog : Nat → Nat → Nat) (H : Bytes → ℤ) (pp : PP G) (ring : List G) (msg : Bytes) (victim : G) :
    Signature G :=
  let ctVk := Twisted.encPoint pp.enc pp.ek victim 1
  let pf := EncRelation.forge cv flog ⟨pp.com, pp.enc, 2⟩ H (statement pp ring ctVk) msg
  let x := H (EncRelation.addFirst cv msg pf.B pf.A pf.C pf.D)
  ⟨pf, 0, 0, ctVk, (⟨0, 0⟩ : CT G).sub (ctVk.scale x)⟩

theorem encVerify_transcript (cv : Curve G) (flog : Nat → Nat → Nat) (pp : EncRelation.PP G) (H : Bytes → ℤ)
    (x : EncRelation.Instance G) (tr : Bytes) (pf : EncRelation.Proof G) (b : Bool) (tr' : Bytes)
    (h : EncRelation.verify cv flog pp H x tr pf = some (b, tr')) : tr' = EncRelation.addFirst cv tr pf.B pf.A pf.C pf.D := by
  unfold EncRelation.verify at h
  simp only at h
  split at h
  · simp at h
  · simp only [Option.bind_eq_bind, Option.bind_eq_some_iff, Option.pure_def, Option.some.injEq, Prod.mk.injEq] at h
    obtain ⟨_, _, _, _, _, h⟩ := h
    exact h.symm

/-- C35 is violated: for every ring, message and hash function, anybody without any secret key makes a signature that `Verify`
accepts, and that `Open` and `Justify` attribute to an arbitrary chosen key (member or not). -/
theorem ringSig_forgery (cv : Curve G) (flog : Nat → Nat → Nat) (H : Bytes → ℤ) (pp : PP G) (dk a : ℤ) (ring : List G) (m : Nat)
    (msg : Bytes) (victim : G) (hm : 0 < m) (hring : ring.length = 2 ^ m) (hflog : flog ring.length 2 = m)
    (hcom : m * 2 ≤ pp.com.vecH.length) (hek : pp.ek = Twisted.keyGen pp.enc dk) (hdk : ¬ (cv.order : ℤ) ∣ dk) :
    verify cv flog H pp ring msg (forge cv flog H pp ring msg victim) = some true ∧
      («open» cv H pp dk (forge cv flog H pp ring msg victim) a).1 = victim ∧
      justify cv H pp (forge cv flog H pp ring msg victim) victim
        («open» cv H pp dk (forge cv flog H pp ring msg victim) a).2 = true := by
  have hopen : («open» cv H pp dk (forge cv flog H pp ring msg victim) a).1 = victim := by
    simp only [«open», forge, hek]
    exact Twisted.twisted_decPoint_encPoint cv pp.enc dk 1 _ hdk
  refine ⟨?_, hopen, ?_⟩
  · obtain ⟨tr', hv⟩ := EncRelation.encRelation_forgery cv flog ⟨pp.com, pp.enc, 2⟩ H
      (statement pp ring (Twisted.encPoint pp.enc pp.ek victim 1)) m msg (by simp) hm
      (by rw [statement_length]; exact hring) (by rw [statement_length]; exact hflog) hcom
    have htr := encVerify_transcript _ _ _ _ _ _ _ _ _ hv
    unfold verify
    have h1 : (forge cv flog H pp ring msg victim).ctVk = Twisted.encPoint pp.enc pp.ek victim 1 := rfl
    have h2 : (forge cv flog H pp ring msg victim).proof = EncRelation.forge cv flog ⟨pp.com, pp.enc, 2⟩ H
      (statement pp ring (Twisted.encPoint pp.enc pp.ek victim 1)) msg := rfl
    rw [h1, h2, hv]
    simp only [Option.bind_eq_bind, Option.bind_some, Option.pure_def, Option.some.injEq, Bool.true_and, decide_eq_true_eq]
    rw [htr]
    simp only [forge, CT.add, CT.sub, CT.scale, Twisted.encPoint, CT.mk.injEq]
    constructor <;> simp
  · have := ringSig_open_always_justified cv H pp dk a (forge cv flog H pp ring msg victim) hek hdk
    rwa [hopen] at this

/-- C35, the part that holds: if a forger had to fix `vec_G`, `ct_vk` and `ct_s` before learning the challenge, then `m + 2`
accepting answers would reveal the secret key of some ring member — namely the explicitly extracted `(z_s - z_s') / (x - x')` — or a
relation between the commitment generators. Missing: the code does not hash these values, and the full statement is false
(`ringSig_forgery`). -/
theorem ringSig_special_sound_partial (cv : Curve G) (flog : Nat → Nat → Nat) (pp : PP G) (dk : ℤ) (ring : List G) (m : Nat)
    (hm : 0 < m) (hring : ring.length = 2 ^ m) (hflog : flog ring.length 2 = m)
    (hcom : m * 2 ≤ pp.com.vecH.length) (hek : pp.ek = Twisted.keyGen pp.enc dk) (hdk : ¬ (cv.order : ℤ) ∣ dk)
    (H : Nat → Bytes → ℤ) (msg : Bytes) (B A C D : G) (vecG : List (CT G)) (hG : m ≤ vecG.length) (ctVk ctS : CT G)
    (z zA zC zs zt : Nat → ℤ) (f : Nat → List ℤ) (hf : ∀ t ≤ m + 1, (f t).length = m * 2)
    (hacc : ∀ t ≤ m + 1, verify cv flog (H t) pp ring msg ⟨⟨B, z t, vecG, A, C, D, f t, zA t, zC t⟩, zs t, zt t, ctVk, ctS⟩ = some true)
    (hdist : ∀ s ≤ m + 1, ∀ t ≤ m + 1, H s (EncRelation.addFirst cv msg B A C D) % cv.order =
      H t (EncRelation.addFirst cv msg B A C D) % cv.order → s = t) :
    let e := fun t => H t (EncRelation.addFirst cv msg B A C D)
    keyGen pp (extract cv (zs 0) (zs 1) (e 0) (e 1)) ∈ ring ∨
    (∃ t ≤ m + 1, EncRelation.IsRelation cv pp.com (EncRelation.relF (m * 2) e zA f t)) ∨
      EncRelation.IsRelation cv pp.com (EncRelation.relT (m * 2) e zC f) := by
  intro e
  have hsplit : ∀ t ≤ m + 1, (∃ o, EncRelation.verify cv flog ⟨pp.com, pp.enc, 2⟩ (H t) (statement pp ring ctVk) msg
        ⟨B, z t, vecG, A, C, D, f t, zA t, zC t⟩ = some (true, o)) ∧
      (ctVk.scale (e t)).add ctS = Twisted.encPoint pp.enc pp.ek (zs t • pp.enc.g) (zt t) := by
    intro t ht
    have h := hacc t ht
    unfold verify at h
    simp only [Option.bind_eq_bind, Option.bind_eq_some_iff, Option.pure_def, Option.some.injEq] at h
    obtain ⟨⟨c, tr⟩, h1, h2⟩ := h
    simp only [Bool.and_eq_true, decide_eq_true_eq] at h2
    have htr := encVerify_transcript _ _ _ _ _ _ _ _ _ h1
    rw [htr] at h2
    rw [h2.1] at h1
    exact ⟨⟨_, h1⟩, h2.2⟩
  have hne : ¬ (cv.order : ℤ) ∣ e 0 - e 1 := by
    intro hd
    have := hdist 0 (by omega) 1 (by omega) (Int.emod_eq_emod_iff_emod_sub_eq_zero.2 (Int.emod_eq_zero_of_dvd hd))
    omega
  rcases EncRelation.encRelation_special_sound_partial cv flog ⟨pp.com, pp.enc, 2⟩ (statement pp ring ctVk) m (by simp)
    cv.prime.two_le hm (by rw [statement_length]; exact hring) (by rw [statement_length]; exact hflog) hcom H msg B A C D vecG hG
    z zA zC f hf (fun t ht => (hsplit t ht).1) hdist with h | h
  · left
    obtain ⟨l, lam, _, hl⟩ := h
    simp only [statement, List.getElem?_map, Option.map_eq_some_iff] at hl
    obtain ⟨R, hR, hct⟩ := hl
    generalize hr : (∑ t ∈ Finset.range (m + 1), lam t * z t) = r at hct
    have c0 := (hsplit 0 (by omega)).2
    have c1 := (hsplit 1 (by omega)).2
    simp only [CT.add, CT.scale, CT.sub, Twisted.encPoint, CT.mk.injEq] at c0 c1 hct
    have hX := extract_spec cv (zt 0) (zt 1) (e 0) (e 1) pp.ek ctS.X ctVk.X (by rw [← c0.1]; abel) (by rw [← c1.1]; abel) hne
    have hY := extract_spec2 cv (zt 0) (zt 1) (zs 0) (zs 1) (e 0) (e 1) pp.enc.g pp.enc.g ctS.Y ctVk.Y
      (by rw [← c0.2]; abel) (by rw [← c1.2]; abel) hne
    generalize extract cv (zt 0) (zt 1) (e 0) (e 1) = t' at hX hY
    generalize hs' : extract cv (zs 0) (zs 1) (e 0) (e 1) = s' at hY
    show s' • pp.enc.g ∈ ring
    have hR' : R = s' • pp.enc.g := by
      have h1 : t' • pp.ek = r • pp.ek := by rw [← hX]; simpa using hct.1
      have h2 : ctVk.Y = r • pp.enc.g + R := by
        have := hct.2
        rw [zero_smul, zero_add, add_zero, sub_eq_iff_eq_add] at this
        exact this
      have h3 : t' • pp.enc.g = r • pp.enc.g := by
        have := congrArg (BigInt.modInverse dk cv.order • ·) h1
        simp only [hek, Twisted.keyGen, Twisted.inv_smul_rsmul cv dk _ hdk] at this
        exact this
      rw [h2, h3] at hY
      exact add_left_cancel hY
    rw [← hR']
    exact List.mem_of_getElem? hR
  · exact Or.inr h

/-- A concrete ring of two keys over `Z_7`: the honest signature of member 1 is accepted for three different challenges (so the
hypotheses of both theorems are met), and the forged one too. -/
example : ∀ t : Fin 3, ((sign toyCurve (fun _ _ => 1) (fun _ => t.val) (⟨⟨1, [2, 3], 2⟩, ⟨1, 3⟩, 5⟩ : PP (ZMod 7)) 4 [2, 4] [9]
      ⟨1, 2, 3, ⟨1, 2, 3, 4, [[5, 6]], [2]⟩⟩).bind
      (verify toyCurve (fun _ _ => 1) (fun _ => t.val) ⟨⟨1, [2, 3], 2⟩, ⟨1, 3⟩, 5⟩ [2, 4] [9])) = some true := by decide

example : verify toyCurve (fun _ _ => 1) (fun _ => 3) (⟨⟨1, [2, 3], 2⟩, ⟨1, 3⟩, 5⟩ : PP (ZMod 7)) [2, 4] [9]
      (forge toyCurve (fun _ _ => 1) (fun _ => 3) ⟨⟨1, [2, 3], 2⟩, ⟨1, 3⟩, 5⟩ [2, 4] [9] 6) = some true := by decide

end Kunlun.RingSig
