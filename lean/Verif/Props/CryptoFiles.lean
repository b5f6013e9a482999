import Verif.Model.CryptoFiles
import Verif.Props.AdcpFiles
import Verif.Props.Sigma
import Verif.Model.P256Codec
/-! Property C122: keys, ciphertexts, signatures and proofs in files. -/

namespace Kunlun.Files

open Kunlun.Ser Kunlun.ADCP

variable {G α : Type}

theorem Layout.round (L : Layout G α) (C : PointCodec G) (bnLen : Nat) (g g' : Nat → Bytes) (hg : ∀ n, (g n).length = n)
    (hg' : ∀ n, (g' n).length = n) (a old : α) (suf : Bytes) (hf : List.Forall₂ Fits (L.vals a) (L.vals old))
    (hr : ∀ v ∈ L.vals a, Representable C bnLen v) (hb : L.back old (L.vals a) = a) :
    L.fetch C bnLen g' old ⟨L.save C bnLen g a ++ suf, false⟩ = (a, ⟨suf, false⟩) := by
  unfold Layout.fetch Layout.save
  simp only [serialization_round_trip C bnLen g g' hg hg' _ _ hf hr, hb]

section

variable (C : PointCodec G) (bnLen : Nat) (g g' : Nat → Bytes) (hg : ∀ n, (g n).length = n) (hg' : ∀ n, (g' n).length = n) (suf : Bytes)

include hg hg'

/-- **C122** Public parameters and ciphertexts of the three encryption schemes: what `>>` gives is what `<<` wrote, whatever the receiving object held,
whatever follows in the file and whatever the uninitialised buffers contain. -/
theorem pp_files (p old : G) (e eold : ExpPP G) (t told : TwistedPP G) (hp : p ≠ C.inf) (he : e.msgLen < 2 ^ 64 ∧ e.tradeoff < 2 ^ 64 ∧
    Fit bnLen e.msgSize ∧ e.g ≠ C.inf) (ht : t.msgLen < 2 ^ 64 ∧ t.tradeoff < 2 ^ 64 ∧ Fit bnLen t.msgSize ∧ t.g ≠ C.inf ∧ t.h ≠ C.inf) :
    basePP.fetch C bnLen g' old ⟨basePP.save C bnLen g p ++ suf, false⟩ = (p, ⟨suf, false⟩) ∧
    expPP.fetch C bnLen g' eold ⟨expPP.save C bnLen g e ++ suf, false⟩ = (e, ⟨suf, false⟩) ∧
    twistedPP.fetch C bnLen g' told ⟨twistedPP.save C bnLen g t ++ suf, false⟩ = (t, ⟨suf, false⟩) := by
  refine ⟨Layout.round _ C bnLen g g' hg hg' _ _ _ ?_ ?_ rfl, Layout.round _ C bnLen g g' hg hg' _ _ _ ?_ ?_ rfl,
    Layout.round _ C bnLen g g' hg hg' _ _ _ ?_ ?_ rfl⟩
  · exact .cons trivial .nil
  · simpa [basePP, Representable] using hp
  · unfold expPP; repeat' (first | exact .nil | apply List.Forall₂.cons | trivial)
  · simpa [expPP, Representable, Fit] using he
  · unfold twistedPP; repeat' (first | exact .nil | apply List.Forall₂.cons | trivial)
  · simpa [twistedPP, Representable, Fit] using ht

/-- **C122** -/
theorem ct_file (c old : CT G) (hX : c.X ≠ C.inf) (hY : c.Y ≠ C.inf) :
    ct.fetch C bnLen g' old ⟨ct.save C bnLen g c ++ suf, false⟩ = (c, ⟨suf, false⟩) := by
  refine Layout.round _ C bnLen g g' hg hg' _ _ _ ?_ ?_ rfl
  · exact .cons trivial (.cons trivial .nil)
  · simpa [ct, Representable] using ⟨hX, hY⟩

/-- **C122** Ciphertexts for several recipients, into an object that has as many components. -/
theorem mrct_file_partial (c old : Twisted.MRCT G) (d dold : G × List G) (hl : old.vecX.length = c.vecX.length) (hl' : dold.2.length = d.2.length)
    (hX : ∀ X ∈ c.vecX, X ≠ C.inf) (hY : c.Y ≠ C.inf) (hd : d.1 ≠ C.inf) (hd' : ∀ Y ∈ d.2, Y ≠ C.inf) :
    mrct.fetch C bnLen g' old ⟨mrct.save C bnLen g c ++ suf, false⟩ = (c, ⟨suf, false⟩) ∧
    expMrct.fetch C bnLen g' dold ⟨expMrct.save C bnLen g d ++ suf, false⟩ = (d, ⟨suf, false⟩) := by
  refine ⟨Layout.round _ C bnLen g g' hg hg' _ _ _ ?_ ?_ rfl, Layout.round _ C bnLen g g' hg hg' _ _ _ ?_ ?_ rfl⟩
  · exact .cons hl (.cons trivial .nil)
  · simpa [mrct, Representable] using ⟨hX, hY⟩
  · exact .cons trivial (.cons hl' .nil)
  · simpa [expMrct, Representable] using ⟨hd, hd'⟩

/-- **C122** Signatures and the proofs without vectors. -/
theorem proof_files (s sold : Schnorr.SIG G) (k kold : DLOGKnowledge.Proof G) (e eold : DLOGEquality.Proof G) (p pold : PlaintextKnowledge.Proof G)
    (hs : s.A ≠ C.inf ∧ Fit bnLen s.z) (hk : k.A ≠ C.inf ∧ Fit bnLen k.z) (he : e.A1 ≠ C.inf ∧ e.A2 ≠ C.inf ∧ Fit bnLen e.z)
    (hp : p.A ≠ C.inf ∧ p.B ≠ C.inf ∧ Fit bnLen p.z1 ∧ Fit bnLen p.z2) :
    sig.fetch C bnLen g' sold ⟨sig.save C bnLen g s ++ suf, false⟩ = (s, ⟨suf, false⟩) ∧
    dlogKnowledge.fetch C bnLen g' kold ⟨dlogKnowledge.save C bnLen g k ++ suf, false⟩ = (k, ⟨suf, false⟩) ∧
    dlogEquality.fetch C bnLen g' eold ⟨dlogEquality.save C bnLen g e ++ suf, false⟩ = (e, ⟨suf, false⟩) ∧
    plaintextKnowledge.fetch C bnLen g' pold ⟨plaintextKnowledge.save C bnLen g p ++ suf, false⟩ = (p, ⟨suf, false⟩) := by
  refine ⟨Layout.round _ C bnLen g g' hg hg' _ _ _ ?_ ?_ rfl, Layout.round _ C bnLen g g' hg hg' _ _ _ ?_ ?_ rfl,
    Layout.round _ C bnLen g g' hg hg' _ _ _ ?_ ?_ rfl, Layout.round _ C bnLen g g' hg hg' _ _ _ ?_ ?_ rfl⟩
  · exact .cons trivial (.cons trivial .nil)
  · simpa [sig, Representable, Fit] using hs
  · exact .cons trivial (.cons trivial .nil)
  · simpa [dlogKnowledge, Representable, Fit] using hk
  · exact .cons trivial (.cons trivial (.cons trivial .nil))
  · simpa [dlogEquality, Representable, Fit] using he
  · exact .cons trivial (.cons trivial (.cons trivial (.cons trivial .nil)))
  · simpa [plaintextKnowledge, Representable, Fit] using hp

/-- **C122** Plaintext equality and range proofs, into an object whose vectors are as long. -/
theorem vector_proof_files_partial (p pold : PlaintextEquality.Proof G) (b bold : Bullet.Proof G) (hl : pold.vecA.length = p.vecA.length)
    (hL : bold.ip.vecL.length = b.ip.vecL.length) (hR : bold.ip.vecR.length = b.ip.vecR.length)
    (hp : (∀ A ∈ p.vecA, A ≠ C.inf) ∧ p.B ≠ C.inf ∧ Fit bnLen p.z ∧ Fit bnLen p.t)
    (hb : b.A ≠ C.inf ∧ b.S ≠ C.inf ∧ b.T1 ≠ C.inf ∧ b.T2 ≠ C.inf ∧ Fit bnLen b.taux ∧ Fit bnLen b.mu ∧ Fit bnLen b.tx ∧
      (∀ P ∈ b.ip.vecL, P ≠ C.inf) ∧ (∀ P ∈ b.ip.vecR, P ≠ C.inf) ∧ Fit bnLen b.ip.a ∧ Fit bnLen b.ip.b) :
    plaintextEquality.fetch C bnLen g' pold ⟨plaintextEquality.save C bnLen g p ++ suf, false⟩ = (p, ⟨suf, false⟩) ∧
    bullet.fetch C bnLen g' bold ⟨bullet.save C bnLen g b ++ suf, false⟩ = (b, ⟨suf, false⟩) := by
  refine ⟨Layout.round _ C bnLen g g' hg hg' _ _ _ ?_ ?_ rfl, Layout.round _ C bnLen g g' hg hg' _ _ _ ?_ ?_ rfl⟩
  · exact .cons hl (.cons trivial (.cons trivial (.cons trivial .nil)))
  · simpa [plaintextEquality, Representable, Fit] using hp
  · unfold bullet; repeat' (first | exact .nil | apply List.Forall₂.cons | trivial)
  · simpa [bullet, Representable, Fit] using hb

/-- **C122, violated for vectors.** A ciphertext for several recipients that is read into a new object: no component `X` is read, and `Y` gets the first
recipient's point; the rest of the file is left behind. -/
theorem mrct_file_default (X Y : G) (Xs : List G) (fresh : G) (hX : X ≠ C.inf) :
    mrct.fetch C bnLen g' ⟨[], fresh⟩ ⟨mrct.save C bnLen g ⟨X :: Xs, Y⟩ ++ suf, false⟩ =
      (⟨[], X⟩, ⟨mrct.save C bnLen g ⟨Xs, Y⟩ ++ suf, false⟩) := by
  have h := getPoint_put C g g' hg hg' X fresh hX (mrct.save C bnLen g ⟨Xs, Y⟩ ++ suf)
  simp only [Layout.fetch, Layout.save, mrct, getAll, Ser.get, getPoints, putAll, put, List.map_cons, List.map_nil, List.flatten_cons, List.flatten_nil,
    List.append_nil, List.append_assoc] at h ⊢
  rw [h]

/-- **C122, violated for points at infinity.** The difference of a ciphertext and itself, an encryption of zero, is not restored from its file: the
receiving object keeps the ciphertext it had. -/
theorem ct_difference_lost [AddCommGroup G] (h0 : C.inf = 0) (c old : CT G) :
    ct.fetch C bnLen g' old ⟨ct.save C bnLen g (c.sub c) ++ suf, false⟩ = (old, ⟨suf, false⟩) := by
  have h1 := infinity_not_restored C bnLen g g' hg hg' old.X (put C bnLen g (.point C.inf) ++ suf)
  have h2 := infinity_not_restored C bnLen g g' hg hg' old.Y suf
  rw [h0] at h1 h2
  simp only [Layout.fetch, Layout.save, ct, CT.sub, sub_self, getAll, putAll, List.map_cons, List.map_nil, List.flatten_cons, List.flatten_nil,
    List.append_nil, List.append_assoc]
  rw [h1]
  simp only
  rw [h2]

end

section honest

variable [AddCommGroup G] [DecidableEq G] (cv : Curve G) (C : PointCodec G) (h0 : C.inf = 0) (bnLen : Nat) (hb : (cv.order : ℤ) ≤ 256 ^ bnLen)
  (g g' : Nat → Bytes) (hg : ∀ n, (g n).length = n) (hg' : ∀ n, (g' n).length = n) (suf : Bytes)

omit [DecidableEq G] in
include hb in
theorem fit_mod (x : ℤ) : Fit bnLen (BigInt.mod x cv.order) := by
  rw [cv.mod_eq]
  exact ⟨Int.emod_nonneg _ cv.order_ne, (Int.emod_lt_of_pos _ (by exact_mod_cast cv.order_pos)).trans_le hb⟩

include h0 hb hg hg'

/-- **C122** A signature made with any nonce but zero is accepted after it went through a file. -/
theorem signature_file_accepted (H : Bytes → ℤ) (sk r : ℤ) (hr : ¬ (cv.order : ℤ) ∣ r) (msg : Bytes) (old : Schnorr.SIG G) :
    ∃ s, sig.fetch C bnLen g' old ⟨sig.save C bnLen g (Schnorr.sign cv H sk msg r) ++ suf, false⟩ = (s, ⟨suf, false⟩) ∧
      Schnorr.verify cv H (Schnorr.keyGen cv sk) msg s = true := by
  refine ⟨_, Layout.round _ C bnLen g g' hg hg' _ _ _ ?_ ?_ rfl, Schnorr.schnorr_complete cv H sk r msg⟩
  · exact .cons trivial (.cons trivial .nil)
  · have h1 : (Schnorr.sign cv H sk msg r).A ≠ C.inf := by
      rw [h0]; exact fun h => hr ((cv.smul_eq_zero_iff _ _ cv.gen_ne).1 h)
    have h2 : Fit bnLen (Schnorr.sign cv H sk msg r).z := fit_mod cv bnLen hb _
    simpa [sig, Representable, Fit] using And.intro h1 h2

/-- **C122** Proofs of the two discrete-logarithm relations and of plaintext knowledge made with nonces that give no point at infinity are
accepted after they went through a file. -/
theorem proof_file_accepted (H : Bytes → ℤ) (tr : Bytes) (w a b : ℤ) (ha : ¬ (cv.order : ℤ) ∣ a) (x : DLOGKnowledge.Instance G) (hx : x.h = w • x.g)
    (hxg : x.g ≠ 0) (kold : DLOGKnowledge.Proof G) (y : DLOGEquality.Instance G) (hy1 : y.h1 = w • y.g1) (hy2 : y.h2 = w • y.g2) (hyg1 : y.g1 ≠ 0)
    (hyg2 : y.g2 ≠ 0) (eold : DLOGEquality.Proof G) (pp : Twisted.PP G) (pk : G) (hpk : pk ≠ 0) (v r : ℤ) (hB : a • pp.g + b • pp.h ≠ 0)
    (pold : PlaintextKnowledge.Proof G) :
    (∃ p, dlogKnowledge.fetch C bnLen g' kold ⟨dlogKnowledge.save C bnLen g (DLOGKnowledge.prove cv H x w a tr).1 ++ suf, false⟩ = (p, ⟨suf, false⟩) ∧
      (DLOGKnowledge.verify cv H x tr p).1 = true) ∧
    (∃ p, dlogEquality.fetch C bnLen g' eold ⟨dlogEquality.save C bnLen g (DLOGEquality.prove cv H y w a tr).1 ++ suf, false⟩ = (p, ⟨suf, false⟩) ∧
      (DLOGEquality.verify cv H y tr p).1 = true) ∧
    ∃ p, plaintextKnowledge.fetch C bnLen g' pold ⟨plaintextKnowledge.save C bnLen g
        (PlaintextKnowledge.prove cv pp H ⟨pk, Twisted.enc pp pk v r⟩ v r a b tr).1 ++ suf, false⟩ = (p, ⟨suf, false⟩) ∧
      (PlaintextKnowledge.verify cv pp H ⟨pk, Twisted.enc pp pk v r⟩ tr p).1 = true := by
  have ne : ∀ P : G, P ≠ 0 → a • P ≠ C.inf := fun P hP => by
    rw [h0]; exact fun h => ha ((cv.smul_eq_zero_iff _ _ hP).1 h)
  refine ⟨⟨_, Layout.round _ C bnLen g g' hg hg' _ _ _ ?_ ?_ rfl, by rw [DLOGKnowledge.dlogKnowledge_complete cv H x w a tr hx]⟩,
    ⟨_, Layout.round _ C bnLen g g' hg hg' _ _ _ ?_ ?_ rfl, by rw [DLOGEquality.dlogEquality_complete cv H y w a tr hy1 hy2]⟩,
    ⟨_, Layout.round _ C bnLen g g' hg hg' _ _ _ ?_ ?_ rfl, by rw [PlaintextKnowledge.plaintextKnowledge_complete cv pp H pk v r a b tr]⟩⟩
  · exact .cons trivial (.cons trivial .nil)
  · simpa [dlogKnowledge, Representable, Fit, DLOGKnowledge.prove] using And.intro (ne _ hxg) (fit_mod cv bnLen hb _)
  · exact .cons trivial (.cons trivial (.cons trivial .nil))
  · simpa [dlogEquality, Representable, Fit, DLOGEquality.prove] using And.intro (ne _ hyg1) (And.intro (ne _ hyg2) (fit_mod cv bnLen hb _))
  · exact .cons trivial (.cons trivial (.cons trivial (.cons trivial .nil)))
  · have hB' : msm [pp.g, pp.h] [a, b] ≠ C.inf := by rw [msm_two, h0]; exact hB
    simpa [plaintextKnowledge, Representable, Fit, PlaintextKnowledge.prove] using
      And.intro (ne _ hpk) (And.intro hB' (And.intro (fit_mod cv bnLen hb _) (fit_mod cv bnLen hb _)))

/-- The hypotheses hold for the curve and the encoding the code uses. -/
example (H : Bytes → ℤ) (msg : Bytes) : ∃ s, sig.fetch P256.codec P256.bnLen (fun n => List.replicate n 7) ⟨0, 0⟩
    ⟨sig.save P256.codec P256.bnLen (fun n => List.replicate n 9) (Schnorr.sign P256.curve H 5 msg 3) ++ [1, 2], false⟩ = (s, ⟨[1, 2], false⟩) ∧
      Schnorr.verify P256.curve H (Schnorr.keyGen P256.curve 5) msg s = true :=
  signature_file_accepted P256.curve P256.codec rfl P256.bnLen (by decide +kernel) _ _ (by simp) (by simp) [1, 2] H 5 3 (by decide +kernel) msg ⟨0, 0⟩

end honest

end Kunlun.Files
