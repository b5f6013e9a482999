import Verif.Model.AdcpFiles
import Verif.Props.Serialization
import Verif.Model.Group
/-! Property C47: `Fetch…` after `Save…` in `adcp/adcp.hpp`. -/

namespace Kunlun.ADCP

open Kunlun.Ser

variable {G : Type}

/-- Values that the integer format can carry: `BN_BYTE_LEN` bytes, no sign. -/
def Fit (bnLen : Nat) (v : ℤ) : Prop := 0 ≤ v ∧ v < 256 ^ bnLen

instance (bnLen : Nat) (v : ℤ) : Decidable (Fit bnLen v) := inferInstanceAs (Decidable (_ ∧ _))

/-- The account consists of values the format can carry. -/
structure AccountFits (C : PointCodec G) (bnLen : Nat) (a : Account G) : Prop where
  identity : a.identity.length < 2 ^ 64
  pk : a.pk ≠ C.inf
  sk : Fit bnLen a.sk
  X : a.balance.X ≠ C.inf
  Y : a.balance.Y ≠ C.inf
  m : Fit bnLen a.m
  sn : Fit bnLen a.sn

/-- C47, accounts: `FetchAccount` after `SaveAccount` restores every member, whatever the receiving account held and whatever the
uninitialised buffers contained. -/
theorem adcp_account_file (C : PointCodec G) (bnLen : Nat) (g g' : Nat → Bytes) (hg : ∀ n, (g n).length = n)
    (hg' : ∀ n, (g' n).length = n) (a old : Account G) (h : AccountFits C bnLen a) :
    fetchAccount C bnLen g' old (saveAccount C bnLen g a) = a := by
  have := serialization_round_trip C bnLen g g' hg hg' (accountVals a) (accountVals old)
    (by unfold accountVals; repeat' (first | exact .nil | apply List.Forall₂.cons | trivial))
    (by
      obtain ⟨h1, h2, h3, h4, h5, h6, h7⟩ := h
      unfold accountVals
      simp only [List.forall_mem_cons, Representable]
      exact ⟨h1, h2, h3, h4, h5, h6, h7, by simp⟩) []
  rw [List.append_nil] at this
  unfold fetchAccount saveAccount
  rw [this]
  rfl

/-- C47, supervisor key. -/
theorem adcp_sp_file (C : PointCodec G) (bnLen : Nat) (g g' : Nat → Bytes) (hg : ∀ n, (g n).length = n)
    (hg' : ∀ n, (g' n).length = n) (ska old : ℤ) (h : Fit bnLen ska) :
    fetchSP C bnLen g' old (saveSP C bnLen g ska) = ska := by
  have := serialization_round_trip C bnLen g g' hg hg' [.big ska] [.big old] (.cons trivial .nil)
    (by simp only [List.forall_mem_cons, Representable]; exact ⟨h, by simp⟩) []
  rw [List.append_nil] at this
  unfold fetchSP saveSP
  rw [this]

/-- Public parameters as `Setup` makes them: 64-bit sizes, vectors of length `RANGE_LEN * MAX_AGG_NUM`, no point at infinity. -/
structure PPFits (C : PointCodec G) (bnLen : Nat) (p : FilePP G) : Prop where
  maxReceivers : p.maxReceivers < 2 ^ 64
  snLen : p.snLen < 2 ^ 64
  maxCoins : Fit bnLen p.maxCoins
  pka : p.pka ≠ C.inf
  rangeLen : p.rangeLen < 2 ^ 64
  logRangeLen : p.logRangeLen < 2 ^ 64
  maxAgg : p.maxAgg < 2 ^ 64
  g : p.g ≠ C.inf
  h : p.h ≠ C.inf
  u : p.u ≠ C.inf
  vecG : p.vecG.length = p.rangeLen * p.maxAgg % 2 ^ 64 ∧ ∀ q ∈ p.vecG, q ≠ C.inf
  vecH : p.vecH.length = p.rangeLen * p.maxAgg % 2 ^ 64 ∧ ∀ q ∈ p.vecH, q ≠ C.inf
  msgLen : p.msgLen < 2 ^ 64
  tradeoff : p.tradeoff < 2 ^ 64
  msgSize : Fit bnLen p.msgSize
  encG : p.encG ≠ C.inf
  encH : p.encH ≠ C.inf

theorem putAll_append (C : PointCodec G) (bnLen : Nat) (g : Nat → Bytes) (a b : List (Val G)) :
    putAll C bnLen g (a ++ b) = putAll C bnLen g a ++ putAll C bnLen g b := by
  simp [putAll]

theorem resize_length (fresh : G) (n : Nat) (v : List G) : (resize fresh n v).length = n := by
  simp only [resize, List.length_append, List.length_take, List.length_replicate]; omega

/-- C47, public parameters: `FetchPP` after `SavePP` restores every member into any receiving object. -/
theorem adcp_pp_file (C : PointCodec G) (bnLen : Nat) (g g' : Nat → Bytes) (hg : ∀ n, (g n).length = n)
    (hg' : ∀ n, (g' n).length = n) (fresh : G) (p old : FilePP G) (h : PPFits C bnLen p) :
    fetchPP C bnLen g' fresh old (savePP C bnLen g p) = p := by
  have h1 := serialization_round_trip C bnLen g g' hg hg' (ppHead p) (ppHead old)
    (by unfold ppHead; repeat' (first | exact .nil | apply List.Forall₂.cons | trivial))
    (by
      unfold ppHead
      simp only [List.forall_mem_cons, Representable]
      exact ⟨h.1, h.2, h.3, h.4, h.5, h.6, h.7, h.8, h.9, h.10, by simp⟩) (putAll C bnLen g (ppTail p))
  unfold fetchPP savePP
  rw [putAll_append, h1]
  simp only
  have h2 := serialization_round_trip C bnLen g g' hg hg' (ppTail p) (ppTail (resizePP fresh (ofPPHead old (ppHead p))))
    (by
      unfold ppTail
      refine .cons ?_ (.cons ?_ (.cons trivial (.cons trivial (.cons trivial (.cons trivial (.cons trivial .nil))))))
      · simp only [Fits, resizePP, ofPPHead, ppHead, resize_length]; exact h.11.1.symm
      · simp only [Fits, resizePP, ofPPHead, ppHead, resize_length]; exact h.12.1.symm)
    (by
      unfold ppTail
      simp only [List.forall_mem_cons, Representable]
      exact ⟨h.11.2, h.12.2, h.13, h.14, h.15, h.16, h.17, by simp⟩) []
  rw [List.append_nil] at h2
  rw [h2]
  rfl

/-- The transaction consists of values the format can carry. -/
structure CTxFits (C : PointCodec G) (bnLen : Nat) (t : ToOne G) : Prop where
  fits : ∀ v ∈ ctxVals t, Representable C bnLen v

/-- The vectors of the two transactions have the same lengths. -/
structure SameShape (t old : ToOne G) : Prop where
  vecX : old.transfer.vecX.length = t.transfer.vecX.length
  vecA : old.pteq.vecA.length = t.pteq.vecA.length
  vecL : old.bullet.ip.vecL.length = t.bullet.ip.vecL.length
  vecR : old.bullet.ip.vecR.length = t.bullet.ip.vecR.length

/-- C47, transactions. The property asks for `FetchCTx (SaveCTx t) = t` into any receiving object. What holds: if the receiving object
already has vectors of the right lengths, everything is restored except `sender_balance_ct`, which keeps its old value. -/
theorem adcp_ctx_file_partial (C : PointCodec G) (bnLen : Nat) (g g' : Nat → Bytes) (hg : ∀ n, (g n).length = n)
    (hg' : ∀ n, (g' n).length = n) (t old : ToOne G) (h : CTxFits C bnLen t) (hs : SameShape t old) :
    fetchCTx C bnLen g' old (saveCTx C bnLen g t) = { t with senderBalance := old.senderBalance } := by
  have h1 := serialization_round_trip C bnLen g g' hg hg' (ctxVals t) (ctxVals old)
    (by
      simp only [ctxVals, mrctVals, pteqVals, ctVals, dlogeqVals, ptkeVals, bulletVals, List.cons_append, List.nil_append]
      repeat' (first | exact .nil | apply List.Forall₂.cons | trivial | exact hs.vecX | exact hs.vecA | exact hs.vecL | exact hs.vecR))
    h.fits []
  rw [List.append_nil] at h1
  unfold fetchCTx saveCTx
  rw [h1]
  rfl

theorem getPoints_length (C : PointCodec G) (g : Nat → Bytes) (ps : List G) (s : IStream) :
    (getPoints C g ps s).1.length = ps.length := by
  induction ps generalizing s with
  | nil => rfl
  | cons p ps ih => simp only [getPoints, List.length_cons, ih]

/-- The number of points in the ciphertext after `FetchCTx` is the number the receiving object had, whatever the file says. -/
theorem adcp_ctx_file_lengths (C : PointCodec G) (bnLen : Nat) (g : Nat → Bytes) (old : ToOne G) (file : Bytes) :
    (fetchCTx C bnLen g old file).transfer.vecX.length = old.transfer.vecX.length := by
  simp only [fetchCTx, ctxVals, mrctVals, pteqVals, ctVals, dlogeqVals, ptkeVals, bulletVals, List.cons_append, List.nil_append, getAll,
    Ser.get, ofCtxVals, getPoints_length]

variable [AddCommGroup G] [DecidableEq G]

/-- C47 is violated for transactions: fetched into an object whose vectors are empty (such as a default-constructed one), no file at
all gives a transaction that `VerifyCTx` accepts or refuses; it reads outside the vectors. -/
theorem adcp_ctx_file_default_unverifiable (C : PointCodec G) (bnLen : Nat) (g : Nat → Bytes) (old : ToOne G)
    (h : old.transfer.vecX = []) (file : Bytes) (cv : Curve G) (H : Bytes → ℤ) (pp : PP G) (s : ℤ) :
    verifyCTx cv H pp s (fetchCTx C bnLen g old file) = none := by
  have hl := adcp_ctx_file_lengths C bnLen g old file
  rw [h, List.length_nil, List.length_eq_zero_iff] at hl
  unfold verifyCTx
  generalize fetchCTx C bnLen g old file = t at hl
  have : PlaintextEquality.verify cv pp.enc H ⟨[t.pks, t.pkr, pp.pka], t.transfer⟩ [] t.pteq = none := by
    unfold PlaintextEquality.verify PlaintextEquality.initTranscript
    simp [hl, PlaintextEquality.addPoints]
  simp [this]

/-- Part of C47: the file of a one-to-many transaction does not determine it. Two transactions with the same file, one accepted and one
refused: the proof of balance is not stored. -/
theorem adcp_many_file_loses_balance (C : PointCodec G) (bnLen : Nat) (g : Nat → Bytes) (cv : Curve G) (H : Bytes → ℤ) (pp : PP G)
    (hpp : pp.enc.g ≠ 0) (s : ℤ) (t : ToMany G) (h : verifyMany cv H pp s t = some true) :
    ∃ t' : ToMany G, saveMany C bnLen g t' = saveMany C bnLen g t ∧ verifyMany cv H pp s t' = some false := by
  refine ⟨{ t with balance := ⟨t.balance.A, t.balance.z + 1⟩ }, rfl, ?_⟩
  unfold verifyMany at h ⊢
  simp only [Option.bind_eq_bind, Option.bind_eq_some_iff] at h
  obtain ⟨⟨c1, tr1⟩, e1, ⟨c3, tr3⟩, e3, h⟩ := h
  simp only [Option.pure_def, Option.some.injEq, Bool.and_eq_true] at h
  have h4 := h.1.2
  simp only [e1, e3, Option.bind_eq_bind, Option.bind_some, Option.pure_def, Option.some.injEq, Bool.and_eq_false_iff]
  left; right
  simp only [DLOGKnowledge.verify, decide_eq_true_eq, decide_eq_false_iff_not] at h4 ⊢
  intro h5
  apply hpp
  change (t.balance.z + 1) • pp.enc.g = _ at h5
  change t.balance.z • pp.enc.g = _ at h4
  rw [add_smul, one_smul] at h5
  exact add_left_cancel ((h5.trans h4.symm).trans (add_zero _).symm)

/-! ### Examples -/

def exAccount : Account Bool := ⟨[65, 66], true, 77, ⟨true, true⟩, 1000, 1⟩

example : fetchAccount toyCodec 4 (fun n => List.replicate n 9) ⟨[1], false, 3, ⟨false, false⟩, -5, 0⟩
    (saveAccount toyCodec 4 (fun n => List.replicate n 8) exAccount) = exAccount :=
  adcp_account_file _ _ _ _ (by simp) (by simp) _ _ ⟨by decide, by decide, by decide, by decide, by decide, by decide, by decide⟩

example : fetchSP toyCodec 4 (fun n => List.replicate n 9) (-1) (saveSP toyCodec 4 (fun n => List.replicate n 8) 12345) = 12345 :=
  adcp_sp_file _ _ _ _ (by simp) (by simp) _ _ (by decide)

def exFilePP : FilePP Bool :=
  ⟨3, 4, 65536, true, 2, 1, 2, true, true, true, [true, true, true, true], [true, true, true, true], 16, 7, 65536, true, true⟩

/-- Into an object with vectors of other lengths. -/
example : fetchPP toyCodec 4 (fun n => List.replicate n 9) false
    ⟨0, 0, 0, false, 0, 0, 0, false, false, false, [], [false, false, false, false, false, false], 0, 0, 0, false, false⟩
    (savePP toyCodec 4 (fun n => List.replicate n 8) exFilePP) = exFilePP :=
  adcp_pp_file _ _ _ _ (by simp) (by simp) _ _ _ ⟨by decide, by decide, by decide, by decide, by decide, by decide, by decide, by decide,
    by decide, by decide, by decide, by decide, by decide, by decide, by decide, by decide, by decide⟩

def exToOne (c : Bool) (z : ℤ) : ToOne Bool :=
  ⟨z, ⟨c, c⟩, c, c, ⟨[c, c, c], c⟩, ⟨[c, c, c], c, z, z⟩, ⟨c, c, c, c, z, z, z, ⟨[c], [c], z, z⟩⟩, ⟨c, c⟩, ⟨c, c, z, z⟩, ⟨c, c, z⟩⟩

example : fetchCTx toyCodec 4 (fun n => List.replicate n 9) (exToOne false 0) (saveCTx toyCodec 4 (fun n => List.replicate n 8) (exToOne true 70000))
    = { exToOne true 70000 with senderBalance := ⟨false, false⟩ } :=
  adcp_ctx_file_partial _ _ _ _ (by simp) (by simp) _ _
    ⟨by
      simp only [exToOne, ctxVals, mrctVals, pteqVals, ctVals, dlogeqVals, ptkeVals, bulletVals, List.cons_append, List.nil_append,
        List.forall_mem_cons, Representable, toyCodec]
      simp⟩ ⟨rfl, rfl, rfl, rfl⟩

end Kunlun.ADCP
