import Verif.Model.ParamFiles
import Verif.Props.Serialization
import Verif.Model.CwPrf
import Mathlib.Tactic.IntervalCases
/-! Property C90: `FetchPP` gives back the parameters that `SavePP` wrote, and where it does not. -/

namespace Kunlun.ParamFiles

open Kunlun.Ser

variable {G : Type}

/-! ### Decimal numbers -/

theorem isDigit_ofNat {d : Nat} (h : d < 10) : isDigit (UInt8.ofNat (48 + d)) = true := by
  interval_cases d <;> decide

theorem toNat_ofNat {d : Nat} (h : d < 10) : (UInt8.ofNat (48 + d)).toNat - 48 = d := by
  interval_cases d <;> decide

theorem decBytes_digits (n : Nat) : ∀ c ∈ decBytes n, isDigit c = true := by
  intro c hc
  unfold decBytes at hc
  split at hc
  · simp only [List.mem_singleton] at hc; subst hc; decide
  · rw [List.mem_map] at hc
    obtain ⟨d, hd, rfl⟩ := hc
    exact isDigit_ofNat (Nat.digits_lt_base (by norm_num) (List.mem_reverse.1 hd))

theorem decBytes_ne (n : Nat) : decBytes n ≠ [] := by
  unfold decBytes
  split
  · simp
  · next h => simpa [Nat.digits_eq_nil_iff_eq_zero] using h

theorem decVal_append (a b : Bytes) : decVal (a ++ b) = b.foldl (fun a c => 10 * a + (c.toNat - 48)) (decVal a) := by
  unfold decVal; rw [List.foldl_append]

theorem foldl_dec (l : List Nat) (h : ∀ d ∈ l, d < 10) (a : Nat) :
    (l.map fun d => UInt8.ofNat (48 + d)).foldl (fun a c => 10 * a + (c.toNat - 48)) a = l.foldl (fun a d => 10 * a + d) a := by
  induction l generalizing a with
  | nil => rfl
  | cons d l ih =>
    simp only [List.map_cons, List.foldl_cons]
    rw [toNat_ofNat (h d (by simp)), ih (fun e he => h e (by simp [he]))]

theorem foldl_reverse_digits (l : List Nat) (a : Nat) : l.reverse.foldl (fun a d => 10 * a + d) a = a * 10 ^ l.length + Nat.ofDigits 10 l := by
  induction l generalizing a with
  | nil => simp
  | cons d l ih =>
    rw [List.reverse_cons, List.foldl_append, ih, Nat.ofDigits_cons, List.length_cons]
    simp only [List.foldl_cons, List.foldl_nil]
    push_cast
    ring

/-- The number of characters of a number. -/
theorem decBytes_length (n : Nat) : (decBytes n).length = if n = 0 then 1 else (Nat.digits 10 n).length := by
  unfold decBytes
  split <;> simp

theorem foldl_decBytes (n a : Nat) : (decBytes n).foldl (fun a c => 10 * a + (c.toNat - 48)) a = a * 10 ^ (decBytes n).length + n := by
  rw [decBytes_length]
  unfold decBytes
  split
  · next h => subst h; simp; ring
  · rw [foldl_dec _ (fun d hd => Nat.digits_lt_base (by norm_num) (List.mem_reverse.1 hd)), foldl_reverse_digits, Nat.ofDigits_digits]

theorem decVal_decBytes (n : Nat) : decVal (decBytes n) = n := by
  unfold decVal; rw [foldl_decBytes]; simp

theorem decVal_two (k r : Nat) : decVal (decBytes k ++ decBytes r) = k * 10 ^ (decBytes r).length + r := by
  rw [decVal_append, decVal_decBytes, foldl_decBytes]

theorem digit_not_special {c : UInt8} (h : isDigit c = true) : isSpace c = false ∧ c ≠ 45 ∧ c ≠ 43 := by
  unfold isDigit at h
  simp only [Bool.and_eq_true, decide_eq_true_eq, UInt8.le_iff_toNat_le] at h
  obtain ⟨h1, h2⟩ := h
  have e1 : (48 : UInt8).toNat = 48 := rfl
  have e2 : (57 : UInt8).toNat = 57 := rfl
  rw [e1] at h1
  rw [e2] at h2
  refine ⟨?_, ?_, ?_⟩
  · unfold isSpace
    simp only [Bool.or_eq_false_iff, Bool.and_eq_false_iff, decide_eq_false_iff_not, UInt8.le_iff_toNat_le]
    refine ⟨?_, Or.inr ?_⟩
    · rintro rfl
      revert h1; decide
    · have e3 : (13 : UInt8).toNat = 13 := rfl
      rw [e3]; omega
  · rintro rfl
    revert h1; decide
  · rintro rfl
    revert h1; decide

theorem takeWhile_all {p : UInt8 → Bool} {ds suf : Bytes} (h : ∀ c ∈ ds, p c = true) (hs : ∀ c ∈ suf.head?, p c = false) :
    (ds ++ suf).takeWhile p = ds ∧ (ds ++ suf).dropWhile p = suf := by
  induction ds with
  | nil =>
    cases suf with
    | nil => simp
    | cons c t =>
      have := hs c (by simp)
      simp [this]
  | cons d ds ih =>
    have hd := h d (by simp)
    obtain ⟨e1, e2⟩ := ih (fun c hc => h c (by simp [hc]))
    simp [hd, e1, e2]

/-- Reading a string of digits that is followed by something else. -/
theorem getDec_digits (old : Nat) (ds suf : Bytes) (hd : ∀ c ∈ ds, isDigit c = true) (hne : ds ≠ []) (hlt : decVal ds < 2 ^ 64)
    (hs : ∀ c ∈ suf.head?, isDigit c = false) : getDec old ⟨ds ++ suf, false⟩ = (decVal ds, ⟨suf, false⟩) := by
  obtain ⟨e1, e2⟩ := takeWhile_all hd hs
  cases ds with
  | nil => exact absurd rfl hne
  | cons d ds =>
    obtain ⟨h1, h2, h3⟩ := digit_not_special (hd d (by simp))
    have e0 : ((d :: ds) ++ suf).dropWhile isSpace = d :: (ds ++ suf) := by simp [h1]
    unfold getDec
    simp only [Bool.false_eq_true, if_false, e0, h2, h3, or_self]
    rw [← List.cons_append, e1, e2, if_neg (by simp), if_neg (by omega)]

/-- `>>` gives back the number that `<<` wrote in decimal, if no digit follows in the file. -/
theorem getDec_put (n old : Nat) (hn : n < 2 ^ 64) (suf : Bytes) (hs : ∀ c ∈ suf.head?, isDigit c = false) :
    getDec old ⟨decBytes n ++ suf, false⟩ = (n, ⟨suf, false⟩) := by
  rw [getDec_digits old _ suf (decBytes_digits n) (decBytes_ne n) (by rw [decVal_decBytes]; exact hn) hs, decVal_decBytes]

/-! ### Sequences -/

/-- The reading object has the shape of the written one. -/
def FitsItem : Item G → Item G → Prop
  | .bin v, .bin d => Fits v d
  | .dec _, .dec _ => True
  | .chr _, .chr _ => True
  | _, _ => False

/-- The values can be carried by the format, and no decimal number is followed by a digit in the file. -/
def Clean (C : PointCodec G) (bnLen : Nat) (g : Nat → Bytes) (suf : Bytes) : List (Item G) → Prop
  | [] => True
  | .bin v :: vs => Representable C bnLen v ∧ Clean C bnLen g suf vs
  | .dec n :: vs => (n < 2 ^ 64 ∧ ∀ c ∈ (putItems C bnLen g vs ++ suf).head?, isDigit c = false) ∧ Clean C bnLen g suf vs
  | .chr c :: vs => isSpace c = false ∧ Clean C bnLen g suf vs

theorem items_round_trip (C : PointCodec G) (bnLen : Nat) (g g' : Nat → Bytes) (hg : ∀ n, (g n).length = n) (hg' : ∀ n, (g' n).length = n)
    (vs ds : List (Item G)) (hf : List.Forall₂ FitsItem vs ds) (suf : Bytes) (hc : Clean C bnLen g suf vs) :
    getItems C bnLen g' ds ⟨putItems C bnLen g vs ++ suf, false⟩ = (vs, ⟨suf, false⟩) := by
  induction hf with
  | nil => rfl
  | @cons v d vs ds h _ ih =>
    have e : putItems C bnLen g (v :: vs) ++ suf = putItem C bnLen g v ++ (putItems C bnLen g vs ++ suf) := by
      simp [putItems]
    rw [e]
    cases v <;> cases d <;> simp only [FitsItem] at h <;> simp only [Clean] at hc <;> simp only [getItems, getItem, putItem]
    · rw [get_put C bnLen g g' hg hg' _ _ h hc.1]
      simp only [ih hc.2]
    · rw [getDec_put _ _ hc.1.1 _ hc.1.2]
      simp only [ih hc.2]
    · have hsp := hc.1
      simp only [getChr, Bool.false_eq_true, if_false, List.cons_append, List.nil_append, List.dropWhile_cons, hsp]
      simp only [ih hc.2]

theorem load_save (C : PointCodec G) (bnLen : Nat) (g g' : Nat → Bytes) (hg : ∀ n, (g n).length = n) (hg' : ∀ n, (g' n).length = n)
    (vs ds : List (Item G)) (hf : List.Forall₂ FitsItem vs ds) (hc : Clean C bnLen g [] vs) : load C bnLen g' ds (save C bnLen g vs) = vs := by
  unfold load save
  have := items_round_trip C bnLen g g' hg hg' vs ds hf [] hc
  rw [List.append_nil] at this
  rw [this]

/-- The first of the eight bytes of a number. -/
theorem leBytes_head (n : Nat) : (leBytes 8 n).head? = some (UInt8.ofNat (n % 256)) := by
  simp only [leBytes, List.head?_cons, Option.some.injEq]
  apply UInt8.toNat_inj.1
  simp

theorem low_not_digit {n : Nat} (h : n % 256 < 48 ∨ 57 < n % 256) : isDigit (UInt8.ofNat (n % 256)) = false := by
  unfold isDigit
  have e : (UInt8.ofNat (n % 256)).toNat = n % 256 := by simp
  have e1 : (48 : UInt8).toNat = 48 := rfl
  have e2 : (57 : UInt8).toNat = 57 := rfl
  simp only [Bool.and_eq_false_iff, decide_eq_false_iff_not, UInt8.le_iff_toNat_le, e, e1, e2]
  omega

/-- The members are 64-bit numbers. -/
def RpmtPP.Word (p : RpmtPP) : Prop :=
  p.stat < 2 ^ 64 ∧ p.logServer < 2 ^ 64 ∧ p.serverLen < 2 ^ 64 ∧ p.logClient < 2 ^ 64 ∧ p.clientLen < 2 ^ 64

/-- What the format of the set operations can carry. -/
def PsoPP.Fine (C : PointCodec G) (p : PsoPP G) : Prop :=
  p.ote.baseOT ≠ C.inf ∧ isSpace p.ote.malicious = false ∧ p.ote.baseLen < 2 ^ 64 ∧ p.mq.Word ∧ p.logSender < 2 ^ 64 ∧
    p.logReceiver < 2 ^ 64 ∧ p.senderNum < 2 ^ 64 ∧ p.receiverNum < 2 ^ 64 ∧ (p.mq.stat % 256 < 48 ∨ 57 < p.mq.stat % 256)

theorem PsoPP.fits (p old : PsoPP G) : List.Forall₂ FitsItem p.items old.items :=
  .cons trivial (.cons trivial (.cons trivial (.cons trivial (.cons trivial (.cons trivial (.cons trivial (.cons trivial
    (.cons trivial (.cons trivial (.cons trivial (.cons trivial .nil)))))))))))

theorem PsoPP.clean (C : PointCodec G) (bnLen : Nat) (g : Nat → Bytes) (p : PsoPP G) (h : p.Fine C) (suf : List (Item G)) (hs : Clean C bnLen g [] suf) :
    Clean C bnLen g [] (p.items ++ suf) := by
  obtain ⟨h1, h2, h3, ⟨k1, k2, k3, k4, k5⟩, h4, h5, h6, h7, h8⟩ := h
  refine ⟨h1, h2, ⟨h3, ?_⟩, k1, k2, k3, k4, k5, h4, h5, h6, h7, hs⟩
  intro c hc
  have e : (putItems C bnLen g ((p.mq.items ++ [sz p.logSender, sz p.logReceiver, sz p.senderNum, sz p.receiverNum]) ++ suf) ++ []).head? =
      some (UInt8.ofNat (p.mq.stat % 256)) := by
    simp only [RpmtPP.items, putItems, List.cons_append, List.map_cons, List.flatten_cons, putItem, put, List.append_assoc]
    rw [List.head?_append, leBytes_head, Option.some_or]
  have hc' := e ▸ hc
  rw [← Option.mem_some_iff.1 hc']
  exact low_not_digit h8

/-! ### Files that are read back -/

section
variable (C : PointCodec G) (bnLen : Nat) (g g' : Nat → Bytes) (hg : ∀ n, (g n).length = n) (hg' : ∀ n, (g' n).length = n)
include hg hg'

/-- **C90** Naor-Pinkas OT. -/
theorem npot_file (p old : G) (hp : p ≠ C.inf) : ofNpot old (load C bnLen g' (npotItems old) (save C bnLen g (npotItems p))) = p := by
  rw [load_save C bnLen g g' hg hg' (npotItems p) (npotItems old) (.cons trivial .nil) ⟨hp, trivial⟩]
  rfl

/-- **C90** IKNP and ALSZ extension; `malicious` is 0 in every `Setup`. -/
theorem ote_file (p old : OtePP G) (hp : p.baseOT ≠ C.inf) (hm : isSpace p.malicious = false) (hb : p.baseLen < 2 ^ 64) :
    old.ofItems (load C bnLen g' old.items (save C bnLen g p.items)) = p := by
  rw [load_save C bnLen g g' hg hg' p.items old.items (.cons trivial (.cons trivial (.cons trivial .nil)))
    ⟨hp, hm, ⟨hb, by simp [putItems]⟩, trivial⟩]
  rfl

/-- **C90** PSI from commutative weak PRFs. -/
theorem cwpsi_file (p old : CwPsiPP) (h : p.stat < 2 ^ 64 ∧ p.comp < 2 ^ 64 ∧ p.logSender < 2 ^ 64 ∧ p.senderNum < 2 ^ 64 ∧
    p.logReceiver < 2 ^ 64 ∧ p.receiverNum < 2 ^ 64 ∧ p.truncateLen < 2 ^ 64) :
    old.ofItems (load C bnLen g' old.items (save C bnLen g p.items)) = p := by
  obtain ⟨h1, h2, h3, h4, h5, h6, h7⟩ := h
  rw [load_save C bnLen g g' hg hg' p.items old.items (.cons trivial (.cons trivial (.cons trivial (.cons trivial (.cons trivial (.cons trivial
    (.cons trivial .nil))))))) ⟨h1, h2, h3, h4, h5, h6, h7, trivial⟩]
  rfl

/-- **C90** both mqRPMT protocols. -/
theorem rpmt_file (p old : RpmtPP) (h : p.Word) : old.ofItems (load C bnLen g' old.items (save C bnLen g p.items)) = p := by
  obtain ⟨h1, h2, h3, h4, h5⟩ := h
  rw [load_save C bnLen g g' hg hg' p.items old.items (.cons trivial (.cons trivial (.cons trivial (.cons trivial (.cons trivial .nil)))))
    ⟨h1, h2, h3, h4, h5, trivial⟩]
  rfl

/-- **C90** PSI, PSI cardinality and PSU, unless the statistical security parameter is 48, …, 57 modulo 256: its low byte follows the decimal
number `BASE_LEN` in the file. -/
theorem pso_file_partial (p old : PsoPP G) (h : p.Fine C) : old.ofItems (load C bnLen g' old.items (save C bnLen g p.items)) = p := by
  have hc := PsoPP.clean C bnLen g p h [] trivial
  rw [List.append_nil] at hc
  rw [load_save C bnLen g g' hg hg' p.items old.items (PsoPP.fits p old) hc]
  rfl

/-- **C90** PSI cardinality with sum. -/
theorem sum_file_partial (p old : SumPP G) (h : p.base.Fine C) (h1 : p.logSum < 2 ^ 64) (h2 : p.logValue < 2 ^ 64) :
    old.ofItems (load C bnLen g' old.items (save C bnLen g p.items)) = p := by
  have hc := PsoPP.clean C bnLen g p.base h [sz p.logSum, sz p.logValue] ⟨h1, h2, trivial⟩
  have hf : List.Forall₂ FitsItem p.items old.items :=
    List.rel_append (PsoPP.fits p.base old.base) (.cons trivial (.cons trivial .nil))
  rw [load_save C bnLen g g' hg hg' p.items old.items hf hc]
  rfl

/-- **C90** private-ID: the OPRF part is copied byte by byte. -/
theorem id_file_partial (p old : IdPP G) (ho : old.oprf.length = p.oprf.length) (h : p.psu.Fine C) (h1 : p.logSender < 2 ^ 64)
    (h2 : p.logReceiver < 2 ^ 64) (h3 : p.senderNum < 2 ^ 64) (h4 : p.receiverNum < 2 ^ 64) :
    old.ofItems (load C bnLen g' old.items (save C bnLen g p.items)) = p := by
  have hc := PsoPP.clean C bnLen g p.psu h [sz p.logSender, sz p.logReceiver, sz p.senderNum, sz p.receiverNum]
    ⟨h1, h2, h3, h4, trivial⟩
  have hf : List.Forall₂ FitsItem p.items old.items :=
    .cons ho (List.rel_append (PsoPP.fits p.psu old.psu) (.cons trivial (.cons trivial (.cons trivial (.cons trivial .nil)))))
  rw [load_save C bnLen g g' hg hg' p.items old.items hf ⟨trivial, hc⟩]
  rfl

omit hg hg' in
theorem pods_clean (l : List Block) (suf : List (Item G)) (h : Clean C bnLen g [] suf) :
    Clean C bnLen g [] ((l.map fun k => .bin (.pod (Block.toBytes k))) ++ suf) := by
  induction l with
  | nil => exact h
  | cons k l ih => exact ⟨trivial, ih⟩

/-- **C90** OTE OPRF: every member is read back, if the first byte of the first round key of the common seed is no decimal digit. In `Setup` it
is the first byte of `fixed_seed`. -/
theorem otePrf_file_partial (p old : OtePrfPP G) (k : Block) (ks : List Block) (hk : p.seed.roundkey = k :: ks)
    (hl : old.seed.roundkey.length = p.seed.roundkey.length) (hd : k.toNat % 256 < 48 ∨ 57 < k.toNat % 256)
    (hw : p.keySize < 2 ^ 64 ∧ p.rangeSize < 2 ^ 64 ∧ p.stat < 2 ^ 64 ∧ p.inputNum < 2 ^ 64 ∧ p.height < 2 ^ 64 ∧ p.logHeight < 2 ^ 64 ∧
      p.width < 2 ^ 64 ∧ p.batch < 2 ^ 64 ∧ p.seed.counter < 2 ^ 64 ∧ p.seed.roundNum < 2 ^ 64) (hp : p.npot ≠ C.inf) :
    load C bnLen g' old.items (save C bnLen g p.items) = p.items := by
  obtain ⟨w1, w2, w3, w4, w5, w6, w7, w8, w9, w10⟩ := hw
  refine load_save C bnLen g g' hg hg' p.items old.items ?_ ?_
  · refine .cons trivial (.cons trivial (.cons trivial (.cons trivial (.cons trivial (.cons trivial (.cons trivial (.cons trivial ?_)))))))
    refine .cons trivial (List.rel_append (List.rel_append ?_ (.cons trivial .nil)) (.cons trivial .nil))
    rw [List.forall₂_map_left_iff, List.forall₂_map_right_iff]
    refine List.forall₂_iff_zip.2 ⟨hl.symm, fun {a b} _ => ?_⟩
    show (Block.toBytes b).length = (Block.toBytes a).length
    simp
  · refine ⟨w1, w2, w3, w4, w5, w6, w7, w8, ⟨w9, ?_⟩, ?_⟩
    · intro c hc
      rw [hk] at hc
      simp only [putItems, List.append_eq, List.map_cons, List.cons_append, List.nil_append, List.append_assoc, List.flatten_cons, putItem, put] at hc
      have e : (Block.toBytes k).head? = some (UInt8.ofNat (k.toNat % 256)) := by
        unfold Block.toBytes
        simp only [leBytes, List.head?_cons, Option.some.injEq]
        apply UInt8.toNat_inj.1
        simp
      rw [List.head?_append, e, Option.some_or] at hc
      rw [← Option.mem_some_iff.1 hc]
      exact low_not_digit hd
    · show Clean C bnLen g [] ((p.seed.roundkey.map fun k => .bin (.pod (Block.toBytes k))) ++ [sz p.seed.roundNum] ++ npotItems p.npot)
      rw [List.append_assoc]
      exact pods_clean C bnLen g _ _ ⟨w10, hp, trivial⟩

end

/-! ### Files that are not read back -/

/-- **C90** fails for the DDH OPRF: the two numbers are written without a separator, so they come back as one number, and `RANGE_SIZE` keeps
whatever the object held. -/
theorem ddh_file_lost (C : PointCodec G) (bnLen : Nat) (g g' : Nat → Bytes) (p old : DdhPP)
    (h : p.keySize * 10 ^ (decBytes p.rangeSize).length + p.rangeSize < 2 ^ 64) :
    old.ofItems (load C bnLen g' old.items (save C bnLen g (p.items (G := G)))) =
      ⟨p.keySize * 10 ^ (decBytes p.rangeSize).length + p.rangeSize, old.rangeSize⟩ := by
  have hr := getDec_digits old.keySize (decBytes p.keySize ++ decBytes p.rangeSize) []
    (fun c hc => (List.mem_append.1 hc).elim (decBytes_digits _ c) (decBytes_digits _ c)) (by simp [decBytes_ne]) (by rw [decVal_two]; exact h) (by simp)
  rw [List.append_nil, decVal_two] at hr
  unfold load save putItems
  simp only [DdhPP.items, List.map_cons, List.map_nil, putItem, List.flatten_cons, List.flatten_nil, List.append_nil, getItems, getItem, hr]
  rfl

/-- What `Setup` of the DDH OPRF gives comes back as 3232 and an uninitialised number. -/
theorem ddh_setup_lost (C : PointCodec G) (bnLen : Nat) (g g' : Nat → Bytes) (old : DdhPP) :
    old.ofItems (load C bnLen g' old.items (save C bnLen g (ddhSetup.items (G := G)))) = ⟨3232, old.rangeSize⟩ := by
  have e : (decBytes 32).length = 2 := by rw [decBytes_length]; norm_num
  have := ddh_file_lost C bnLen g g' ddhSetup old (by simp only [ddhSetup, e]; norm_num)
  rw [this]
  simp only [ddhSetup, e]
  rfl

/-- **C90** fails for the set operations with a statistical security parameter between 48 and 57: its low byte is read as a digit of `BASE_LEN`, and
every later number is read from the wrong place. -/
theorem pso_file_lost (C : PointCodec G) (bnLen : Nat) (g g' : Nat → Bytes) (hg : ∀ n, (g n).length = n) (hg' : ∀ n, (g' n).length = n)
    (p : G) (hp : p ≠ C.inf) (stat logS logR : Nat) (h : 48 ≤ stat ∧ stat ≤ 57) (hR : logR < 64) (old : PsoPP G) :
    let q := old.ofItems (load C bnLen g' old.items (save C bnLen g (psoSetup p stat logS logR).items))
    q.ote.baseLen = 1280 + (stat - 48) ∧ q.mq.stat = logR * 2 ^ 56 := by
  obtain ⟨rest, hrest⟩ : ∃ rest, save C bnLen g (psoSetup p stat logS logR).items =
      put C bnLen g (.point p) ++ (0 :: ([49, 50, 56, UInt8.ofNat stat] ++ (List.replicate 7 0 ++ (UInt8.ofNat logR :: rest)))) := by
    have e1 : decBytes 128 = [49, 50, 56] := by unfold decBytes; norm_num; decide
    have e2 : leBytes 8 stat = UInt8.ofNat stat :: List.replicate 7 0 := by
      obtain ⟨h1, h2⟩ := h
      interval_cases stat <;> decide
    refine ⟨leBytes 7 (logR / 256) ++ (leBytes 8 (2 ^ logR) ++ (leBytes 8 logS ++ (leBytes 8 (2 ^ logS) ++ (leBytes 8 logS ++ (leBytes 8 logR ++
      (leBytes 8 (2 ^ logS) ++ leBytes 8 (2 ^ logR))))))), ?_⟩
    simp only [save, putItems, psoSetup, PsoPP.items, OtePP.items, npotItems, RpmtPP.items, rpmtSetup, List.cons_append, List.nil_append,
      List.append_nil, List.map_cons, List.map_nil, List.flatten_cons, List.flatten_nil, putItem, put, e1, e2, List.append_assoc]
    rw [show leBytes 8 logR = UInt8.ofNat logR :: leBytes 7 (logR / 256) from rfl]
    simp only [List.cons_append]
  have hd := getDec_digits old.ote.baseLen [49, 50, 56, UInt8.ofNat stat] (List.replicate 7 0 ++ (UInt8.ofNat logR :: rest))
    (by obtain ⟨h1, h2⟩ := h; interval_cases stat <;> decide) (by simp) (by obtain ⟨h1, h2⟩ := h; interval_cases stat <;> decide)
    (by intro c hc; simp [List.replicate] at hc; subst hc; decide)
  have hv : decVal [49, 50, 56, UInt8.ofNat stat] = 1280 + (stat - 48) := by obtain ⟨h1, h2⟩ := h; interval_cases stat <;> decide
  rw [hv] at hd
  have hr : readInto ⟨List.replicate 7 0 ++ (UInt8.ofNat logR :: rest), false⟩ (leBytes 8 old.mq.stat) =
      (List.replicate 7 0 ++ [UInt8.ofNat logR], ⟨rest, false⟩) := by
    have := readInto_append (List.replicate 7 0 ++ [UInt8.ofNat logR]) (leBytes 8 old.mq.stat) rest (by simp)
    simpa using this
  have hl : ofLE (List.replicate 7 0 ++ [UInt8.ofNat logR]) = logR * 2 ^ 56 := by
    interval_cases logR <;> decide
  have hg1 : getPoint C g' old.ote.baseOT ⟨putPoint C (g C.byteLen) p ++ (0 :: ([49, 50, 56, UInt8.ofNat stat] ++
      (List.replicate 7 0 ++ (UInt8.ofNat logR :: rest)))), false⟩ = _ := getPoint_put C g g' hg hg' p old.ote.baseOT hp _
  have hc : getChr old.ote.malicious ⟨0 :: ([49, 50, 56, UInt8.ofNat stat] ++ (List.replicate 7 0 ++ (UInt8.ofNat logR :: rest))), false⟩ =
      (0, ⟨[49, 50, 56, UInt8.ofNat stat] ++ (List.replicate 7 0 ++ (UInt8.ofNat logR :: rest)), false⟩) := by
    unfold getChr
    rw [List.dropWhile_cons_of_neg (by decide)]
    rfl
  rw [hrest]
  simp only [load, PsoPP.items, OtePP.items, npotItems, RpmtPP.items, List.cons_append, List.nil_append, getItems, getItem, Ser.get, put]
  simp only [List.cons_append, List.nil_append] at hg1 hc hd
  simp only [hg1, hc, hd, hr, hl]
  exact ⟨rfl, rfl⟩

/-! ### Concrete parameters -/

/-- The parameters of the tests: 40 bits of statistical security, sets of 2^20 items. -/
example : (psoSetup true 40 20 20).Fine toyCodec ∧ ¬ (psoSetup true 50 20 20).Fine toyCodec := by
  constructor
  · refine ⟨by decide, by decide, by decide, ⟨by decide, by decide, by decide, by decide, by decide⟩, by decide, by decide, by decide, by decide, by decide⟩
  · rintro ⟨-, -, -, -, -, -, -, -, h⟩
    revert h
    decide

/-- The first round key of the common seed starts with the byte 0x61. -/
example : ((PRG.setSeed CwPRF.fixedSeed 0).key.roundkey 0).toNat % 256 = 0x61 := by decide +kernel

example : (⟨7, 9⟩ : DdhPP).ofItems (load toyCodec 4 (fun n => List.replicate n 9) (DdhPP.items ⟨7, 9⟩)
    (save toyCodec 4 (fun n => List.replicate n 8) (ddhSetup.items (G := Bool)))) = ⟨3232, 9⟩ := ddh_setup_lost _ _ _ _ _

end Kunlun.ParamFiles
