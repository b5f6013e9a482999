import Verif.Model.AtRest
import Verif.Props.Prg
import Verif.Props.Serialization
/-!
C137: strings under the one-time pad, and blocks in files.
-/

namespace Kunlun.PRG

open Kunlun

theorem memcpy_all (dst src : Bytes) (h : dst.length = src.length) : memcpy dst src src.length = some src := by
  unfold memcpy
  rw [if_pos ⟨le_refl _, by omega⟩, List.take_of_length_le (le_refl _), List.drop_of_length_le (by omega), List.append_nil]

theorem xorInto_spec (a b c : Bytes) (h : a.length ≤ b.length) (hc : a.length = c.length) :
    xorInto a b c = some (List.zipWith (· ^^^ ·) a b) := by
  induction a generalizing b c with
  | nil => cases c with
    | nil => rfl
    | cons _ _ => simp at hc
  | cons x xs ih =>
    cases b with
    | nil => simp at h
    | cons y ys => cases c with
      | nil => simp at hc
      | cons z zs => simp [xorInto, ih ys zs (by simpa using h) (by simpa using hc)]

theorem otpEnc_eq (t : List Block) (ht : t.length = 8) (key : Block) (m : Bytes) :
    otpEnc t key m = some (List.zipWith (· ^^^ ·)
      ((bytesOf (stream (setSeed key 0).key (setSeed key 0).counter ((m.length + 15) / 16))).take m.length) m) := by
  unfold otpEnc
  rw [genRandomBytes_spec t ht, Option.bind_some]
  exact xorBytes_spec _ _ (by simp)

theorem otpEncStr_eq (t : List Block) (ht : t.length = 8) (key : Block) (m : Bytes) : otpEncStr t key m = otpEnc t key m := by
  have hl : ((bytesOf (stream (setSeed key 0).key (setSeed key 0).counter ((m.length + 15) / 16))).take m.length).length = m.length := by
    simp [bytesOf_length]; omega
  unfold otpEncStr
  rw [memcpy_all _ m (by simp)]
  show (otpEnc t key m).bind (fun c => memcpy _ c m.length) = _
  rw [otpEnc_eq t ht]
  have e : m.length = (List.zipWith (· ^^^ ·)
      ((bytesOf (stream (setSeed key 0).key (setSeed key 0).counter ((m.length + 15) / 16))).take m.length) m).length := by
    rw [List.length_zipWith, hl]; omega
  show memcpy _ _ m.length = _
  generalize List.zipWith (· ^^^ ·) _ m = z at e ⊢
  rw [e]
  exact memcpy_all _ _ (by rw [List.length_replicate])

/-- **C137** The overloads for strings make the bytes the overloads for vectors make, and every access is in range. -/
theorem otp_str_is_vec (t t' : List Block) (ht : t.length = 8) (ht' : t'.length = 8) (key : Block) (m : Bytes) :
    otpEncStr t key m = otpEnc t' key m ∧ otpDecStr t key m = otpDec t' key m := by
  have e : otpEncStr t key m = otpEnc t' key m := by rw [otpEncStr_eq t ht, otpEnc_eq t ht, otpEnc_eq t' ht']
  exact ⟨e, e⟩

/-- **C137** A string comes back, whatever it holds (zero bytes, nothing at all) and however long it is. -/
theorem otp_str_round_trip (t1 t2 : List Block) (h1 : t1.length = 8) (h2 : t2.length = 8) (key : Block) (m : Bytes) :
    ∃ c, otpEncStr t1 key m = some c ∧ c.length = m.length ∧ otpDecStr t2 key c = some m := by
  obtain ⟨c, e, l, d⟩ := otp_round_trip t1 t2 h1 h2 key m
  exact ⟨c, (otp_str_is_vec t1 t1 h1 h1 key m).1.trans e, l, (otp_str_is_vec t2 t2 h2 h2 key c).2.trans d⟩

theorem xor_assoc_zip (a b c : Bytes) :
    List.zipWith (· ^^^ ·) a (List.zipWith (· ^^^ ·) b c) = List.zipWith (· ^^^ ·) (List.zipWith (· ^^^ ·) a b) c := by
  induction a generalizing b c with
  | nil => simp
  | cons x xs ih => cases b <;> cases c <;> simp [ih, UInt8.xor_assoc]

theorem xor_cancel_zip (p a b : Bytes) (h : p.length = a.length) (h' : a.length = b.length) :
    List.zipWith (· ^^^ ·) (List.zipWith (· ^^^ ·) p a) (List.zipWith (· ^^^ ·) p b) = List.zipWith (· ^^^ ·) a b := by
  induction p generalizing a b with
  | nil => cases a with
    | nil => simp
    | cons _ _ => simp at h
  | cons x xs ih =>
    cases a with
    | nil => simp at h
    | cons y ys => cases b with
      | nil => simp at h'
      | cons z zs =>
        simp only [List.zipWith_cons_cons, ih ys zs (by simpa using h) (by simpa using h')]
        congr 1
        rw [UInt8.xor_comm x y, UInt8.xor_assoc, ← UInt8.xor_assoc x x, UInt8.xor_self, UInt8.zero_xor]

/-- **C137** The pad of a key is always the same: two ciphertexts under one key tell the XOR of the two messages, to anybody. A key must be
used once. -/
theorem otp_str_reuse (t1 t2 : List Block) (h1 : t1.length = 8) (h2 : t2.length = 8) (key : Block) (m m' : Bytes) (hl : m.length = m'.length) :
    ∃ c c', otpEncStr t1 key m = some c ∧ otpEncStr t2 key m' = some c' ∧ xorStr c c' = xorStr m m' := by
  have hp : ((bytesOf (stream (setSeed key 0).key (setSeed key 0).counter ((m.length + 15) / 16))).take m.length).length = m.length := by
    simp [bytesOf_length]; omega
  refine ⟨_, _, (otpEncStr_eq t1 h1 key m).trans (otpEnc_eq t1 h1 key m), (otpEncStr_eq t2 h2 key m').trans (otpEnc_eq t2 h2 key m'), ?_⟩
  rw [← hl]
  generalize (bytesOf (stream (setSeed key 0).key (setSeed key 0).counter ((m.length + 15) / 16))).take m.length = pad at hp
  unfold xorStr
  rw [xorInto_spec _ _ _ (by simp [hp, hl]) (by simp), xorInto_spec _ _ _ (by omega) (by simp), xor_cancel_zip pad m m' hp hl]

/-- **C137** Nothing protects a ciphertext from changes: who changes some bits of it changes exactly these bits of the message. -/
theorem otp_str_malleable (t1 t2 : List Block) (h1 : t1.length = 8) (h2 : t2.length = 8) (key : Block) (m d : Bytes) (hl : d.length = m.length) :
    ∃ c c', otpEncStr t1 key m = some c ∧ xorStr c d = some c' ∧ otpDecStr t2 key c' = xorStr m d := by
  obtain ⟨c, e, l, dc⟩ := otp_str_round_trip t1 t2 h1 h2 key m
  have hc' : (List.zipWith (· ^^^ ·) c d).length = m.length := by rw [List.length_zipWith]; omega
  refine ⟨c, List.zipWith (· ^^^ ·) c d, e, xorInto_spec _ _ _ (by omega) (by simp), ?_⟩
  rw [(otp_str_is_vec t2 t2 h2 h2 key _).2] at dc ⊢
  have dc' : otpEnc t2 key c = some m := dc
  have hg : otpDec t2 key (List.zipWith (· ^^^ ·) c d) = otpEnc t2 key (List.zipWith (· ^^^ ·) c d) := rfl
  rw [otpEnc_eq t2 h2, l, Option.some.injEq] at dc'
  rw [hg, otpEnc_eq t2 h2, hc', xor_assoc_zip, dc']
  unfold xorStr
  rw [xorInto_spec _ _ _ (by omega) (by simp)]

/-- **C137** `XOR` of strings: in range exactly when the second string is not shorter than the first; then it undoes itself. -/
theorem xor_str_range (a b : Bytes) : (xorStr a b = none ↔ b.length < a.length) ∧
    (b.length = a.length → ∃ c, xorStr a b = some c ∧ c.length = a.length ∧ xorStr a c = some b) := by
  have hn : ∀ a b c : Bytes, b.length < a.length → xorInto a b c = none := by
    intro a
    induction a with
    | nil => intro b c h; simp at h
    | cons x xs ih =>
      intro b c h
      cases b with
      | nil => rfl
      | cons y ys => cases c with
        | nil => rfl
        | cons z zs => simp [xorInto, ih ys zs (by simpa using h)]
  refine ⟨⟨fun h => ?_, fun h => hn _ _ _ h⟩, fun h => ?_⟩
  · by_contra hh
    unfold xorStr at h
    rw [xorInto_spec _ _ _ (by omega) (by simp)] at h
    exact absurd h (by simp)
  · have hl : (List.zipWith (· ^^^ ·) a b).length = a.length := by rw [List.length_zipWith]; omega
    refine ⟨List.zipWith (· ^^^ ·) a b, xorInto_spec _ _ _ (by omega) (by simp), hl, ?_⟩
    unfold xorStr
    rw [xorInto_spec _ _ _ (by omega) (by simp), zipWith_xor_twice _ _ h.symm]

/-- Seventeen bytes, the first of them zero, with one changed bit. -/
example : ∃ c c', otpEncStr (List.replicate 8 0#128) 5#128 (List.replicate 17 0) = some c ∧ xorStr c (1 :: List.replicate 16 0) = some c' ∧
    otpDecStr (List.replicate 8 1#128) 5#128 c' = some (1 :: List.replicate 16 0) := by
  obtain ⟨c, c', h1, h2, h3⟩ := otp_str_malleable (List.replicate 8 0#128) (List.replicate 8 1#128) rfl rfl 5#128 (List.replicate 17 0)
    (1 :: List.replicate 16 0) rfl
  exact ⟨c, c', h1, h2, h3.trans (by decide)⟩

end Kunlun.PRG

namespace Kunlun.Block

open Kunlun Kunlun.Ser

theorem getVec_putVec (as old : List Block) (hl : old.length = as.length) (rest : Bytes) :
    getVec old ⟨putVec as ++ rest, false⟩ = (as, ⟨rest, false⟩) := by
  unfold getVec putVec
  rw [readInto_append _ _ rest (by rw [List.length_replicate, PRG.bytesOf_length, hl]; omega), hl]
  have := split_bytesOf as []
  rw [List.append_nil] at this
  rw [this]

/-- **C137** Blocks and vectors of blocks written to a file one after the other come back one after the other, whatever the objects held that are
read into (vectors of the same lengths), whatever is in the uninitialised array, and nothing of what follows in the file is used up. -/
theorem block_file_round_trip (garbage : Nat → Bytes) (hg : ∀ i, (garbage i).length = 16) (is old : List Item)
    (hs : old.map Item.shape = is.map Item.shape) (rest : Bytes) :
    getItems garbage 0 old ⟨putItems is ++ rest, false⟩ = (is, ⟨rest, false⟩) := by
  suffices h : ∀ k, getItems garbage k old ⟨putItems is ++ rest, false⟩ = (is, ⟨rest, false⟩) from h 0
  induction is generalizing old with
  | nil =>
    intro k
    cases old with
    | nil => rfl
    | cons _ _ => simp at hs
  | cons i is ih =>
    intro k
    cases old with
    | nil => simp at hs
    | cons o old =>
      simp only [List.map_cons, List.cons.injEq] at hs
      have ih := ih old hs.2 (k + 1)
      cases i with
      | one a => cases o with
        | vec _ => exact absurd hs.1 (by simp [Item.shape])
        | one b =>
          have e : putItems (.one a :: is) ++ rest = put a ++ (putItems is ++ rest) := by simp [putItems]
          have g : get (garbage k) ⟨put a ++ (putItems is ++ rest), false⟩ = (a, ⟨putItems is ++ rest, false⟩) := by
            unfold get
            rw [readInto_append _ _ _ (by rw [hg]; simp [put]), put, ofBytes_toBytes]
          rw [e, getItems, g]
          simp only [ih]
      | vec as => cases o with
        | one _ => exact absurd hs.1 (by simp [Item.shape])
        | vec bs =>
          have e : putItems (.vec as :: is) ++ rest = putVec as ++ (putItems is ++ rest) := by simp [putItems]
          have hl : bs.length = as.length := by simpa [Item.shape] using hs.1
          rw [e, getItems, getVec_putVec as bs hl]
          simp only [ih]

/-- **C137** A file does not tell how the blocks were written: a vector is its blocks one by one, so a file can be read in other portions. -/
theorem block_file_portions (as bs : List Block) :
    putItems [.vec (as ++ bs)] = putItems [.vec as, .vec bs] ∧ putItems [.vec as] = putItems (as.map .one) := by
  constructor
  · simp [putItems, putVec, PRG.bytesOf]
  · induction as with
    | nil => rfl
    | cons a as ih =>
      have e : putItems (List.map Item.one (a :: as)) = put a ++ putItems (as.map .one) := by simp [putItems]
      rw [e, ← ih]
      simp [putItems, putVec, put, PRG.bytesOf]

/-- **C137** A file that ends too early: the stream is marked as failed, the blocks that are in the file are right, and the blocks of which
nothing is there are zero, not what the vector held. -/
theorem block_file_short (as old : List Block) (hl : old.length = as.length) (n : Nat) (hn : n < 16 * as.length) :
    ∃ got, getVec old ⟨(putVec as).take n, false⟩ = (got, ⟨[], true⟩) ∧ got.length = as.length ∧
      (∀ i, 16 * (i + 1) ≤ n → got[i]? = as[i]?) ∧ (∀ i < as.length, n ≤ 16 * i → got[i]? = some 0#128) := by
  have hp : (putVec as).length = 16 * as.length := by rw [putVec, PRG.bytesOf_length]
  have hr : readInto ⟨(putVec as).take n, false⟩ (List.replicate (old.length * 16) 0) =
      ((putVec as).take n ++ List.replicate (16 * as.length - n) 0, ⟨[], true⟩) := by
    unfold readInto
    rw [if_neg (by simp), if_pos (by simp; omega)]
    simp only [List.length_take, List.drop_replicate]
    congr 3
    omega
  have ht : ((putVec as).take n).length = n := by rw [List.length_take]; omega
  refine ⟨split as.length ((putVec as).take n ++ List.replicate (16 * as.length - n) 0), ?_, split_length _ _, fun i hi => ?_, fun i hi hni => ?_⟩
  · unfold getVec
    rw [hr, hl]
  · have hw := split_getElem? as.length (putVec as) i (by omega)
    have hs := split_bytesOf as []
    rw [List.append_nil] at hs
    rw [putVec, hs] at hw
    rw [split_getElem? _ _ i (by omega), hw, putVec]
    congr 2
    rw [List.drop_append_of_le_length (by rw [← putVec, ht]; omega), List.take_append_of_le_length (by
      rw [List.length_drop, ← putVec, ht]; omega), List.drop_take, List.take_take, min_eq_left (by omega)]
  · rw [split_getElem? _ _ i hi]
    congr 1
    rw [List.drop_append, List.drop_of_length_le (by omega), List.nil_append, List.drop_replicate, List.take_replicate,
      min_eq_left (by omega)]
    decide

/-- **C137** A single block is read into memory that was never set: at the end of the file the block is whatever was there. -/
theorem block_file_short_one (a : Block) (s : Bytes) (h : s.length < 16) : ∃ garbage garbage' : Bytes, garbage.length = 16 ∧ garbage'.length = 16 ∧
    (get garbage ⟨s, false⟩).2 = ⟨[], true⟩ ∧ (get garbage ⟨s, false⟩).1 ≠ (get garbage' ⟨s, false⟩).1 ∧
    (s = [] → (get (toBytes a) ⟨s, false⟩).1 = a) := by
  have hr : ∀ v : UInt8, readInto ⟨s, false⟩ (List.replicate 16 v) = (s ++ List.replicate (16 - s.length) v, ⟨[], true⟩) := by
    intro v
    unfold readInto
    rw [if_neg (by simp), if_pos (by simpa using h), List.drop_replicate]
  refine ⟨List.replicate 16 0, List.replicate 16 1, rfl, rfl, ?_, ?_, ?_⟩
  · unfold get
    rw [hr]
  · unfold get
    rw [hr, hr]
    intro e
    have e := congrArg toBytes e
    rw [toBytes_ofBytes _ (by simp; omega), toBytes_ofBytes _ (by simp; omega)] at e
    have e := List.append_cancel_left e
    have hk : 16 - s.length ≠ 0 := by omega
    obtain ⟨k, hk⟩ := Nat.exists_eq_succ_of_ne_zero hk
    rw [hk, List.replicate_succ, List.replicate_succ] at e
    exact absurd (List.cons.inj e).1 (by decide)
  · rintro rfl
    unfold get readInto
    simp [ofBytes_toBytes]

/-- A block, an empty vector and a vector of two, followed by three more bytes; and the same file cut in the middle of the third block. -/
example : getItems (fun _ => List.replicate 16 7) 0 [.one 0, .vec [], .vec [9, 9]] ⟨putItems [.one 1, .vec [], .vec [2, 3]] ++ [1, 2, 3], false⟩ =
    ([.one 1, .vec [], .vec [2, 3]], ⟨[1, 2, 3], false⟩) :=
  block_file_round_trip _ (fun _ => rfl) _ _ (by rfl) _

example : ∃ got, getVec [9, 9, 9] ⟨(putVec [1, 2, 3]).take 20, false⟩ = (got, ⟨[], true⟩) ∧ got[0]? = some 1#128 ∧ got[2]? = some 0#128 := by
  obtain ⟨got, h, -, h1, h2⟩ := block_file_short [1, 2, 3] [9, 9, 9] rfl 20 (by decide)
  exact ⟨got, h, h1 0 (by decide), h2 2 (by decide) (by decide)⟩

end Kunlun.Block
