import Verif.Model.AesLemmas
/-!
C14: AES modes.  The block cipher is the real AES-128.
-/

namespace Kunlun.AES

open Kunlun

/-- **C14** Decryption with the derived key undoes encryption, for every salt and block. -/
theorem aes_block_round_trip (salt d : Block) : dec (deriveDecKey (genEncKey salt)) (enc (genEncKey salt) d) = d :=
  dec_enc _ (by show 1 ≤ 10; omega) d

/-- **C14** `FastECBEnc` of `n` blocks in place: the first `n` blocks are encrypted one by one, the others are untouched, for every `n`
that fits the array. -/
theorem aes_fastECB_in_place (k : Key) (data : List Block) (n : Nat) (h : n ≤ data.length) :
    ∃ b, fastECBEnc k ⟨true, data, data⟩ n = some b ∧ b.dst = (data.take n).map (enc k) ++ data.drop n := by
  obtain ⟨b, e, p⟩ := fastECBEnc_prefix k ⟨true, data, data⟩ n
    (fun j hj => ⟨data[j]'(by omega), by show data[j]? = _; exact List.getElem?_eq_getElem (by omega)⟩) h
  refine ⟨b, e, ?_⟩
  apply List.ext_getElem?
  intro j
  by_cases hj : j < n
  · rw [p.done j hj, List.getElem?_append_left (by simp; omega), List.getElem?_map, List.getElem?_take, if_pos hj]
    rfl
  · rw [p.rest j (by omega), List.getElem?_append_right (by simp; omega)]
    simp only [List.length_map, List.length_take, List.getElem?_drop]
    congr 1; omega

/-- **C14** `FastECBEnc` into a separate array. -/
theorem aes_fastECB_out_of_place (k : Key) (src dst : List Block) (n : Nat) (hs : n ≤ src.length) (hd : n ≤ dst.length) :
    ∃ b, fastECBEnc k ⟨false, src, dst⟩ n = some b ∧ b.src = src ∧ b.dst = (src.take n).map (enc k) ++ dst.drop n := by
  obtain ⟨b, e, p⟩ := fastECBEnc_prefix k ⟨false, src, dst⟩ n
    (fun j hj => ⟨src[j]'(by omega), by show src[j]? = _; exact List.getElem?_eq_getElem (by omega)⟩) hd
  refine ⟨b, e, p.src, ?_⟩
  apply List.ext_getElem?
  intro j
  by_cases hj : j < n
  · rw [p.done j hj, List.getElem?_append_left (by simp; omega), List.getElem?_map, List.getElem?_take, if_pos hj]
    rfl
  · rw [p.rest j (by omega), List.getElem?_append_right (by simp; omega)]
    simp only [List.length_map, List.length_take, List.getElem?_drop]
    congr 1; omega

/-- **C14** `ECBEnc` is block-wise AES, and agrees with `FastECBEnc`. -/
theorem aes_ecb_blockwise (k : Key) (data : List Block) :
    ecbEnc k data data.length = some (data.map (enc k)) ∧
    ∃ b, fastECBEnc k ⟨true, data, data⟩ data.length = some b ∧ ecbEnc k data data.length = some b.dst := by
  have h : ecbEnc k data data.length = some (data.map (enc k)) := mapLoop_all _ _
  refine ⟨h, ?_⟩
  obtain ⟨b, e, hb⟩ := aes_fastECB_in_place k data data.length (Nat.le_refl _)
  exact ⟨b, e, by rw [h, hb]; simp⟩

/-- **C14** `ECBDec` undoes `ECBEnc` for every salt and message. -/
theorem aes_ecb_round_trip (salt : Block) (data : List Block) :
    (ecbEnc (genEncKey salt) data data.length).bind (fun c => ecbDec (deriveDecKey (genEncKey salt)) c c.length) = some data := by
  rw [(aes_ecb_blockwise _ _).1, Option.bind_some]
  show mapLoop _ 0 _ _ = _
  rw [mapLoop_all, List.map_map]
  congr 1
  conv => rhs; rw [← List.map_id data]
  apply List.map_congr_left
  intro d _
  exact aes_block_round_trip salt d

theorem cbc_aux (k kd : Key) (hde : ∀ d, dec kd (enc k d) = d) (data c : List Block) (hne : data ≠ [])
    (hl : c.length = data.length)
    (hg : ∀ i, i < data.length → c.getD i 0 = enc k (data.getD i 0 ^^^ (if i = 0 then 0#128 else c.getD (i - 1) 0))) :
    cbcDec kd c = some data := by
  have hpos : 0 < data.length := List.length_pos_iff.mpr hne
  have hc : c ≠ [] := by intro hc; rw [hc] at hl; simp at hl; omega
  unfold cbcDec
  rw [if_neg hc]
  obtain ⟨l2, g2⟩ := cbcDecLoop_spec kd (c.length - 1) c (by omega)
  generalize cbcDecLoop kd (c.length - 1) c = m at l2 g2
  simp only
  generalize hv : dec kd (m.getD 0 0) ^^^ 0#128 = v
  congr 1
  apply List.ext_getElem?
  intro j
  by_cases hj : j < data.length
  · have hval : (m.set 0 v).getD j 0 = data.getD j 0 := by
      by_cases h0 : j = 0
      · subst h0
        rw [List.getD, List.getElem?_set, if_pos rfl, if_pos (by omega), Option.getD_some, ← hv, g2, if_neg (by omega), hg 0 hj, if_pos rfl,
          hde, BitVec.xor_zero, BitVec.xor_zero]
      · have e : (m.set 0 v).getD j 0 = m.getD j 0 := by
          simp only [List.getD, List.getElem?_set]
          rw [if_neg (by omega)]
        rw [e, g2, if_pos (by omega), hg j hj, if_neg h0, hde, BitVec.xor_assoc, BitVec.xor_self, BitVec.xor_zero]
    have hj2 : j < (m.set 0 v).length := by rw [List.length_set, l2, hl]; exact hj
    rw [List.getElem?_eq_getElem hj, List.getElem?_eq_getElem hj2]
    rw [List.getD, List.getElem?_eq_getElem hj2, List.getD, List.getElem?_eq_getElem hj] at hval
    simpa using hval
  · rw [List.getElem?_eq_none (by rw [List.length_set, l2, hl]; omega), List.getElem?_eq_none (by omega)]

/-- **C14** `CBCDec` undoes `CBCEnc` for every salt and every non-empty message. -/
theorem aes_cbc_round_trip (salt : Block) (data : List Block) (h : data ≠ []) :
    (cbcEnc (genEncKey salt) data).bind (cbcDec (deriveDecKey (genEncKey salt))) = some data := by
  cases data with
  | nil => exact absurd rfl h
  | cons d ds =>
    rw [cbcEnc, Option.bind_some]
    exact cbc_aux _ _ (aes_block_round_trip salt) _ _ h (cbcEncLoop_length _ _ _) (cbcEncLoop_getElem _ _ _)

/-- CBC is chained: with two blocks, the second ciphertext block encrypts the second plaintext block XOR the first ciphertext block. -/
theorem aes_cbc_chained (k : Key) (a b : Block) : cbcEnc k [a, b] = some [enc k a, enc k (b ^^^ enc k a)] := by
  simp [cbcEnc, cbcEncLoop]

/-- Zero blocks: both CBC functions touch `data[0]` of an empty array. -/
theorem aes_cbc_empty_undefined (k : Key) : cbcEnc k [] = none ∧ cbcDec k [] = none := by
  constructor
  · rfl
  · unfold cbcDec; rw [if_pos rfl]

/-! ### The key schedule -/

theorem dword_ofDwords (d0 d1 d2 d3 : BitVec 32) : dword (ofDwords d0 d1 d2 d3) 0 = d0 ∧ dword (ofDwords d0 d1 d2 d3) 1 = d1 ∧
    dword (ofDwords d0 d1 d2 d3) 2 = d2 ∧ dword (ofDwords d0 d1 d2 d3) 3 = d3 := by
  refine ⟨?_, ?_, ?_, ?_⟩ <;>
  · apply BitVec.eq_of_getLsbD_eq
    intro i hi
    unfold dword ofDwords
    simp only [BitVec.getLsbD_extractLsb', BitVec.getLsbD_append, hi, decide_true, Bool.true_and]
    repeat' split
    all_goals first | omega | (congr 1; omega)

theorem dword_xor (a b : Block) (i : Nat) : dword (a ^^^ b) i = dword a i ^^^ dword b i := by
  apply BitVec.eq_of_getLsbD_eq
  intro k hk
  simp [dword, hk]

/-- One step of FIPS 197 key expansion: from round key `k` to `k'` with round constant `rc`. -/
def FipsStep (k k' : Block) (rc : BitVec 8) : Prop :=
  dword k' 0 = dword k 0 ^^^ (rotWord (subWord (dword k 3)) ^^^ rc.setWidth 32) ∧
  dword k' 1 = dword k 1 ^^^ dword k' 0 ∧ dword k' 2 = dword k 2 ^^^ dword k' 1 ∧ dword k' 3 = dword k 3 ^^^ dword k' 2

theorem expandAssist_fips (v1 v3 : Block) (rc : BitVec 8) (h : dword v3 0 = 0#32) :
    FipsStep v1 (expandAssist v1 v3 rc).1 rc ∧ dword (expandAssist v1 v3 rc).2 0 = 0#32 := by
  unfold FipsStep expandAssist
  simp only [shufflePs, shuffle32, aeskeygenassist, dword_xor, Nat.reduceMod, Nat.reduceDiv, dword_ofDwords, h]
  generalize dword v1 0 = a0
  generalize dword v1 1 = a1
  generalize dword v1 2 = a2
  generalize rotWord (subWord (dword v1 3)) ^^^ BitVec.setWidth 32 rc = t
  generalize dword v1 3 = a3
  simp only [BitVec.xor_assoc, BitVec.xor_comm, xor_left_comm', xor_cancel_left, BitVec.xor_self, BitVec.xor_zero, BitVec.zero_xor]
  simp

theorem expandAll_fips (x0 x2 : Block) (rcs : List (BitVec 8)) (h : dword x2 0 = 0#32) (i : Nat) (hi : i < rcs.length) :
    FipsStep ((x0 :: expandAll x0 x2 rcs).getD i 0) ((x0 :: expandAll x0 x2 rcs).getD (i + 1) 0) (rcs.getD i 0) := by
  induction rcs generalizing x0 x2 i with
  | nil => simp at hi
  | cons rc rcs ih =>
    obtain ⟨s, z⟩ := expandAssist_fips x0 x2 rc h
    cases i with
    | zero => simpa [expandAll] using s
    | succ i =>
      have := ih (expandAssist x0 x2 rc).1 (expandAssist x0 x2 rc).2 z i (by simpa using hi)
      simpa [expandAll] using this

/-- **C14** The round keys made by `GenEncKey` are those of FIPS 197: the first is the salt, and each next one follows by the standard
recurrence with the standard round constant (`x^i` in the AES field). -/
theorem aes_key_schedule (salt : Block) : (genEncKey salt).rounds = 10 ∧ (genEncKey salt).roundkey 0 = salt ∧
    ∀ i < 10, FipsStep ((genEncKey salt).roundkey i) ((genEncKey salt).roundkey (i + 1)) (Nat.repeat xtime i 1#8) := by
  refine ⟨rfl, rfl, fun i hi => ?_⟩
  have h := expandAll_fips salt 0#128 rcons (by decide) i hi
  have hrc : ∀ i : Fin 10, rcons.getD i 0 = Nat.repeat xtime i 1#8 := by decide
  rw [hrc ⟨i, hi⟩] at h
  exact h

/-- FIPS 197 appendix C.1 (blocks are little-endian images of the byte strings). -/
example : enc (genEncKey 0x0f0e0d0c0b0a09080706050403020100#128) 0xffeeddccbbaa99887766554433221100#128 =
    0x5ac5b47080b7cdd830047b6ad8e0c469#128 := by decide +kernel

example : (1 : Nat) ≤ [(1 : Block), 2, 3].length ∧ [(1 : Block)] ≠ [] := by decide

end Kunlun.AES
