import Verif.Model.Murmur
/-!
C68: the incremental Murmur hasher gives the same value as the one-shot function however the message is split, and the
byte-order-neutral and alignment-safe variants agree with the reference function on every message.
-/

namespace Kunlun.Murmur

open Kunlun

/-- The 32-bit word with the given little-endian bytes (bytes from the fifth on do not fit). -/
def le (l : Bytes) : W := BitVec.ofNat 32 (ofLE l)

/-- Bit `i` of a little-endian byte string. -/
def byteBit (l : Bytes) (i : Nat) : Bool := (l.getD (i / 8) 0).toNat.testBit (i % 8)

theorem ofLE_testBit (l : Bytes) (i : Nat) : (ofLE l).testBit i = byteBit l i := by
  induction l generalizing i with
  | nil => simp [ofLE, byteBit]
  | cons x xs ih =>
    have hx : x.toNat < 2 ^ 8 := x.toNat_lt
    have e : ofLE (x :: xs) = 2 ^ 8 * ofLE xs + x.toNat := by simp [ofLE]; omega
    rw [e, Nat.testBit_two_pow_mul_add _ hx]
    by_cases h : i < 8
    · rw [if_pos h]; simp [byteBit, Nat.div_eq_of_lt h, Nat.mod_eq_of_lt h]
    · rw [if_neg h, ih]
      unfold byteBit
      have h1 : i / 8 = (i - 8) / 8 + 1 := by omega
      have h2 : i % 8 = (i - 8) % 8 := by omega
      rw [h1, h2, List.getD_cons_succ]

theorem le_bit (l : Bytes) (i : Nat) (hi : i < 32) : (le l).getLsbD i = byteBit l i := by
  rw [le, BitVec.getLsbD_ofNat, ofLE_testBit]
  simp [hi]

theorem byteBit_append (p l : Bytes) (i : Nat) :
    byteBit (p ++ l) i = if i < 8 * p.length then byteBit p i else byteBit l (i - 8 * p.length) := by
  unfold byteBit
  simp only [List.getD_eq_getElem?_getD, List.getElem?_append]
  by_cases h : i < 8 * p.length
  · rw [if_pos h, if_pos (by omega)]
  · rw [if_neg h, if_neg (by omega), show (i - 8 * p.length) / 8 = i / 8 - p.length by omega,
      show (i - 8 * p.length) % 8 = i % 8 by omega]

theorem byteBit_ge (l : Bytes) (i : Nat) (h : 8 * l.length ≤ i) : byteBit l i = false := by
  unfold byteBit
  rw [List.getD_eq_getElem?_getD, List.getElem?_eq_none (by omega)]
  simp

/-- Putting bytes above others. -/
theorem le_append (p l : Bytes) : le (p ++ l) = le p ||| (le l <<< (8 * p.length)) := by
  apply BitVec.eq_of_getLsbD_eq
  intro i hi
  rw [le_bit _ _ hi, byteBit_append, BitVec.getLsbD_or, BitVec.getLsbD_shiftLeft, le_bit _ _ hi]
  by_cases h : i < 8 * p.length
  · simp [h]
  · rw [if_neg h, le_bit _ _ (by omega), byteBit_ge p i (by omega)]
    simp [hi, h]

theorem le_xor_append (p l : Bytes) : le (p ++ l) = (le l <<< (8 * p.length)) ^^^ le p := by
  apply BitVec.eq_of_getLsbD_eq
  intro i hi
  rw [le_bit _ _ hi, byteBit_append, BitVec.getLsbD_xor, BitVec.getLsbD_shiftLeft, le_bit _ _ hi]
  by_cases h : i < 8 * p.length
  · simp [h]
  · rw [if_neg h, le_bit _ _ (by omega), byteBit_ge p i (by omega)]
    simp [hi, h]

theorem le_shift (l : Bytes) (k : Nat) (h : l.length ≤ 4) : le l >>> (8 * k) = le (l.drop k) := by
  apply BitVec.eq_of_getLsbD_eq
  intro i hi
  rw [le_bit _ _ hi, BitVec.getLsbD_ushiftRight]
  have e : byteBit (l.drop k) i = byteBit l (8 * k + i) := by
    unfold byteBit
    simp only [List.getD_eq_getElem?_getD, List.getElem?_drop]
    rw [show (8 * k + i) / 8 = k + i / 8 by omega, show (8 * k + i) % 8 = i % 8 by omega]
  rw [e]
  by_cases h2 : 8 * k + i < 32
  · exact le_bit _ _ h2
  · rw [BitVec.getLsbD_of_ge _ _ (by omega), byteBit_ge _ _ (by omega)]

theorem le_take (l : Bytes) : le (l.take 4) = le l := by
  apply BitVec.eq_of_getLsbD_eq
  intro i hi
  rw [le_bit _ _ hi, le_bit _ _ hi]
  unfold byteBit
  simp only [List.getD_eq_getElem?_getD, List.getElem?_take]
  rw [if_pos (by omega)]

theorem sh_le (b : UInt8) (k : Nat) : sh b k = le [b] <<< k := by simp [sh, le, ofLE]

theorem le_nil : le [] = 0#32 := rfl

theorem tailWord_eq (l : Bytes) (h : l.length < 4) : tailWord l = le l := by
  match l, h with
  | [], _ => rfl
  | [a], _ => simp [tailWord, sh_le]
  | [a, b], _ =>
    have := le_xor_append [a] [b]
    simp only [List.cons_append, List.nil_append, List.length_singleton] at this
    simp [tailWord, sh_le, this]
  | [a, b, c], _ =>
    have h1 := le_xor_append [a, b] [c]
    have h2 := le_xor_append [a] [b]
    simp only [List.cons_append, List.nil_append, List.length_singleton, List.length_cons, List.length_nil] at h1 h2
    rw [h1, h2]
    simp [tailWord, sh_le, BitVec.xor_assoc]
  | _ :: _ :: _ :: _ :: _, h => simp at h; omega

theorem orBytes_eq (l : Bytes) (h : l.length < 4) : orBytes l = le l := by
  match l, h with
  | [], _ => rfl
  | [a], _ => simp [orBytes, sh_le]
  | [a, b], _ =>
    have := le_append [a] [b]
    simp only [List.cons_append, List.nil_append, List.length_singleton] at this
    rw [this, BitVec.or_comm]
    simp [orBytes, sh_le]
  | [a, b, c], _ =>
    have h1 := le_append [a, b] [c]
    have h2 := le_append [a] [b]
    simp only [List.cons_append, List.nil_append, List.length_singleton, List.length_cons, List.length_nil] at h1 h2
    rw [h1, h2, BitVec.or_comm, BitVec.or_comm (le [a])]
    simp [orBytes, sh_le, BitVec.or_assoc]
  | _ :: _ :: _ :: _ :: _, h => simp at h; omega

theorem tail_eq (h : W) (l : Bytes) (hl : l.length < 4) : tail h l = if l = [] then h else (h ^^^ le l) * m := by
  rw [← tailWord_eq l hl]
  match l, hl with
  | [], _ => rfl
  | [a], _ => simp [tail, tailWord]
  | [a, b], _ => simp [tail, tailWord, BitVec.xor_assoc]
  | [a, b, c], _ => simp [tail, tailWord, BitVec.xor_assoc]
  | _ :: _ :: _ :: _ :: _, h => simp at h; omega

theorem words_step (h : W) (l : Bytes) :
    words h l = if 4 ≤ l.length then words (mmix h (le l)) (l.drop 4) else (h, l) := by
  match l with
  | [] => rfl
  | [a] => rfl
  | [a, b] => rfl
  | [a, b, c] => rfl
  | a :: b :: c :: d :: rest =>
    rw [words, if_pos (by simp)]
    rw [← le_take (a :: b :: c :: d :: rest)]
    rfl

theorem words_short (h : W) (l : Bytes) (hl : l.length < 4) : words h l = (h, l) := by
  rw [words_step, if_neg (by omega)]

theorem words_rest (h : W) (l : Bytes) : (words h l).2.length = l.length % 4 := by
  induction l using (measure List.length).wf.induction generalizing h with
  | _ l ih =>
    rw [words_step]
    split
    · rename_i h4
      rw [ih (l.drop 4) (by show (l.drop 4).length < l.length; simp; omega), List.length_drop]
      omega
    · simp; omega

/-- Adding one byte at the end. -/
theorem words_snoc (h : W) (l : Bytes) (b : UInt8) :
    words h (l ++ [b]) =
      if (words h l).2.length = 3 then (mmix (words h l).1 (le ((words h l).2 ++ [b])), []) else ((words h l).1, (words h l).2 ++ [b]) := by
  induction l using (measure List.length).wf.induction generalizing h with
  | _ l ih =>
    by_cases h4 : 4 ≤ l.length
    · rw [words_step h l, if_pos h4, words_step h (l ++ [b]), if_pos (by simp; omega)]
      rw [List.drop_append_of_le_length h4, ih (l.drop 4) (by show (l.drop 4).length < l.length; simp; omega)]
      rw [← le_take (l ++ [b]), List.take_append_of_le_length h4, le_take]
    · rw [words_short h l (by omega)]
      by_cases h3 : l.length = 3
      · rw [if_pos h3, words_step, if_pos (by simp; omega)]
        rw [List.drop_of_length_le (by simp; omega)]
        rfl
      · rw [if_neg h3, words_short _ _ (by simp; omega)]

/-! ### The incremental hasher -/

/-- The hasher after the message `l`. -/
def After (seed : W) (l : Bytes) (s : Hasher) : Prop :=
  s.hash = (words seed l).1 ∧ s.tail = le (words seed l).2 ∧ s.count = l.length % 4

theorem After.byte {seed : W} {l : Bytes} {s : Hasher} (h : After seed l s) (b : UInt8) :
    After seed (l ++ [b])
      (let s := { s with tail := s.tail ||| sh b (s.count * 8), count := s.count + 1 }
       if s.count = 4 then { s with hash := mmix s.hash s.tail, tail := 0#32, count := 0 } else s) := by
  obtain ⟨h1, h2, h3⟩ := h
  have hr := words_rest seed l
  have hword : s.tail ||| sh b (s.count * 8) = le ((words seed l).2 ++ [b]) := by
    rw [le_append, h2, h3, hr, sh_le, Nat.mul_comm]
  unfold After
  rw [words_snoc, hr]
  dsimp only
  by_cases hc : s.count + 1 = 4
  · have h33 : l.length % 4 = 3 := by omega
    rw [if_pos hc, if_pos h33]
    refine ⟨?_, rfl, ?_⟩
    · dsimp only; rw [hword, h1]
    · simp; omega
  · have h33 : l.length % 4 ≠ 3 := by omega
    rw [if_neg hc, if_neg h33]
    refine ⟨h1, hword, ?_⟩
    simp; omega

theorem mixTail_spec (seed : W) (data : Bytes) : ∀ (l : Bytes) (s : Hasher), After seed l s →
    ∃ p q, data = p ++ q ∧ (mixTail s data).2 = q ∧ After seed (l ++ p) (mixTail s data).1 ∧
      (q = [] ∨ (4 ≤ q.length ∧ (mixTail s data).1.count = 0)) ∧ (mixTail s data).1.size = s.size ∧ (data.length < 4 → q = []) := by
  induction data with
  | nil => intro l s h; exact ⟨[], [], rfl, rfl, by simpa [mixTail] using h, Or.inl rfl, rfl, fun _ => rfl⟩
  | cons b rest ih =>
    intro l s h
    unfold mixTail
    by_cases hc : (b :: rest).length < 4 ∨ s.count ≠ 0
    · rw [if_pos hc]
      obtain ⟨p, q, e1, e2, e3, e4, e5, e6⟩ := ih (l ++ [b]) _ (h.byte b)
      refine ⟨b :: p, q, by rw [e1]; rfl, e2, by simpa using e3, e4, ?_, ?_⟩
      · rw [e5]
        dsimp only
        split <;> rfl
      · intro hl; exact e6 (by simp at hl ⊢; omega)
    · rw [if_neg hc]
      have hlen : 4 ≤ (b :: rest).length := by
        rcases Nat.lt_or_ge (b :: rest).length 4 with h | h
        · exact absurd (Or.inl h) hc
        · exact h
      have hcount : s.count = 0 := Classical.byContradiction fun h => hc (Or.inr h)
      exact ⟨[], b :: rest, rfl, rfl, by simpa using h, Or.inr ⟨hlen, hcount⟩, rfl, fun h => absurd h (by omega)⟩

theorem words_append (seed : W) (l data : Bytes) (h : l.length % 4 = 0) :
    words seed (l ++ data) = words (words seed l).1 data := by
  induction l using (measure List.length).wf.induction generalizing seed with
  | _ l ih =>
    by_cases h4 : 4 ≤ l.length
    · rw [words_step seed l, if_pos h4, words_step seed (l ++ data), if_pos (by simp; omega),
        List.drop_append_of_le_length h4, ih (l.drop 4) (by show (l.drop 4).length < l.length; simp; omega) _ (by simp; omega),
        ← le_take (l ++ data), List.take_append_of_le_length h4, le_take]
    · have : l = [] := List.eq_nil_of_length_eq_zero (by omega)
      subst this
      rfl

theorem words_prefix (h : W) (l : Bytes) : ∃ p, l = p ++ (words h l).2 ∧ p.length % 4 = 0 ∧ (words h p).1 = (words h l).1 := by
  induction l using (measure List.length).wf.induction generalizing h with
  | _ l ih =>
    by_cases h4 : 4 ≤ l.length
    · obtain ⟨p, e1, e2, e3⟩ := ih (l.drop 4) (by show (l.drop 4).length < l.length; simp; omega) (mmix h (le l))
      have ht : (l.take 4).length = 4 := by simp; omega
      refine ⟨l.take 4 ++ p, ?_, by simp; omega, ?_⟩
      · rw [words_step h l, if_pos h4, List.append_assoc, ← e1, List.take_append_drop]
      · rw [words_step h l, if_pos h4, ← e3, words_step h (l.take 4 ++ p), if_pos (by simp; omega)]
        rw [List.drop_append_of_le_length (by omega), List.drop_of_length_le (by omega), List.nil_append,
          ← le_take (l.take 4 ++ p), List.take_append_of_le_length (by omega), List.take_take, Nat.min_self, le_take]
    · refine ⟨[], ?_, rfl, ?_⟩ <;> rw [words_short h l (by omega)]
      · rfl
      · rfl

theorem add_spec (seed : W) (l data : Bytes) (s : Hasher) (h : After seed l s) (hs : s.size = BitVec.ofNat 32 l.length) :
    After seed (l ++ data) (add s data) ∧ (add s data).size = BitVec.ofNat 32 (l ++ data).length := by
  obtain ⟨p, q, e1, e2, e3, e4, e5, _⟩ := mixTail_spec seed data l { s with size := s.size + BitVec.ofNat 32 data.length } h
  unfold add
  dsimp only
  generalize hm : mixTail { s with size := s.size + BitVec.ofNat 32 data.length } data = mt at *
  obtain ⟨s1, q1⟩ := mt
  dsimp only at *
  subst e2
  have hsz : s1.size = BitVec.ofNat 32 (l ++ data).length := by
    rw [e5, hs, List.length_append]
    apply BitVec.eq_of_toNat_eq
    simp
  rcases e4 with hq | ⟨hq4, hc0⟩
  · subst hq
    rw [List.append_nil] at e1
    subst e1
    have hw : words s1.hash [] = (s1.hash, []) := rfl
    rw [hw]
    exact ⟨e3, hsz⟩
  · -- the first MixTail stopped at a word boundary
    have hb : (l ++ p).length % 4 = 0 := by rw [← e3.2.2, hc0]
    obtain ⟨w, w1, w2, w3⟩ := words_prefix s1.hash q1
    have hlen4 := words_rest s1.hash q1
    have hstart : After seed (l ++ p ++ w) { s1 with hash := (words s1.hash q1).1 } := by
      have hnil : (words seed (l ++ p ++ w)).2 = [] := by
        apply List.eq_nil_of_length_eq_zero
        rw [words_rest]
        simp at hb ⊢; omega
      refine ⟨?_, ?_, ?_⟩
      · dsimp only
        rw [words_append seed _ _ hb, ← e3.1, w3]
      · have h0 : (words seed (l ++ p)).2 = [] := by
          apply List.eq_nil_of_length_eq_zero
          rw [words_rest, hb]
        dsimp only
        rw [e3.2.1, h0, hnil]
      · dsimp only
        rw [hc0]
        simp at hb ⊢; omega
    obtain ⟨p2, q2, f1, f2, f3, f4, f5, f6⟩ := mixTail_spec seed (words s1.hash q1).2 (l ++ p ++ w) _ hstart
    have hq2 := f6 (by rw [hlen4]; omega)
    subst hq2
    rw [List.append_nil] at f1
    refine ⟨?_, by rw [f5]; exact hsz⟩
    have : l ++ data = l ++ p ++ w ++ p2 := by
      have hd : data = p ++ (w ++ p2) := by
        rw [e1]
        exact congrArg (p ++ ·) (w1.trans (congrArg (w ++ ·) f1))
      rw [hd]
      simp
    rw [this]
    exact f3

/-- Feeding a message in any pieces gives the one-shot hash. -/
theorem murmur_incremental (seed : W) (pieces : List Bytes) :
    end_ (pieces.foldl add (begin_ seed)) = murmur2A pieces.flatten seed := by
  have key : ∀ (ps : List Bytes) (l : Bytes) (s : Hasher), After seed l s → s.size = BitVec.ofNat 32 l.length →
      After seed (l ++ ps.flatten) (ps.foldl add s) ∧ (ps.foldl add s).size = BitVec.ofNat 32 (l ++ ps.flatten).length := by
    intro ps
    induction ps with
    | nil => intro l s h hs; simpa using ⟨h, hs⟩
    | cons d ps ih =>
      intro l s h hs
      obtain ⟨h1, h2⟩ := add_spec seed l d s h hs
      have := ih (l ++ d) (add s d) h1 h2
      simpa using this
  obtain ⟨⟨h1, h2, _⟩, h3⟩ := key pieces [] (begin_ seed) ⟨rfl, rfl, rfl⟩ rfl
  rw [List.nil_append] at h1 h2 h3
  unfold end_ murmur2A
  rw [h1, h2, h3]
  dsimp only
  rw [tailWord_eq _ (by rw [words_rest]; omega)]

/-- In particular the value does not depend on how the message is split. -/
theorem murmur_split_irrelevant (seed : W) (ps qs : List Bytes) (h : ps.flatten = qs.flatten) :
    end_ (ps.foldl add (begin_ seed)) = end_ (qs.foldl add (begin_ seed)) := by
  rw [murmur_incremental, murmur_incremental, h]

/-! ### The variants -/

theorem neutral_word (a b c d : UInt8) : ((sh a 0 ||| sh b 8) ||| sh c 16) ||| sh d 24 = getblock a b c d := by
  have h1 := le_append [a, b, c] [d]
  have h2 := le_append [a, b] [c]
  have h3 := le_append [a] [b]
  simp only [List.cons_append, List.nil_append, List.length_singleton, List.length_cons, List.length_nil] at h1 h2 h3
  show _ = le [a, b, c, d]
  rw [h1, h2, h3]
  simp [sh_le]

theorem neutralWords_eq (h : W) (l : Bytes) : neutralWords h l = words h l := by
  induction l using (measure List.length).wf.induction generalizing h with
  | _ l ih =>
    match l, ih with
    | [], _ => rfl
    | [a], _ => rfl
    | [a, b], _ => rfl
    | [a, b, c], _ => rfl
    | a :: b :: c :: d :: rest, ih =>
      rw [neutralWords, words, neutral_word]
      exact ih rest (by show rest.length < (a :: b :: c :: d :: rest).length; simp; omega) _

/-- The byte-order-neutral variant is the same function. -/
theorem murmur_neutral (data : Bytes) (seed : W) : neutral2 data seed = murmur2 data seed := by
  unfold neutral2 murmur2
  rw [neutralWords_eq]

theorem alignedWords_spec (align : Nat) (ha : 0 < align) (ha4 : align < 4) (l : Bytes) : ∀ (h t : W) (pend : Bytes), pend.length = 4 - align →
    t >>> (8 * align) = le pend →
    ∃ pend', pend'.length = 4 - align ∧ (alignedWords (8 * (4 - align)) (8 * align) h t l).2.1 >>> (8 * align) = le pend' ∧
      (alignedWords (8 * (4 - align)) (8 * align) h t l).2.2.length < 4 ∧
      words h (pend ++ l) = words (alignedWords (8 * (4 - align)) (8 * align) h t l).1 (pend' ++ (alignedWords (8 * (4 - align)) (8 * align) h t l).2.2) := by
  induction l using (measure List.length).wf.induction with
  | _ l ih =>
    intro h t pend hp ht
    match l, ih with
    | [], _ => exact ⟨pend, hp, ht, by simp [alignedWords], rfl⟩
    | [a], _ => exact ⟨pend, hp, ht, by simp [alignedWords], rfl⟩
    | [a, b], _ => exact ⟨pend, hp, ht, by simp [alignedWords], rfl⟩
    | [a, b, c], _ => exact ⟨pend, hp, ht, by simp [alignedWords], rfl⟩
    | a :: b :: c :: d :: rest, ih =>
      have hw : getblock a b c d = le [a, b, c, d] := rfl
      obtain ⟨p', e1, e2, e3, e4⟩ := ih rest (by show rest.length < (a :: b :: c :: d :: rest).length; simp; omega)
        (mmix h ((t >>> (8 * align)) ||| (getblock a b c d <<< (8 * (4 - align))))) (getblock a b c d) ([a, b, c, d].drop align)
        (by simp) (by rw [hw, le_shift _ _ (by simp)])
      refine ⟨p', e1, ?_, ?_, ?_⟩
      · rw [alignedWords]; exact e2
      · rw [alignedWords]; exact e3
      · rw [alignedWords]
        rw [← e4, words_step, if_pos (by simp; omega)]
        have hmix : t >>> (8 * align) ||| getblock a b c d <<< (8 * (4 - align)) = le (pend ++ a :: b :: c :: d :: rest) := by
          rw [ht, hw, ← hp, ← le_append]
          rw [← le_take (pend ++ [a, b, c, d]), ← le_take (pend ++ a :: b :: c :: d :: rest)]
          congr 1
          rw [List.take_append, List.take_append]
          congr 1
          rw [hp]
          obtain h1 | h1 | h1 : align = 1 ∨ align = 2 ∨ align = 3 := by omega
          all_goals subst h1; rfl
        rw [hmix]
        congr 1
        rw [List.drop_append, hp, List.drop_of_length_le (by omega), List.nil_append]
        obtain h1 | h1 | h1 : align = 1 ∨ align = 2 ∨ align = 3 := by omega
        all_goals subst h1; rfl

/-- The alignment-safe variant is the same function whatever the alignment of the message. -/
theorem murmur_aligned (align : Nat) (ha : align < 4) (data : Bytes) (seed : W) : aligned2 align data seed = murmur2 data seed := by
  unfold aligned2 murmur2
  dsimp only
  by_cases hc : align ≠ 0 ∧ 4 ≤ data.length
  · rw [if_pos hc]
    obtain ⟨h0, h4⟩ := hc
    generalize seed ^^^ BitVec.ofNat 32 data.length = h
    have hpre : (orBytes (data.take (4 - align)) <<< (8 * align)) >>> (8 * align) = le (data.take (4 - align)) := by
      rw [orBytes_eq _ (by simp; omega)]
      have := le_append (List.replicate align 0) (data.take (4 - align))
      have hz : le (List.replicate align 0) = 0#32 := by
        obtain h1 | h1 | h1 : align = 1 ∨ align = 2 ∨ align = 3 := by omega
        all_goals subst h1; rfl
      rw [hz, BitVec.zero_or, List.length_replicate] at this
      rw [← this, le_shift _ _ (by simp; omega)]
      congr 1
      rw [List.drop_append, List.drop_of_length_le (by simp)]
      simp
    obtain ⟨p', e1, e2, e3, e4⟩ := alignedWords_spec align (by omega) ha (data.drop (4 - align)) h
      (orBytes (data.take (4 - align)) <<< (8 * align)) (data.take (4 - align)) (by simp; omega) hpre
    rw [List.take_append_drop] at e4
    generalize alignedWords (8 * (4 - align)) (8 * align) h (orBytes (data.take (4 - align)) <<< (8 * align)) (data.drop (4 - align)) = aw at *
    obtain ⟨h', t', rest⟩ := aw
    dsimp only at *
    rw [e4]
    by_cases hr : align ≤ rest.length
    · rw [if_pos hr, words_step, if_pos (by simp; omega)]
      rw [words_short _ _ (by simp; omega)]
      dsimp only
      have hmix : t' >>> (8 * align) ||| orBytes (rest.take align) <<< (8 * (4 - align)) = le (p' ++ rest) := by
        rw [e2, orBytes_eq _ (by simp; omega), ← e1, ← le_append, ← le_take (p' ++ rest), List.take_append, List.take_of_length_le (l := p') (by omega)]
        rw [show 4 - p'.length = align by omega]
      rw [hmix, List.drop_append, List.drop_of_length_le (l := p') (by omega), List.nil_append, show 4 - p'.length = align by omega]
    · rw [if_neg hr, words_short _ _ (by simp; omega)]
      dsimp only
      rw [tail_eq _ _ (by simp; omega), if_neg, e2, orBytes_eq _ e3, ← e1, ← le_append]
      intro hnil
      have := congrArg List.length hnil
      rw [List.length_append, List.length_nil] at this
      omega
  · rw [if_neg hc]

/-! Non-trivial cases: pieces that end inside a word, and a message at each alignment. -/

example : end_ ([[1, 2], [3, 4, 5, 6, 7, 8], [], [9]].foldl add (begin_ 7#32)) = murmur2A [1, 2, 3, 4, 5, 6, 7, 8, 9] 7#32 := by decide +kernel
example : murmur2A [1, 2, 3, 4, 5, 6, 7, 8, 9] 7#32 ≠ murmur2A [1, 2, 3, 4, 5, 6, 7, 8] 7#32 := by decide +kernel
example : aligned2 3 [1, 2, 3, 4, 5, 6, 7, 8, 9] 7#32 = murmur2 [1, 2, 3, 4, 5, 6, 7, 8, 9] 7#32 := by decide +kernel

end Kunlun.Murmur
