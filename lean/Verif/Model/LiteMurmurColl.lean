import Verif.Model.LiteMurmurMerge
import Mathlib.Data.Fintype.Basic
/-! Collisions of `LiteMurmurHash` (utility/murmurhash3.hpp:342-383): helper lemmas for C110. -/

namespace Kunlun.LiteMurmur

open Kunlun

theorem word_leBytes (a : UInt32) : word (leBytes 4 a.toNat) = a := by
  unfold word
  rw [ofLE_leBytes 4 _ (by have := a.toNat_lt; omega)]
  simp

theorem leBytes_word (x : Bytes) (h : x.length = 4) : leBytes 4 (word x).toNat = x := by
  unfold word
  have := ofLE_lt x
  rw [h] at this
  rw [UInt32.toNat_ofNat_of_lt' (by simpa [UInt32.size] using this)]
  have e := leBytes_ofLE x
  rwa [h] at e

theorem leBytes_length (n v : Nat) : (leBytes n v).length = n := by
  induction n generalizing v with
  | zero => rfl
  | succ n ih => simp [leBytes, ih]

theorem groups_append8 (d : UInt32) (x y rest : Bytes) (hx : x.length = 4) (hy : y.length = 4) :
    groups d (x ++ y ++ rest) = groups (step d (word x) (word y)) rest := by
  obtain ⟨a, b, c, e, rfl⟩ : ∃ a b c e, x = [a, b, c, e] := by
    match x, hx with
    | [a, b, c, e], _ => exact ⟨a, b, c, e, rfl⟩
  obtain ⟨a', b', c', e', rfl⟩ : ∃ a b c e, y = [a, b, c, e] := by
    match y, hy with
    | [a, b, c, e], _ => exact ⟨a, b, c, e, rfl⟩
  simp [groups, step]

theorem hash_append8 (d : UInt32) (x y rest : Bytes) (hx : x.length = 4) (hy : y.length = 4) :
    hash d (x ++ y ++ rest) = hash (step d (word x) (word y)) rest := by
  unfold hash
  rw [groups_append8 d x y rest hx hy]

/-- The second word that, after the first word `a'`, leads from the state `d` to the state `e`. -/
def second (d a' e : UInt32) : UInt32 :=
  ((~~~(e ^^^ (d ^^^ ((d <<< 7) ^^^ (a' * (d >>> 3)))))) - (d <<< 11)) ^^^ (d >>> 5)

theorem step_second (d a' e : UInt32) : step d a' (second d a' e) = e := by
  unfold step second
  generalize d <<< 7 ^^^ a' * (d >>> 3) = u
  generalize d <<< 11 = s
  generalize d >>> 5 = q
  rw [UInt32.xor_assoc (~~~(e ^^^ (d ^^^ u)) - s) q q]
  simp only [UInt32.xor_self, UInt32.xor_zero]
  rw [UInt32.add_comm, UInt32.sub_add_cancel, UInt32.not_not]
  rw [show d ^^^ (u ^^^ (e ^^^ (d ^^^ u))) = e ^^^ ((d ^^^ u) ^^^ (d ^^^ u)) by ac_rfl]
  simp

theorem second_step (d a b : UInt32) : second d a (step d a b) = b := by
  unfold step second
  generalize d <<< 7 ^^^ a * (d >>> 3) = u
  generalize d <<< 11 = s
  generalize d >>> 5 = q
  generalize ht : s + (b ^^^ q) = t
  rw [show d ^^^ (u ^^^ ~~~t) ^^^ (d ^^^ u) = ~~~t ^^^ ((d ^^^ u) ^^^ (d ^^^ u)) by ac_rfl]
  simp only [UInt32.xor_self, UInt32.xor_zero, UInt32.not_not]
  rw [← ht, UInt32.add_comm, UInt32.add_sub_cancel, UInt32.xor_assoc]
  simp

theorem step_inj_second (d a : UInt32) {b b' : UInt32} (h : step d a b = step d a b') : b = b' := by
  rw [← second_step d a b, h, second_step]

/-- Another key with the same hash for the state `d`: first word `a'`, a second word to match, and the rest of `m`. -/
def twin (d : UInt32) (m : Bytes) (a' : UInt32) : Bytes :=
  leBytes 4 a'.toNat ++ leBytes 4 (second d a' (step d (word (m.take 4)) (word ((m.drop 4).take 4)))).toNat ++ m.drop 8

theorem split8 (m : Bytes) (h : 8 ≤ m.length) :
    m = m.take 4 ++ (m.drop 4).take 4 ++ m.drop 8 ∧ (m.take 4).length = 4 ∧ ((m.drop 4).take 4).length = 4 := by
  refine ⟨?_, by simp; omega, by simp; omega⟩
  rw [List.append_assoc, show m.drop 8 = (m.drop 4).drop 4 by rw [List.drop_drop], List.take_append_drop, List.take_append_drop]

theorem hash_twin (d : UInt32) (m : Bytes) (h : 8 ≤ m.length) (a' : UInt32) : hash d (twin d m a') = hash d m := by
  obtain ⟨e, l1, l2⟩ := split8 m h
  conv_rhs => rw [e, hash_append8 d _ _ _ l1 l2]
  unfold twin
  rw [hash_append8 d _ _ _ (leBytes_length _ _) (leBytes_length _ _), word_leBytes, word_leBytes, step_second]

theorem twin_length (d : UInt32) (m : Bytes) (h : 8 ≤ m.length) (a' : UInt32) : (twin d m a').length = m.length := by
  simp [twin, leBytes_length]
  omega

theorem twin_inj (d : UInt32) (m : Bytes) : Function.Injective (twin d m) := by
  intro a b h
  have := congrArg (fun x => word (x.take 4)) h
  simpa [twin, leBytes_length, List.take_append, word_leBytes] using this

theorem twin_self (d : UInt32) (m : Bytes) (h : 8 ≤ m.length) : twin d m (word (m.take 4)) = m := by
  obtain ⟨e, l1, l2⟩ := split8 m h
  unfold twin
  have : second d (word (m.take 4)) (step d (word (m.take 4)) (word ((m.drop 4).take 4))) = word ((m.drop 4).take 4) :=
    step_inj_second d _ (step_second d _ _)
  rw [this, leBytes_word _ l1, leBytes_word _ l2]
  exact e.symm

/-- The bytes of a string of groups. -/
def blocksBytes : List (Nat × Nat) → Bytes
  | [] => []
  | (a, b) :: l => leBytes 4 a ++ leBytes 4 b ++ blocksBytes l

theorem hash_blocks (l : List (Nat × Nat)) (hl : ∀ p ∈ l, p.1 < 2 ^ 32 ∧ p.2 < 2 ^ 32) (d : UInt32) (z : Bytes) :
    hash d (blocksBytes l ++ z) = hash (UInt32.ofNat (go d.toNat l)) z := by
  induction l generalizing d with
  | nil => simp [blocksBytes, go]
  | cons p l ih =>
    obtain ⟨a, b⟩ := p
    obtain ⟨ha, hb⟩ := hl (a, b) (by simp)
    simp only [blocksBytes, go]
    rw [List.append_assoc, hash_append8 d _ _ _ (leBytes_length _ _) (leBytes_length _ _), ih (fun p hp => hl p (by simp [hp])), stepN_eq]
    have ea : (UInt32.ofNat a).toNat = a := UInt32.toNat_ofNat_of_lt' (by simpa [UInt32.size] using ha)
    have eb : (UInt32.ofNat b).toNat = b := UInt32.toNat_ofNat_of_lt' (by simpa [UInt32.size] using hb)
    have wa : word (leBytes 4 a) = UInt32.ofNat a := by rw [← ea, word_leBytes, ea]
    have wb : word (leBytes 4 b) = UInt32.ofNat b := by rw [← eb, word_leBytes, eb]
    rw [wa, wb, ea, eb]

theorem merge_lt : ∀ p ∈ merge, p.1 < 2 ^ 32 ∧ p.2 < 2 ^ 32 := by
  have : merge.all (fun p => decide (p.1 < 2 ^ 32) && decide (p.2 < 2 ^ 32)) = true := by decide +kernel
  simpa using this

/-- Whole groups are absorbed into the state. -/
theorem hash_prefix (n : Nat) (p : Bytes) (h : p.length = 8 * n) : ∀ d, ∃ e, ∀ z, hash d (p ++ z) = hash e z := by
  induction n generalizing p with
  | zero =>
    intro d
    have : p = [] := List.length_eq_zero_iff.mp (by omega)
    exact ⟨d, fun z => by rw [this]; rfl⟩
  | succ n ih =>
    intro d
    obtain ⟨e, l1, l2⟩ := split8 p (by omega)
    obtain ⟨e', he⟩ := ih (p.drop 8) (by simp; omega) (step d (word (p.take 4)) (word ((p.drop 4).take 4)))
    refine ⟨e', fun z => ?_⟩
    conv_lhs => rw [e, List.append_assoc, hash_append8 d _ _ _ l1 l2]
    exact he z

/-- For every salt, the last four bytes of a key (of a length divisible by four) can be recovered from its hash value and the bytes before. -/
theorem last_word_inj (d : UInt32) (p : Bytes) (h : p.length % 4 = 0) {x y : Bytes} (hx : x.length = 4) (hy : y.length = 4)
    (e : hash d (p ++ x) = hash d (p ++ y)) : x = y := by
  have key : word x = word y → x = y := fun hw => by rw [← leBytes_word x hx, hw, leBytes_word y hy]
  have h4 : ∀ x : Bytes, x.length = 4 → ∃ a b c e, x = [a, b, c, e] := by
    intro x hx
    match x, hx with
    | [a, b, c, e], _ => exact ⟨a, b, c, e, rfl⟩
  by_cases h8 : p.length % 8 = 0
  · obtain ⟨d', hd⟩ := hash_prefix (p.length / 8) p (by omega) d
    rw [hd, hd] at e
    have ev : ∀ z : Bytes, z.length = 4 → hash d' z = d' ^^^ (~~~((d' <<< 11) + (word z ^^^ (d' >>> 5)))) := by
      intro z hz
      obtain ⟨a, b, c, e, rfl⟩ := h4 z hz
      rfl
    rw [ev x hx, ev y hy] at e
    apply key
    have := congrArg (fun t => ((~~~(d' ^^^ t)) - (d' <<< 11)) ^^^ (d' >>> 5)) e
    have cancel : ∀ b : UInt32, ((~~~(d' ^^^ (d' ^^^ (~~~((d' <<< 11) + (b ^^^ (d' >>> 5))))))) - (d' <<< 11)) ^^^ (d' >>> 5) = b := by
      intro b
      generalize d' <<< 11 = s
      generalize d' >>> 5 = q
      rw [← UInt32.xor_assoc, UInt32.xor_self, UInt32.zero_xor, UInt32.not_not, UInt32.add_comm, UInt32.add_sub_cancel, UInt32.xor_assoc]
      simp
    simpa only [cancel] using this
  · obtain ⟨d', hd⟩ := hash_prefix (p.length / 8) (p.take (8 * (p.length / 8))) (by simp; omega) d
    have sp : ∀ z, hash d (p ++ z) = hash d' (p.drop (8 * (p.length / 8)) ++ z) := by
      intro z
      rw [← hd, ← List.append_assoc, List.take_append_drop]
    have hq : (p.drop (8 * (p.length / 8))).length = 4 := by simp; omega
    rw [sp, sp] at e
    have ev : ∀ z : Bytes, z.length = 4 → hash d' (p.drop (8 * (p.length / 8)) ++ z) = step d' (word (p.drop (8 * (p.length / 8)))) (word z) := by
      intro z hz
      have := hash_append8 d' _ z [] hq hz
      rw [List.append_nil] at this
      rw [this]
      rfl
    rw [ev x hx, ev y hy] at e
    exact key (step_inj_second _ _ e)

/-- The four bytes that, as the group before the ending, lead from the state `d` to the state `e`. -/
def fourth (d e : UInt32) : Bytes := leBytes 4 ((((~~~(d ^^^ e)) - (d <<< 11)) ^^^ (d >>> 5))).toNat

theorem tail_fourth (d e : UInt32) : d ^^^ (~~~((d <<< 11) + (word (fourth d e) ^^^ (d >>> 5)))) = e := by
  unfold fourth
  rw [word_leBytes]
  generalize d <<< 11 = s
  generalize d >>> 5 = q
  rw [UInt32.xor_assoc _ q q, UInt32.xor_self, UInt32.xor_zero, UInt32.add_comm, UInt32.sub_add_cancel, UInt32.not_not, ← UInt32.xor_assoc, UInt32.xor_self,
    UInt32.zero_xor]

theorem hash_six (d e : UInt32) (a b : UInt8) :
    hash d (fourth d e ++ [a, b]) = e ^^^ ((e <<< 7) ^^^ (word [a, b] * (e >>> 3))) := by
  have hl : (fourth d e).length = 4 := leBytes_length _ _
  have ht := tail_fourth d e
  generalize fourth d e = x at *
  match x, hl with
  | [x0, x1, x2, x3], _ =>
    show (tail1 (tail2 (d ^^^ (~~~((d <<< 11) + (word [x0, x1, x2, x3] ^^^ (d >>> 5))))) (0 + 1) [a, b]).1 (0 + 1 + 1) []) = _
    rw [ht]
    rfl

theorem hash_seven (d : UInt32) (a b c : UInt8) : hash d (fourth d 0 ++ [a, b, c]) = word [c] + 2 := by
  have hl : (fourth d 0).length = 4 := leBytes_length _ _
  have ht := tail_fourth d 0
  generalize fourth d 0 = x at *
  match x, hl with
  | [x0, x1, x2, x3], _ =>
    show (tail1 (tail2 (d ^^^ (~~~((d <<< 11) + (word [x0, x1, x2, x3] ^^^ (d >>> 5))))) (0 + 1) [a, b]).1 (0 + 1 + 1) [c]) = _
    rw [ht]
    have : (tail2 0 (0 + 1) [a, b]).1 = 0 := by simp [tail2]
    rw [this]
    simp [tail1]

end Kunlun.LiteMurmur
