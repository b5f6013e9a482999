import Verif.Model.Murmur3
import Verif.Model.Murmur
import Verif.Model.Murmur64
import Mathlib.Data.Finite.Prod
/-!
C119: the hash functions of the filters and maps are easy to invert.
-/

namespace Kunlun.Murmur3

open Kunlun Function

instance (w : Nat) : Finite (BitVec w) := Finite.of_injective BitVec.toFin fun _ _ h => BitVec.eq_of_toFin_eq h
instance : Finite S4 := Finite.of_injective (fun s : S4 => (s.h1, s.h2, s.h3, s.h4)) fun a b h => by
  cases a; cases b; simp only [Prod.mk.injEq] at h; obtain ⟨rfl, rfl, rfl, rfl⟩ := h; rfl
instance (w : Nat) : Finite (S2 w) := Finite.of_injective (fun s : S2 w => (s.h1, s.h2)) fun a b h => by
  cases a; cases b; simp only [Prod.mk.injEq] at h; obtain ⟨rfl, rfl⟩ := h; rfl

/-! ### Steps that can be undone -/

theorem mul_bij {w : Nat} (c i : BitVec w) (h : c * i = 1#w) : Bijective (fun x : BitVec w => x * c) := by
  refine bijective_iff_has_inverse.2 ⟨fun x => x * i, ?_, ?_⟩
  · intro x
    show x * c * i = x
    rw [BitVec.mul_assoc, h, BitVec.mul_one]
  · intro x
    show x * i * c = x
    rw [BitVec.mul_assoc, BitVec.mul_comm i, h, BitVec.mul_one]

theorem xor_bij {w : Nat} (k : BitVec w) : Bijective (fun x : BitVec w => x ^^^ k) :=
  Involutive.bijective fun x => by show x ^^^ k ^^^ k = x; rw [BitVec.xor_assoc, BitVec.xor_self, BitVec.xor_zero]

theorem xor_bij' {w : Nat} (k : BitVec w) : Bijective (fun x : BitVec w => k ^^^ x) := by
  have : (fun x : BitVec w => k ^^^ x) = fun x => x ^^^ k := funext fun x => BitVec.xor_comm _ _
  rw [this]
  exact xor_bij k

theorem add_bij {w : Nat} (k : BitVec w) : Bijective (fun x : BitVec w => x + k) := by
  refine bijective_iff_has_inverse.2 ⟨fun x => x - k, fun x => BitVec.add_sub_cancel _ _, fun x => BitVec.sub_add_cancel _ _⟩

theorem not_bij {w : Nat} : Bijective (fun x : BitVec w => ~~~x) := Involutive.bijective fun x => BitVec.not_not

/-- `h ^= h >> k` -/
theorem shift_bij {w : Nat} (k : Nat) (hk : 0 < k) : Bijective (fun x : BitVec w => x ^^^ (x >>> k)) := by
  refine Finite.injective_iff_bijective.1 fun x y h => ?_
  have key : ∀ d i, w - i ≤ d → x.getLsbD i = y.getLsbD i := by
    intro d
    induction d with
    | zero =>
      intro i hi
      rw [BitVec.getLsbD_of_ge x i (by omega), BitVec.getLsbD_of_ge y i (by omega)]
    | succ d ih =>
      intro i hi
      by_cases hw : w ≤ i
      · rw [BitVec.getLsbD_of_ge x i hw, BitVec.getLsbD_of_ge y i hw]
      have h1 : (x ^^^ (x >>> k)).getLsbD i = (y ^^^ (y >>> k)).getLsbD i := by rw [show x ^^^ (x >>> k) = y ^^^ (y >>> k) from h]
      simp only [BitVec.getLsbD_xor, BitVec.getLsbD_ushiftRight] at h1
      rw [ih (k + i) (by omega)] at h1
      revert h1
      cases x.getLsbD i <;> cases y.getLsbD i <;> cases y.getLsbD (k + i) <;> simp
  exact BitVec.eq_of_getLsbD_eq fun i _ => key _ i le_rfl

theorem rotl_bij {w : Nat} (r : Nat) (hr : 0 < r) (hw : r < w) : Bijective (fun x : BitVec w => rotl x r) := by
  refine Finite.injective_iff_bijective.1 fun x y h => BitVec.eq_of_getLsbD_eq fun i hi => ?_
  have h1 : ∀ j, (rotl x r).getLsbD j = (rotl y r).getLsbD j := fun j => by rw [show rotl x r = rotl y r from h]
  simp only [rotl, BitVec.getLsbD_or, BitVec.getLsbD_shiftLeft, BitVec.getLsbD_ushiftRight] at h1
  by_cases hc : i + r < w
  · have := h1 (i + r)
    rw [BitVec.getLsbD_of_ge x (w - r + (i + r)) (by omega), BitVec.getLsbD_of_ge y (w - r + (i + r)) (by omega)] at this
    have l : ¬ i + r < r := by omega
    simpa [hc, l] using this
  · have := h1 (i + r - w)
    have e : w - r + (i + r - w) = i := by omega
    have l : i + r - w < r := by omega
    rw [e] at this
    simpa [l] using this

theorem scramble_bij {w : Nat} (c c' i i' : BitVec w) (r : Nat) (h : c * i = 1#w) (h' : c' * i' = 1#w) (hr : 0 < r) (hw : r < w) :
    Bijective (scramble c c' r) := (mul_bij c' i' h').comp ((rotl_bij r hr hw).comp (mul_bij c i h))

theorem fmix32_bij : Bijective fmix32 :=
  (shift_bij 16 (by decide)).comp ((mul_bij _ 0x7ed1b41d#32 (by decide)).comp ((shift_bij 13 (by decide)).comp
    ((mul_bij _ 0xa5cb9243#32 (by decide)).comp (shift_bij 16 (by decide)))))

theorem fmix64_bij : Bijective fmix64 :=
  (shift_bij 33 (by decide)).comp ((mul_bij _ 0x9cb4b2f8129337db#64 (by decide)).comp ((shift_bij 33 (by decide)).comp
    ((mul_bij _ 0x4f74430c22a54005#64 (by decide)).comp (shift_bij 33 (by decide)))))

theorem rest_bij {w : Nat} (mix : BitVec w → BitVec w) (t : Bytes) (o n : Nat) : Bijective (fun h => rest mix h t o n) := by
  unfold rest
  by_cases hb : (t.drop o).take n = []
  · simp only [hb, if_true]
    exact bijective_id
  · simp only [hb, if_false]
    exact xor_bij _

/-- Words and their bytes. -/
theorem load_bij {w n : Nat} (h : w = 8 * n) (k : BitVec w) : ∃! b : Bytes, b.length = n ∧ load b = k := by
  have e : 256 ^ n = 2 ^ w := by rw [h, pow_mul, show (2 : Nat) ^ 8 = 256 from rfl]
  refine ⟨leBytes n k.toNat, ⟨by simp, ?_⟩, ?_⟩
  · show BitVec.ofNat w (ofLE (leBytes n k.toNat)) = k
    rw [ofLE_leBytes n k.toNat (by rw [e]; exact k.isLt), BitVec.ofNat_toNat, BitVec.setWidth_eq]
  · rintro b ⟨hb, rfl⟩
    have hlt := ofLE_lt b
    have h8 := leBytes_ofLE b
    rw [hb, e] at hlt
    rw [hb] at h8
    show b = leBytes n (BitVec.ofNat w (ofLE b)).toNat
    rw [BitVec.toNat_ofNat, Nat.mod_eq_of_lt hlt, h8]

/-- A word read through a bijection takes every value once. -/
theorem load_unique {w n : Nat} (h : w = 8 * n) (f : BitVec w → BitVec w) (hf : Bijective f) (k : BitVec w) :
    ∃! b : Bytes, b.length = n ∧ f (load b) = k := by
  obtain ⟨x, hx, hu⟩ := hf.existsUnique k
  obtain ⟨b, ⟨hb, hl⟩, hub⟩ := load_bij h x
  refine ⟨b, ⟨hb, by rw [hl]; exact hx⟩, ?_⟩
  rintro b' ⟨hb', hl'⟩
  exact hub b' ⟨hb', hu _ hl'⟩

/-! ### Loops over groups -/

theorem groups_rest {S : Type} (B : Nat) (round : S → Bytes → S) (n : Nat) (h h' : S) (l : Bytes) :
    (groups B round n h l).2 = (groups B round n h' l).2 := by
  induction n generalizing h h' l with
  | zero => rfl
  | succ n ih => exact ih _ _ _

theorem groups_bij {S : Type} (B : Nat) (round : S → Bytes → S) (hr : ∀ b, Bijective fun h => round h b) (n : Nat) (l : Bytes) :
    Bijective (fun h => (groups B round n h l).1) := by
  induction n generalizing l with
  | zero => exact bijective_id
  | succ n ih => exact (ih (l.drop B)).comp (hr _)

theorem groups_add {S : Type} (B : Nat) (round : S → Bytes → S) (n n' : Nat) (h : S) (l : Bytes) :
    groups B round (n + n') h l = groups B round n' (groups B round n h l).1 (groups B round n h l).2 := by
  induction n generalizing h l with
  | zero => rw [Nat.zero_add]; rfl
  | succ n ih => rw [show n + 1 + n' = (n + n') + 1 by omega]; exact ih _ _

theorem groups_append {S : Type} (B : Nat) (round : S → Bytes → S) (n : Nat) (h : S) (p s : Bytes) (hp : p.length = B * n) :
    groups B round n h (p ++ s) = ((groups B round n h p).1, s) := by
  induction n generalizing h p with
  | zero =>
    obtain rfl : p = [] := List.length_eq_zero_iff.1 (by omega)
    rfl
  | succ n ih =>
    have hB : B ≤ p.length := by rw [hp, Nat.mul_succ]; omega
    have e : (p ++ s).take B = p.take B := List.take_append_of_le_length hB
    have e' : (p ++ s).drop B = p.drop B ++ s := List.drop_append_of_le_length hB
    show groups B round n (round h ((p ++ s).take B)) ((p ++ s).drop B) = _
    rw [e, e', ih _ _ (by rw [List.length_drop, hp, Nat.mul_succ]; omega)]
    rfl

/-- A hash that goes over groups of `B` bytes with steps that can be undone takes every value for exactly one content of any one group. -/
theorem group_unique {S T : Type} (B : Nat) (hB : 0 < B) (round : S → Bytes → S) (init : Nat → S) (fin : Nat → S → Bytes → T)
    (hr : ∀ b, Bijective fun h => round h b) (hw : ∀ h h', ∃! b : Bytes, b.length = B ∧ round h b = h')
    (hf : ∀ n t, Bijective fun h => fin n h t) (p s : Bytes) (hp : p.length % B = 0) (target : T) :
    ∃! w : Bytes, w.length = B ∧ (let l := p ++ (w ++ s)
      let r := groups B round (l.length / B) (init l.length) l
      fin l.length r.1 r.2) = target := by
  obtain ⟨n, hn⟩ : ∃ n, p.length = B * n := ⟨p.length / B, by have := Nat.div_add_mod p.length B; omega⟩
  set N := p.length + B + s.length with hN
  have key : ∀ w : Bytes, w.length = B → groups B round ((p ++ (w ++ s)).length / B) (init N) (p ++ (w ++ s)) =
      groups B round (s.length / B) (round (groups B round n (init N) p).1 w) s := by
    intro w hw
    have e : (p ++ (w ++ s)).length / B = n + (1 + s.length / B) := by
      simp only [List.length_append, hn, hw]
      rw [Nat.mul_add_div hB, Nat.add_div_left _ hB]
      omega
    rw [e, groups_add, groups_append B round n _ p _ hn, groups_add, groups_append B round 1 _ w s (by omega)]
    have e3 : (groups B round 1 (groups B round n (init N) p).1 w).1 = round (groups B round n (init N) p).1 w := by
      show round _ (w.take B) = _
      rw [List.take_of_length_le (by omega)]
    simp only [e3]
  have hl : ∀ w : Bytes, w.length = B → (p ++ (w ++ s)).length = N := by
    intro w hw
    simp only [List.length_append, hw]
    omega
  obtain ⟨h2, hh2, hu2⟩ := (hf N (groups B round (s.length / B) (init N) s).2).existsUnique target
  obtain ⟨h1, hh1, hu1⟩ := (groups_bij B round hr (s.length / B) s).existsUnique h2
  obtain ⟨w, ⟨hwl, hwr⟩, huw⟩ := hw (groups B round n (init N) p).1 h1
  have val : ∀ w : Bytes, w.length = B → (let l := p ++ (w ++ s)
      let r := groups B round (l.length / B) (init l.length) l
      fin l.length r.1 r.2) = fin N (groups B round (s.length / B) (round (groups B round n (init N) p).1 w) s).1
        (groups B round (s.length / B) (init N) s).2 := by
    intro w hw
    have k := key w hw
    simp only
    rw [hl w hw] at k ⊢
    rw [k, groups_rest B round (s.length / B) _ (init N) s]
  refine ⟨w, ⟨hwl, ?_⟩, ?_⟩
  · rw [val w hwl, hwr]
    have : (groups B round (s.length / B) h1 s).1 = h2 := hh1
    rw [this]
    exact hh2
  · rintro w' ⟨hwl', hv'⟩
    rw [val w' hwl'] at hv'
    exact huw w' ⟨hwl', hu1 _ (hu2 _ hv')⟩

/-! ### The four functions -/

theorem mix32_bij : Bijective (scramble 0xcc9e2d51#32 0x1b873593#32 15) :=
  scramble_bij _ _ 0xdee13bb1#32 0x56ed309b#32 15 (by decide) (by decide) (by decide) (by decide)

theorem five_add_bij {w : Nat} (i : BitVec w) (h : BitVec.ofNat w 5 * i = 1#w) (c : BitVec w) : Bijective (fun x : BitVec w => x * BitVec.ofNat w 5 + c) :=
  (add_bij c).comp (mul_bij _ i h)

/-- **C119** `MurmurHash3_x86_32`: whatever stands before and after an aligned word and whatever the seed, exactly one value of the word gives a wanted hash value. -/
theorem murmur3_32_word (p s : Bytes) (hp : p.length % 4 = 0) (seed target : W) : ∃! w : Bytes, w.length = 4 ∧ x86_32 (p ++ (w ++ s)) seed = target := by
  have five : (5#32 : W) * 0xcccccccd#32 = 1#32 := by decide
  refine group_unique 4 (by decide) round32 (fun _ => seed) (fun n h t => fmix32 (rest (scramble 0xcc9e2d51#32 0x1b873593#32 15) h t 0 3 ^^^ BitVec.ofNat 32 n))
    (fun b => ?_) (fun h h' => ?_) (fun n t => fmix32_bij.comp ((xor_bij _).comp (rest_bij _ t 0 3))) p s hp target
  · exact (five_add_bij _ five _).comp ((rotl_bij 13 (by decide) (by decide)).comp (xor_bij _))
  · exact load_unique (by decide) (fun k => rotl (h ^^^ scramble 0xcc9e2d51#32 0x1b873593#32 15 k) 13 * 5#32 + 0xe6546b64#32)
      ((five_add_bij _ five _).comp ((rotl_bij 13 (by decide) (by decide)).comp ((xor_bij' h).comp mix32_bij))) h'

/-! #### 128 bits, 32-bit words -/

theorem mixA_bij : Bijective mixA := scramble_bij _ _ 0x89c95413#32 0xdf130eb9#32 15 (by decide) (by decide) (by decide) (by decide)
theorem mixB_bij : Bijective mixB := scramble_bij _ _ 0xdf130eb9#32 0x747862ed#32 16 (by decide) (by decide) (by decide) (by decide)
theorem mixC_bij : Bijective mixC := scramble_bij _ _ 0x747862ed#32 0x58d64a9b#32 17 (by decide) (by decide) (by decide) (by decide)
theorem mixD_bij : Bijective mixD := scramble_bij _ _ 0x58d64a9b#32 0x89c95413#32 18 (by decide) (by decide) (by decide) (by decide)
theorem mixE_bij : Bijective mixE := scramble_bij _ _ 0xa98409e882ce4d7d#64 0xa81e14edd9de2c7f#64 31 (by decide) (by decide) (by decide) (by decide)
theorem mixF_bij : Bijective mixF := scramble_bij _ _ 0xa81e14edd9de2c7f#64 0xa98409e882ce4d7d#64 33 (by decide) (by decide) (by decide) (by decide)

theorem five32 : (BitVec.ofNat 32 5) * 0xcccccccd#32 = 1#32 := by decide
theorem five64 : (BitVec.ofNat 64 5) * 0xcccccccccccccccd#64 = 1#64 := by decide

/-- One line of the loops over 16 bytes as a function of the state word. -/
theorem line_bij {w : Nat} (i : BitVec w) (h5 : BitVec.ofNat w 5 * i = 1#w) (r : Nat) (hr : 0 < r) (hw : r < w) (k a c : BitVec w) :
    Bijective (fun h : BitVec w => (rotl (h ^^^ k) r + a) * BitVec.ofNat w 5 + c) :=
  (five_add_bij i h5 c).comp ((add_bij a).comp ((rotl_bij r hr hw).comp (xor_bij k)))

/-- And as a function of the word read. -/
theorem line_bij' {w : Nat} (i : BitVec w) (h5 : BitVec.ofNat w 5 * i = 1#w) (r : Nat) (hr : 0 < r) (hw : r < w) (h a c : BitVec w) (mix : BitVec w → BitVec w)
    (hm : Bijective mix) : Bijective (fun k : BitVec w => (rotl (h ^^^ mix k) r + a) * BitVec.ofNat w 5 + c) :=
  (five_add_bij i h5 c).comp ((add_bij a).comp ((rotl_bij r hr hw).comp ((xor_bij' h).comp hm)))

/-- Four words from sixteen bytes. -/
theorem four_unique (f1 f2 f3 f4 : W → W) (b1 : Bijective f1) (b2 : Bijective f2) (b3 : Bijective f3) (b4 : Bijective f4) (t1 t2 t3 t4 : W) :
    ∃! b : Bytes, b.length = 16 ∧ f1 (load (b.take 4)) = t1 ∧ f2 (load ((b.drop 4).take 4)) = t2 ∧ f3 (load ((b.drop 8).take 4)) = t3 ∧
      f4 (load ((b.drop 12).take 4)) = t4 := by
  obtain ⟨w1, ⟨l1, e1⟩, u1⟩ := load_unique (n := 4) rfl f1 b1 t1
  obtain ⟨w2, ⟨l2, e2⟩, u2⟩ := load_unique (n := 4) rfl f2 b2 t2
  obtain ⟨w3, ⟨l3, e3⟩, u3⟩ := load_unique (n := 4) rfl f3 b3 t3
  obtain ⟨w4, ⟨l4, e4⟩, u4⟩ := load_unique (n := 4) rfl f4 b4 t4
  have d1 : (w1 ++ (w2 ++ (w3 ++ w4))).drop 4 = w2 ++ (w3 ++ w4) := by rw [List.drop_append_of_le_length (by omega), List.drop_of_length_le (by omega), List.nil_append]
  have d2 : (w1 ++ (w2 ++ (w3 ++ w4))).drop 8 = w3 ++ w4 := by
    rw [show 8 = 4 + 4 from rfl, ← List.drop_drop, d1, List.drop_append_of_le_length (by omega), List.drop_of_length_le (by omega), List.nil_append]
  have d3 : (w1 ++ (w2 ++ (w3 ++ w4))).drop 12 = w4 := by
    rw [show 12 = 8 + 4 from rfl, ← List.drop_drop, d2, List.drop_append_of_le_length (by omega), List.drop_of_length_le (by omega), List.nil_append]
  refine ⟨w1 ++ (w2 ++ (w3 ++ w4)), ⟨by simp only [List.length_append]; omega, ?_, ?_, ?_, ?_⟩, ?_⟩
  · rw [List.take_append_of_le_length (by omega), List.take_of_length_le (by omega), e1]
  · rw [d1, List.take_append_of_le_length (by omega), List.take_of_length_le (by omega), e2]
  · rw [d2, List.take_append_of_le_length (by omega), List.take_of_length_le (by omega), e3]
  · rw [d3, List.take_of_length_le (by omega), e4]
  · rintro b ⟨hb, q1, q2, q3, q4⟩
    have r1 := u1 (b.take 4) ⟨by simp; omega, q1⟩
    have r2 := u2 ((b.drop 4).take 4) ⟨by simp; omega, q2⟩
    have r3 := u3 ((b.drop 8).take 4) ⟨by simp; omega, q3⟩
    have r4 := u4 ((b.drop 12).take 4) ⟨by simp; omega, q4⟩
    rw [← r1, ← r2, ← r3, ← r4, List.take_of_length_le (i := 4) (l := b.drop 12) (by simp; omega)]
    have h3 : (b.drop 8).take 4 ++ b.drop 12 = b.drop 8 := by
      rw [show 12 = 8 + 4 from rfl, ← List.drop_drop, List.take_append_drop]
    have h2 : (b.drop 4).take 4 ++ b.drop 8 = b.drop 4 := by
      rw [show 8 = 4 + 4 from rfl, ← List.drop_drop, List.take_append_drop]
    rw [h3, h2, List.take_append_drop]

/-- Two words from twice as many bytes. -/
theorem two_unique {w n : Nat} (hn : w = 8 * n) (f1 f2 : BitVec w → BitVec w) (b1 : Bijective f1) (b2 : Bijective f2) (t1 t2 : BitVec w) :
    ∃! b : Bytes, b.length = 2 * n ∧ f1 (load (b.take n)) = t1 ∧ f2 (load ((b.drop n).take n)) = t2 := by
  obtain ⟨w1, ⟨l1, e1⟩, u1⟩ := load_unique hn f1 b1 t1
  obtain ⟨w2, ⟨l2, e2⟩, u2⟩ := load_unique hn f2 b2 t2
  have d1 : (w1 ++ w2).drop n = w2 := by rw [List.drop_append_of_le_length (by omega), List.drop_of_length_le (by omega), List.nil_append]
  refine ⟨w1 ++ w2, ⟨by simp only [List.length_append]; omega, ?_, ?_⟩, ?_⟩
  · rw [List.take_append_of_le_length (by omega), List.take_of_length_le (by omega), e1]
  · rw [d1, List.take_of_length_le (by omega), e2]
  · rintro b ⟨hb, q1, q2⟩
    have r1 := u1 (b.take n) ⟨by simp; omega, q1⟩
    have r2 := u2 ((b.drop n).take n) ⟨by simp; omega, q2⟩
    rw [← r1, ← r2, List.take_of_length_le (i := n) (l := b.drop n) (by simp; omega), List.take_append_drop]

theorem S4.ext' {a b : S4} (h1 : a.h1 = b.h1) (h2 : a.h2 = b.h2) (h3 : a.h3 = b.h3) (h4 : a.h4 = b.h4) : a = b := by
  cases a; cases b; simp only at h1 h2 h3 h4; subst h1 h2 h3 h4; rfl

theorem S2.ext' {w : Nat} {a b : S2 w} (h1 : a.h1 = b.h1) (h2 : a.h2 = b.h2) : a = b := by
  cases a; cases b; simp only at h1 h2; subst h1 h2; rfl

theorem round128_bij (b : Bytes) : Bijective fun s => round128 s b := by
  refine Finite.injective_iff_bijective.1 fun s s' h => ?_
  simp only [round128, S4.mk.injEq] at h
  obtain ⟨e1, e2, e3, e4⟩ := h
  rw [e1] at e4
  have h4 := (line_bij _ five32 13 (by decide) (by decide) _ _ _).1 e4
  rw [h4] at e3
  have h3 := (line_bij _ five32 15 (by decide) (by decide) _ _ _).1 e3
  rw [h3] at e2
  have h2 := (line_bij _ five32 17 (by decide) (by decide) _ _ _).1 e2
  rw [h2] at e1
  exact S4.ext' ((line_bij _ five32 19 (by decide) (by decide) _ _ _).1 e1) h2 h3 h4

theorem round128_word (s t : S4) : ∃! b : Bytes, b.length = 16 ∧ round128 s b = t := by
  obtain ⟨b, ⟨hb, e1, e2, e3, e4⟩, hu⟩ := four_unique _ _ _ _
    (line_bij' _ five32 19 (by decide) (by decide) s.h1 s.h2 0x561ccd1b#32 mixA mixA_bij)
    (line_bij' _ five32 17 (by decide) (by decide) s.h2 s.h3 0x0bcaa747#32 mixB mixB_bij)
    (line_bij' _ five32 15 (by decide) (by decide) s.h3 s.h4 0x96cd1c35#32 mixC mixC_bij)
    (line_bij' _ five32 13 (by decide) (by decide) s.h4 t.h1 0x32ac3b17#32 mixD mixD_bij) t.h1 t.h2 t.h3 t.h4
  refine ⟨b, ⟨hb, S4.ext' e1 e2 e3 ?_⟩, ?_⟩
  · simp only [round128]
    rw [e1]
    exact e4
  · rintro b' ⟨hb', rfl⟩
    exact hu b' ⟨hb', rfl, rfl, rfl, rfl⟩

theorem tail128_bij (t : Bytes) : Bijective fun s => tail128 s t := by
  refine Finite.injective_iff_bijective.1 fun s s' h => ?_
  simp only [tail128, S4.mk.injEq] at h
  exact S4.ext' ((rest_bij _ t 0 4).1 h.1) ((rest_bij _ t 4 4).1 h.2.1) ((rest_bij _ t 8 4).1 h.2.2.1) ((rest_bij _ t 12 3).1 h.2.2.2)

theorem len4_bij (n : W) : Bijective (len4 n) := by
  refine Finite.injective_iff_bijective.1 fun s s' h => ?_
  simp only [len4, S4.mk.injEq] at h
  exact S4.ext' ((xor_bij n).1 h.1) ((xor_bij n).1 h.2.1) ((xor_bij n).1 h.2.2.1) ((xor_bij n).1 h.2.2.2)

theorem fmix4_bij : Bijective fmix4 := by
  refine Finite.injective_iff_bijective.1 fun s s' h => ?_
  simp only [fmix4, S4.mk.injEq] at h
  exact S4.ext' (fmix32_bij.1 h.1) (fmix32_bij.1 h.2.1) (fmix32_bij.1 h.2.2.1) (fmix32_bij.1 h.2.2.2)

theorem spread4_bij : Bijective spread4 := by
  refine Finite.injective_iff_bijective.1 fun s s' h => ?_
  simp only [spread4, S4.mk.injEq] at h
  obtain ⟨e1, e2, e3, e4⟩ := h
  rw [e1] at e2 e3 e4
  have h2 := (add_bij _).1 e2
  have h3 := (add_bij _).1 e3
  have h4 := (add_bij _).1 e4
  rw [h2, h3, h4] at e1
  exact S4.ext' ((add_bij _).1 ((add_bij _).1 ((add_bij _).1 e1))) h2 h3 h4

/-- **C119** `MurmurHash3_x86_128`: the same for any of the groups of sixteen bytes and all 128 bits of the value. -/
theorem murmur3_x86_128_group (p s : Bytes) (hp : p.length % 16 = 0) (seed : W) (target : S4) :
    ∃! w : Bytes, w.length = 16 ∧ x86_128 (p ++ (w ++ s)) seed = target :=
  group_unique 16 (by decide) round128 (fun _ => ⟨seed, seed, seed, seed⟩) (fun n s t => spread4 (fmix4 (spread4 (len4 (BitVec.ofNat 32 n) (tail128 s t)))))
    round128_bij round128_word (fun _ t => spread4_bij.comp (fmix4_bij.comp (spread4_bij.comp ((len4_bij _).comp (tail128_bij t))))) p s hp target

/-! #### 128 bits, 64-bit words -/

theorem round64_bij (b : Bytes) : Bijective fun s => round64 s b := by
  refine Finite.injective_iff_bijective.1 fun s s' h => ?_
  simp only [round64, S2.mk.injEq] at h
  obtain ⟨e1, e2⟩ := h
  rw [e1] at e2
  have h2 := (line_bij _ five64 31 (by decide) (by decide) _ _ _).1 e2
  rw [h2] at e1
  exact S2.ext' ((line_bij _ five64 27 (by decide) (by decide) _ _ _).1 e1) h2

theorem round64_word (s t : S2 64) : ∃! b : Bytes, b.length = 16 ∧ round64 s b = t := by
  obtain ⟨b, ⟨hb, e1, e2⟩, hu⟩ := two_unique (n := 8) rfl _ _
    (line_bij' _ five64 27 (by decide) (by decide) s.h1 s.h2 0x52dce729#64 mixE mixE_bij)
    (line_bij' _ five64 31 (by decide) (by decide) s.h2 t.h1 0x38495ab5#64 mixF mixF_bij) t.h1 t.h2
  refine ⟨b, ⟨hb, S2.ext' e1 ?_⟩, ?_⟩
  · simp only [round64]
    rw [e1]
    exact e2
  · rintro b' ⟨hb', rfl⟩
    exact hu b' ⟨hb', rfl, rfl⟩

theorem tail64_bij (t : Bytes) : Bijective fun s => tail64 s t := by
  refine Finite.injective_iff_bijective.1 fun s s' h => ?_
  simp only [tail64, S2.mk.injEq] at h
  exact S2.ext' ((rest_bij _ t 0 8).1 h.1) ((rest_bij _ t 8 7).1 h.2)

theorem len2_bij (n : D) : Bijective (len2 n) := by
  refine Finite.injective_iff_bijective.1 fun s s' h => ?_
  simp only [len2, S2.mk.injEq] at h
  exact S2.ext' ((xor_bij n).1 h.1) ((xor_bij n).1 h.2)

theorem fmix2_bij : Bijective fmix2 := by
  refine Finite.injective_iff_bijective.1 fun s s' h => ?_
  simp only [fmix2, S2.mk.injEq] at h
  exact S2.ext' (fmix64_bij.1 h.1) (fmix64_bij.1 h.2)

theorem spread2_bij : Bijective spread2 := by
  refine Finite.injective_iff_bijective.1 fun s s' h => ?_
  simp only [spread2, S2.mk.injEq] at h
  obtain ⟨e1, e2⟩ := h
  rw [e1] at e2
  have h2 := (add_bij _).1 e2
  rw [h2] at e1
  exact S2.ext' ((add_bij _).1 e1) h2

/-- **C119** `MurmurHash3_x64_128`. -/
theorem murmur3_x64_128_group (p s : Bytes) (hp : p.length % 16 = 0) (seed : W) (target : S2 64) :
    ∃! w : Bytes, w.length = 16 ∧ x64_128 (p ++ (w ++ s)) seed = target :=
  group_unique 16 (by decide) round64 (fun _ => ⟨seed.setWidth 64, seed.setWidth 64⟩) (fun n s t => spread2 (fmix2 (spread2 (len2 (BitVec.ofNat 64 n) (tail64 s t)))))
    round64_bij round64_word (fun _ t => spread2_bij.comp (fmix2_bij.comp (spread2_bij.comp ((len2_bij _).comp (tail64_bij t))))) p s hp target

/-! #### MurmurHash64B -/

theorem mB_bij : Bijective (fun x : W => x * mB) := mul_bij mB 0xe59b19bd#32 (by decide)

theorem stepB_bij (k : W) : Bijective fun h => stepB h k := (xor_bij _).comp mB_bij

theorem stepB_bij' (h : W) : Bijective (stepB h) := (xor_bij' _).comp (mB_bij.comp ((shift_bij 24 (by decide)).comp mB_bij))

theorem roundB_bij (b : Bytes) : Bijective fun s => roundB s b := by
  refine Finite.injective_iff_bijective.1 fun s s' h => ?_
  simp only [roundB, S2.mk.injEq] at h
  exact S2.ext' ((stepB_bij _).1 h.1) ((stepB_bij _).1 h.2)

theorem roundB_word (s t : S2 32) : ∃! b : Bytes, b.length = 8 ∧ roundB s b = t := by
  obtain ⟨b, ⟨hb, e1, e2⟩, hu⟩ := two_unique (n := 4) rfl _ _ (stepB_bij' s.h1) (stepB_bij' s.h2) t.h1 t.h2
  refine ⟨b, ⟨hb, S2.ext' e1 e2⟩, ?_⟩
  rintro b' ⟨hb', rfl⟩
  exact hu b' ⟨hb', rfl, rfl⟩

theorem foldl_xor_bij {w : Nat} (f : Nat → BitVec w) : ∀ l : List Nat, Bijective (fun h : BitVec w => l.foldl (fun h i => h ^^^ f i) h)
  | [] => bijective_id
  | i :: l => (foldl_xor_bij f l).comp (xor_bij (f i))

theorem tailB_bij (t : Bytes) : Bijective fun s => tailB s t := by
  refine Finite.injective_iff_bijective.1 fun s s' h => ?_
  have second : ∀ (t : Bytes) (x y : W), (if t = [] then x
      else ((List.range t.length).reverse.foldl (fun h i => h ^^^ (BitVec.ofNat 32 (t.getD i 0).toNat <<< (8 * i))) x) * mB) = (if t = [] then y
      else ((List.range t.length).reverse.foldl (fun h i => h ^^^ (BitVec.ofNat 32 (t.getD i 0).toNat <<< (8 * i))) y) * mB) → x = y := by
    intro t x y h
    by_cases ht : t = []
    · simpa only [ht, if_true] using h
    · simp only [ht, if_false] at h
      exact (foldl_xor_bij _ _).1 (mB_bij.1 h)
  by_cases h4 : 4 ≤ t.length
  · simp only [tailB, h4, if_true, S2.mk.injEq] at h
    exact S2.ext' ((stepB_bij _).1 h.1) (second _ _ _ h.2)
  · simp only [tailB, h4, if_false, S2.mk.injEq] at h
    exact S2.ext' h.1 (second _ _ _ h.2)

theorem finalB_bij : Bijective finalB := by
  refine Finite.injective_iff_bijective.1 fun s s' h => ?_
  simp only [finalB, S2.mk.injEq] at h
  obtain ⟨e1, e2⟩ := h
  rw [e1] at e2
  have h2 := (xor_bij _).1 (mB_bij.1 e2)
  rw [h2] at e1
  have h1 := (xor_bij _).1 (mB_bij.1 e1)
  rw [h1] at h2
  have g2 := (xor_bij _).1 (mB_bij.1 h2)
  rw [g2] at h1
  exact S2.ext' ((xor_bij _).1 (mB_bij.1 h1)) g2

theorem join_bij : Bijective (fun s : S2 32 => (s.h1.setWidth 64 <<< 32) ||| s.h2.setWidth 64 : S2 32 → D) := by
  refine ⟨fun s s' h => ?_, fun d => ⟨⟨(d >>> 32).setWidth 32, d.setWidth 32⟩, ?_⟩⟩
  · have h' : ∀ i, ((s.h1.setWidth 64 <<< 32) ||| s.h2.setWidth 64 : D).getLsbD i = ((s'.h1.setWidth 64 <<< 32) ||| s'.h2.setWidth 64 : D).getLsbD i :=
      fun i => by rw [show ((s.h1.setWidth 64 <<< 32) ||| s.h2.setWidth 64 : D) = ((s'.h1.setWidth 64 <<< 32) ||| s'.h2.setWidth 64 : D) from h]
    refine S2.ext' (BitVec.eq_of_getLsbD_eq fun i hi => ?_) (BitVec.eq_of_getLsbD_eq fun i hi => ?_)
    · have := h' (i + 32)
      simp only [BitVec.getLsbD_or, BitVec.getLsbD_shiftLeft, BitVec.getLsbD_setWidth] at this
      rw [BitVec.getLsbD_of_ge s.h2 (i + 32) (by omega), BitVec.getLsbD_of_ge s'.h2 (i + 32) (by omega)] at this
      have a : i + 32 < 64 := by omega
      have b : ¬ i + 32 < 32 := by omega
      have c : i < 64 := by omega
      simpa [a, b, c] using this
    · have := h' i
      have a : i < 64 := by omega
      simpa [BitVec.getLsbD_or, BitVec.getLsbD_shiftLeft, BitVec.getLsbD_setWidth, hi, a] using this
  · apply BitVec.eq_of_getLsbD_eq
    intro i hi
    simp only [BitVec.getLsbD_or, BitVec.getLsbD_shiftLeft, BitVec.getLsbD_setWidth, BitVec.getLsbD_ushiftRight]
    by_cases h : i < 32
    · simp [h, hi]
    · have e : 32 + (i - 32) = i := by omega
      have a : i - 32 < 64 := by omega
      have b : i - 32 < 32 := by omega
      simp [h, hi, e, a, b]

/-- **C119** `MurmurHash64B`: the same for groups of eight bytes. -/
theorem murmur64B_group (p s : Bytes) (hp : p.length % 8 = 0) (seed target : D) : ∃! w : Bytes, w.length = 8 ∧ hash64B (p ++ (w ++ s)) seed = target :=
  group_unique 8 (by decide) roundB (fun n => ⟨seed.setWidth 32 ^^^ BitVec.ofNat 32 n, (seed >>> 32).setWidth 32⟩)
    (fun _ s t => ((finalB (tailB s t)).h1.setWidth 64 <<< 32) ||| (finalB (tailB s t)).h2.setWidth 64)
    roundB_bij roundB_word (fun _ t => join_bij.comp (finalB_bij.comp (tailB_bij t))) p s hp target

/-! #### MurmurHash2 and MurmurHash2A -/

theorem words_groups (l : Bytes) (h : W) : Murmur.words h l = groups 4 (fun h b => Murmur.mmix h (load b)) (l.length / 4) h l := by
  fun_induction Murmur.words h l with
  | case1 h a b c d r ih =>
    rw [ih, show (a :: b :: c :: d :: r).length / 4 = r.length / 4 + 1 by simp only [List.length_cons]; omega]
    rfl
  | case2 h l hl =>
    have : l.length / 4 = 0 := by
      rcases l with _ | ⟨a, _ | ⟨b, _ | ⟨c, _ | ⟨d, r⟩⟩⟩⟩
      · rfl
      · exact Nat.div_eq_of_lt (by simp)
      · exact Nat.div_eq_of_lt (by simp)
      · exact Nat.div_eq_of_lt (by simp)
      · exact absurd rfl (hl a b c d r)
    rw [this]
    rfl

theorem m2_bij : Bijective (fun x : W => x * Murmur.m) := mul_bij Murmur.m 0xe59b19bd#32 (by decide)

theorem mmix_bij (k : W) : Bijective fun h => Murmur.mmix h k := (xor_bij _).comp m2_bij

theorem mmix_bij' (h : W) : Bijective (Murmur.mmix h) := (xor_bij' _).comp (m2_bij.comp ((shift_bij 24 (by decide)).comp m2_bij))

theorem final2_bij : Bijective Murmur.final := (shift_bij 15 (by decide)).comp (m2_bij.comp (shift_bij 13 (by decide)))

theorem tail2_bij (t : Bytes) : Bijective fun h => Murmur.tail h t := by
  unfold Murmur.tail
  split
  · exact m2_bij.comp ((xor_bij _).comp ((xor_bij _).comp (xor_bij _)))
  · exact m2_bij.comp ((xor_bij _).comp (xor_bij _))
  · exact m2_bij.comp (xor_bij _)
  · exact bijective_id

/-- **C119** `MurmurHash2` (and with C68 its variants): the same for any aligned word. -/
theorem murmur2_word (p s : Bytes) (hp : p.length % 4 = 0) (seed target : W) : ∃! w : Bytes, w.length = 4 ∧ Murmur.murmur2 (p ++ (w ++ s)) seed = target := by
  have := group_unique 4 (by decide) (fun h b => Murmur.mmix h (load b)) (fun n => seed ^^^ BitVec.ofNat 32 n) (fun _ h t => Murmur.final (Murmur.tail h t))
    (fun b => mmix_bij _) (fun h h' => load_unique (by decide) _ (mmix_bij' h) h') (fun _ t => final2_bij.comp (tail2_bij t)) p s hp target
  simpa only [Murmur.murmur2, words_groups] using this

/-- **C119** `MurmurHash2A`. -/
theorem murmur2A_word (p s : Bytes) (hp : p.length % 4 = 0) (seed target : W) : ∃! w : Bytes, w.length = 4 ∧ Murmur.murmur2A (p ++ (w ++ s)) seed = target := by
  have := group_unique 4 (by decide) (fun h b => Murmur.mmix h (load b)) (fun _ => seed)
    (fun n h t => Murmur.final (Murmur.mmix (Murmur.mmix h (Murmur.tailWord t)) (BitVec.ofNat 32 n)))
    (fun b => mmix_bij _) (fun h h' => load_unique (by decide) _ (mmix_bij' h) h') (fun _ t => final2_bij.comp ((mmix_bij _).comp (mmix_bij _))) p s hp target
  simpa only [Murmur.murmur2A, words_groups] using this

/-- **C119** Any number of keys with one and the same value, also when the key is long and begins and ends in a given way. -/
theorem murmur3_multicollision (p s : Bytes) (hp : p.length % 4 = 0) (seed target : W) (n : Nat) (hn : n ≤ 2 ^ 32) :
    ∃ keys : Finset Bytes, keys.card = n ∧ ∀ k ∈ keys, (∃ m, k = p ++ (m ++ s)) ∧ x86_32 k seed = target := by
  classical
  choose w hw _ using fun a : W => murmur3_32_word (p ++ leBytes 4 a.toNat) s (by rw [List.length_append, leBytes_length]; omega) seed target
  let e : Fin (2 ^ 32) → Bytes := fun i => p ++ ((leBytes 4 i.val ++ w (BitVec.ofFin i)) ++ s)
  have inj : Injective e := by
    intro i j h
    have h1 := List.append_cancel_left h
    rw [List.append_assoc, List.append_assoc] at h1
    have h2 := List.append_inj_left h1 (by simp)
    have := leBytes_inj (n := 4) (by have := i.isLt; norm_num at this ⊢; exact this) (by have := j.isLt; norm_num at this ⊢; exact this) h2
    exact Fin.ext this
  obtain ⟨t, ht⟩ := Finset.exists_subset_card_eq (s := (Finset.univ : Finset (Fin (2 ^ 32)))) (n := n) (by rw [Finset.card_univ, Fintype.card_fin]; exact hn)
  refine ⟨t.map ⟨e, inj⟩, by rw [Finset.card_map]; exact ht.2, ?_⟩
  intro k hk
  obtain ⟨i, _, rfl⟩ := Finset.mem_map.1 hk
  refine ⟨⟨_, rfl⟩, ?_⟩
  have := (hw (BitVec.ofFin i)).2
  show x86_32 (p ++ ((leBytes 4 i.val ++ w (BitVec.ofFin i)) ++ s)) seed = target
  rw [List.append_assoc, ← List.append_assoc]
  exact this

/-- A prefix of one word and two bytes behind. -/
example : ([1, 2, 3, 4] : Bytes).length % 4 = 0 ∧ ∃! w : Bytes, w.length = 4 ∧ x86_32 ([1, 2, 3, 4] ++ (w ++ [5, 6])) 7 = 0 :=
  ⟨rfl, murmur3_32_word _ _ rfl _ _⟩

example : ∃! w : Bytes, w.length = 16 ∧ x64_128 ([] ++ (w ++ [5, 6])) 7 = ⟨1, 2⟩ := murmur3_x64_128_group _ _ rfl _ _

/-! ### Checks of the model

Not part of any claim: the models give the verification values published with the reference implementations (hashes of the keys 0, 01, 012, ... with the seeds 256, 255, ...,
hashed again). -/

def verification (n : Nat) (h : Bytes → Nat → Nat) : Nat :=
  h ((List.range 256).flatMap fun i => leBytes n (h ((List.range i).map UInt8.ofNat) (256 - i))) 0 % 2 ^ 32

#guard verification 4 (fun b s => (Murmur.murmur2 b (BitVec.ofNat 32 s)).toNat) = 0x27864C1E
#guard verification 4 (fun b s => (Murmur.murmur2A b (BitVec.ofNat 32 s)).toNat) = 0x7FBD4396
#guard verification 8 (fun b s => (Murmur64.hash b (BitVec.ofNat 64 s)).toNat) = 0x1F0D3804
#guard verification 8 (fun b s => (hash64B b (BitVec.ofNat 64 s)).toNat) = 0xDD537C05
#guard verification 4 (fun b s => (x86_32 b (BitVec.ofNat 32 s)).toNat) = 0xB0F57EE3
#guard verification 16 (fun b s => let s := x86_128 b (BitVec.ofNat 32 s); s.h1.toNat + 2 ^ 32 * (s.h2.toNat + 2 ^ 32 * (s.h3.toNat + 2 ^ 32 * s.h4.toNat))) = 0xB3ECE62A
#guard verification 16 (fun b s => let s := x64_128 b (BitVec.ofNat 32 s); s.h1.toNat + 2 ^ 64 * s.h2.toNat) = 0x6384BA69

end Kunlun.Murmur3
