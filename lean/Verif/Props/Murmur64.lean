import Verif.Model.Murmur64
import Verif.Props.Dlog
import Verif.Model.Pke
/-!
C106: the 64-bit keys of points, `ECPoint::ToUint64`.
-/

namespace Kunlun.Murmur64

open Kunlun

/-- Eight bytes and 64-bit words are the same thing. -/
theorem getblock_bij : ∀ k : W, ∃! w : Bytes, w.length = 8 ∧ getblock w = k := by
  intro k
  refine ⟨leBytes 8 k.toNat, ⟨by simp, ?_⟩, ?_⟩
  · rw [getblock, ofLE_leBytes 8 k.toNat (by have := k.isLt; norm_num at this ⊢; exact this), BitVec.ofNat_toNat, BitVec.setWidth_eq]
  · rintro w ⟨hw, rfl⟩
    have hlt : ofLE w < 2 ^ 64 := by have := ofLE_lt w; rw [hw] at this; norm_num at this ⊢; exact this
    have h8 := leBytes_ofLE w
    rw [hw] at h8
    rw [getblock, BitVec.toNat_ofNat, Nat.mod_eq_of_lt hlt, h8]

/-- The hash as a function of one aligned word. -/
theorem hash_word (p w s : Bytes) (n : Nat) (hp : p.length = 8 * n) (hw : w.length = 8) (seed : W) :
    hash (p ++ (w ++ s)) seed = final (tail
      (words (s.length / 8) (round (words n (seed ^^^ (BitVec.ofNat 64 (p.length + 8 + s.length) * m)) p).1 (getblock w)) s).1
      (words (s.length / 8) 0 s).2) := by
  have e : (p ++ (w ++ s)).length / 8 = n + (1 + s.length / 8) := by
    simp only [List.length_append, hp, hw]
    omega
  have e2 : (p ++ (w ++ s)).length = p.length + 8 + s.length := by simp only [List.length_append, hw]; omega
  unfold hash
  rw [e, e2, words_add, words_append n _ p _ hp, words_add, words_append 1 _ w s (by omega)]
  have e3 : (words 1 (words n (seed ^^^ (BitVec.ofNat 64 (p.length + 8 + s.length) * m)) p).1 w).1
      = round (words n (seed ^^^ (BitVec.ofNat 64 (p.length + 8 + s.length) * m)) p).1 (getblock w) := by
    show round _ (getblock (w.take 8)) = _
    rw [List.take_of_length_le (by omega)]
  simp only [e3]
  rw [words_rest (s.length / 8) 0 (round (words n (seed ^^^ (BitVec.ofNat 64 (p.length + 8 + s.length) * m)) p).1 (getblock w)) s]

/-- **C106** Whatever stands before and after an aligned word, exactly one value of the word gives a wanted hash value: strings that differ in one
such word only have different values, and anybody can compute a string with a wanted value (`mInv` and the proof give the word). -/
theorem murmur64_word (p s : Bytes) (hp : p.length % 8 = 0) (seed target : W) :
    ∃! w : Bytes, w.length = 8 ∧ hash (p ++ (w ++ s)) seed = target := by
  obtain ⟨n, hn⟩ : ∃ n, p.length = 8 * n := ⟨p.length / 8, by omega⟩
  have hb : Function.Bijective (fun k : W => final (tail
      (words (s.length / 8) (round (words n (seed ^^^ (BitVec.ofNat 64 (p.length + 8 + s.length) * m)) p).1 k) s).1
      (words (s.length / 8) 0 s).2)) :=
    final_bij.comp ((tail_bij _).comp ((words_bij _ s).comp (round_bij' _)))
  obtain ⟨k, hk, huk⟩ := Function.bijective_iff_existsUnique _ |>.1 hb target
  obtain ⟨w, ⟨hw, hwk⟩, huw⟩ := getblock_bij k
  refine ⟨w, ⟨hw, by rw [hash_word p w s n hn hw, hwk]; exact hk⟩, ?_⟩
  rintro w' ⟨hw', hh⟩
  refine huw w' ⟨hw', huk _ ?_⟩
  rw [hash_word p w' s n hn hw'] at hh
  exact hh

/-- The bits of the bytes the `switch` mixes in: byte `i` stands at bit `8 * i`. -/
theorem switch_bits (l : Bytes) (n : Nat) (hn : n < 64) : ∀ (is : List Nat) (h : W), is.Nodup →
    (is.foldl (fun h i => h ^^^ (BitVec.ofNat 64 (l.getD i 0).toNat <<< (8 * i))) h).getLsbD n =
      (h.getLsbD n ^^ (decide (n / 8 ∈ is) && (l.getD (n / 8) 0).toNat.testBit (n % 8)))
  | [], h, _ => by simp
  | i :: is, h, hd => by
    obtain ⟨h1, h2⟩ := List.nodup_cons.1 hd
    rw [List.foldl_cons, switch_bits l n hn is _ h2, BitVec.getLsbD_xor, BitVec.getLsbD_shiftLeft, BitVec.getLsbD_ofNat, Bool.xor_assoc]
    congr 1
    by_cases e : n / 8 = i
    · subst e
      have : ¬ n < 8 * (n / 8) := by omega
      have hm : n - 8 * (n / 8) = n % 8 := by omega
      have h64 : n % 8 < 64 := by omega
      simp [h1, hn, this, hm, h64]
    · have hf : (decide (n < 64) && !decide (n < 8 * i) && (decide (n - 8 * i < 64) && (l.getD i 0).toNat.testBit (n - 8 * i))) = false := by
        by_cases hlt : n < 8 * i
        · simp [hlt]
        · have : (l.getD i 0).toNat.testBit (n - 8 * i) = false := by
            apply Nat.testBit_lt_two_pow
            calc (l.getD i 0).toNat < 2 ^ 8 := (l.getD i 0).toNat_lt
              _ ≤ 2 ^ (n - 8 * i) := Nat.pow_le_pow_right (by decide) (by omega)
          rw [this]; simp
      rw [hf]
      simp [e]

/-- **C106** Strings of the same length that differ only in the bytes after the last aligned word have different values. -/
theorem murmur64_tail (p s s' : Bytes) (hp : p.length % 8 = 0) (hs : s.length < 8) (hl : s'.length = s.length) (seed : W)
    (h : hash (p ++ s) seed = hash (p ++ s') seed) : s = s' := by
  obtain ⟨n, hn⟩ : ∃ n, p.length = 8 * n := ⟨p.length / 8, by omega⟩
  have e : ∀ q : Bytes, q.length = s.length → hash (p ++ q) seed =
      final (tail (words n (seed ^^^ (BitVec.ofNat 64 (p.length + s.length) * m)) p).1 q) := by
    intro q hq
    unfold hash
    have e1 : (p ++ q).length / 8 = n := by simp only [List.length_append]; omega
    have e2 : (p ++ q).length = p.length + s.length := by simp only [List.length_append]; omega
    rw [e1, e2, words_append n _ p q hn]
  rw [e s rfl, e s' hl] at h
  have h := final_bij.1 h
  generalize (words n (seed ^^^ (BitVec.ofNat 64 (p.length + s.length) * m)) p).1 = h0 at h
  unfold tail at h
  by_cases h0' : s = []
  · subst h0'
    exact (List.length_eq_zero_iff.1 hl).symm
  have h1' : s' ≠ [] := fun e => h0' (List.length_eq_zero_iff.1 (by rw [← hl, e]; rfl))
  rw [if_neg h0', if_neg h1', hl] at h
  have h := mul_m_bij.1 h
  apply List.ext_getElem hl.symm
  intro i hi hi'
  apply UInt8.toNat_inj.1
  apply Nat.eq_of_testBit_eq
  intro j
  by_cases hj : j < 8
  · have hb := congrArg (fun v : W => v.getLsbD (8 * i + j)) h
    beta_reduce at hb
    have nd : (List.range s.length).reverse.Nodup := List.nodup_reverse.2 List.nodup_range
    rw [switch_bits s _ (by omega) _ _ nd, switch_bits s' _ (by omega) _ _ nd] at hb
    have d : (8 * i + j) / 8 = i := by omega
    have r : (8 * i + j) % 8 = j := by omega
    rw [d, r] at hb
    have hm : i ∈ (List.range s.length).reverse := by simpa using hi
    simpa [hm, List.getD_eq_getElem?_getD, List.getElem?_eq_getElem hi, List.getElem?_eq_getElem hi'] using hb
  · rw [Nat.testBit_lt_two_pow, Nat.testBit_lt_two_pow]
    · exact lt_of_lt_of_le s'[i].toNat_lt (Nat.pow_le_pow_right (by decide) (by omega))
    · exact lt_of_lt_of_le s[i].toNat_lt (Nat.pow_le_pow_right (by decide) (by omega))

/-- Eleven bytes, the last three of them after the last word. -/
example : hash ([1, 2, 3, 4, 5, 6, 7, 8] ++ [1, 2, 3]) 5 ≠ hash ([1, 2, 3, 4, 5, 6, 7, 8] ++ [1, 2, 4]) 5 := fun h => by
  have := murmur64_tail [1, 2, 3, 4, 5, 6, 7, 8] [1, 2, 3] [1, 2, 4] rfl (by decide) rfl 5 h
  exact absurd this (by decide)

/-- **C106** A point other than infinity and its negative have different keys. -/
theorem key_neg (P : P256.Pt) (hP : P ≠ 0) : toUint64 (-P) ≠ toUint64 P := by
  rcases P with _ | ⟨x, y, h⟩
  · exact absurd rfl hP
  have hy := P256.y_ne_zero h.1
  intro he
  have hneg : buffer (-(WeierstrassCurve.Affine.Point.some x y h)) = UInt8.ofNat (2 + (-y).val % 2) :: beBytes P256.bnLen x.val := by
    rw [WeierstrassCurve.Affine.Point.neg_some]
    simp only [buffer, P256.negY_eq]
  have hl : (beBytes P256.bnLen x.val).length = 32 := by simp [P256.bnLen]
  obtain ⟨w, -, hu⟩ := murmur64_word [] ((beBytes P256.bnLen x.val).drop 7) rfl fixedSalt
    (toUint64 (.some x y h))
  have split (a : UInt8) : a :: beBytes P256.bnLen x.val =
      [] ++ ((a :: (beBytes P256.bnLen x.val).take 7) ++ (beBytes P256.bnLen x.val).drop 7) := by simp
  have h1 := hu (UInt8.ofNat (2 + (-y).val % 2) :: (beBytes P256.bnLen x.val).take 7) ⟨by simp [hl], by
    rw [← split, ← hneg]; exact he⟩
  have h2 := hu (UInt8.ofNat (2 + y.val % 2) :: (beBytes P256.bnLen x.val).take 7) ⟨by simp [hl], by
    rw [← split]; rfl⟩
  have h3 := congrArg UInt8.toNat (List.cons.inj (h1.trans h2.symm)).1
  have := P256.parity_neg y hy
  rcases Nat.mod_two_eq_zero_or_one y.val with a | a <;> rcases Nat.mod_two_eq_zero_or_one (-y).val with b | b <;> rw [a, b] at h3 <;>
    simp at h3 <;> omega

/-! ### Points with the key of infinity -/

def x1 : ℕ := 0x2c09ffa7f103dd3d00
def y1 : ℕ := 0x3521b0dd9250b118edfc3eb316d68264266e7c77cae991a62d4bccb57ca7642a
def x2 : ℕ := 0x211eabd31171def3f00
def y2 : ℕ := 0x63fd89f9e4be297ed05178c36c46265277653128e85cf9761eda9ac5d9be2912

theorem on_curve {x y : ℕ} (h : y ^ 2 % P256.p = (x ^ 3 + (P256.p - 3) * x + P256.b) % P256.p) :
    (y : P256.F) ^ 2 = (x : P256.F) ^ 3 - 3 * x + P256.b := by
  have := (ZMod.natCast_eq_natCast_iff' _ _ _).2 h
  have h3 : 3 ≤ P256.p := by unfold P256.p; decide +kernel
  push_cast [Nat.cast_sub h3] at this
  rw [show ((P256.p : ℕ) : P256.F) = 0 from CharP.cast_eq_zero P256.F P256.p] at this
  rw [this]
  ring

def Q1 : P256.Pt := P256.mk x1 y1 (on_curve (by unfold P256.p; decide +kernel))
def Q2 : P256.Pt := P256.mk x2 y2 (on_curve (by unfold P256.p; decide +kernel))

theorem val_nat {x : ℕ} (h : x < P256.p) : (x : P256.F).val = x := ZMod.val_cast_of_lt h

theorem key0 : toUint64 0 = 0x923ad2a5cba9c5d2#64 := by
  show hash (List.replicate 33 0) fixedSalt = _
  decide +kernel

theorem key1 : toUint64 Q1 = 0x923ad2a5cba9c5d2#64 := by
  show hash (UInt8.ofNat (2 + (y1 : P256.F).val % 2) :: beBytes P256.bnLen (x1 : P256.F).val) fixedSalt = _
  rw [val_nat (x := x1) (by unfold P256.p; decide +kernel), val_nat (x := y1) (by unfold P256.p; decide +kernel)]
  decide +kernel

theorem key2 : toUint64 Q2 = 0x923ad2a5cba9c5d2#64 := by
  show hash (UInt8.ofNat (2 + (y2 : P256.F).val % 2) :: beBytes P256.bnLen (x2 : P256.F).val) fixedSalt = _
  rw [val_nat (x := x2) (by unfold P256.p; decide +kernel), val_nat (x := y2) (by unfold P256.p; decide +kernel)]
  decide +kernel

/-- **C106, the violation** Different points of the curve with the key of the point at infinity. -/
theorem p256_keys_collide : Q1 ≠ 0 ∧ Q2 ≠ 0 ∧ Q1 ≠ Q2 ∧ toUint64 Q1 = toUint64 0 ∧ toUint64 Q2 = toUint64 0 := by
  refine ⟨P256.mk_ne_zero _ _ _, P256.mk_ne_zero _ _ _, ?_, key1.trans key0.symm, key2.trans key0.symm⟩
  intro h
  unfold Q1 Q2 P256.mk at h
  injection h with hx _
  have := P256.cast_inj (x := x1) (y := x2) (by unfold P256.p; decide +kernel) (by unfold P256.p; decide +kernel) hx
  revert this
  decide +kernel

/-! ### The search -/

open Dlog

/-- One thread that does the tasks in order. -/
def inOrder : List (Nat × Bool) := List.replicate 4 (0, false) ++ (List.range 63).map fun i => (i + 1, false)

theorem inOrder_run {G : Type} [AddCommGroup G] [DecidableEq G] (gl : Globals G) (key : G → BitVec 64) (h : G) (L T b : Nat) (x0 : ℤ)
    (hS : 0 < slicedGiant L T) (ha : gl.anchors[0]?.getD 0 = 0) (hm : gl.map (key h) = some b) : shanks gl key h L T x0 inOrder = some (true, (b : ℤ)) := by
  unfold shanks inOrder
  generalize slicedGiant L T = S at hS
  generalize babyNum L T = B
  have first : ∀ rest, runSchedule gl key h S B (List.replicate 4 (0, false) ++ rest) ⟨List.replicate searchTaskNum .idle, false, x0⟩
      = runSchedule gl key h S B rest ⟨.done :: List.replicate 63 .idle, true, (b : ℤ)⟩ := by
    intro rest
    have e : (List.replicate searchTaskNum Dlog.Task.idle : List (Dlog.Task G)) = .idle :: List.replicate 63 .idle := rfl
    rw [e]
    simp only [List.replicate_succ, List.replicate_zero, List.cons_append, List.nil_append, runSchedule]
    simp [step, ha, hm, hS]
  have others : ∀ (n k : Nat) (f : List (Dlog.Task G)), f.length = k → (∀ t ∈ f, t = .done) →
      runSchedule gl key h S B ((List.range n).map fun i => (i + k, false)) ⟨f ++ List.replicate n .idle, true, (b : ℤ)⟩
        = ⟨f ++ List.replicate n .done, true, (b : ℤ)⟩ := by
    intro n
    induction n with
    | zero => intro k f _ _; rfl
    | succ n ih =>
      intro k f hf hd
      have e : (List.range (n + 1)).map (fun i => (i + k, false)) = (k, false) :: (List.range n).map fun i => (i + (k + 1), false) := by
        rw [List.range_succ_eq_map, List.map_cons, List.map_map, Nat.zero_add]
        congr 1
        apply List.map_congr_left
        intro i _
        simp only [Function.comp, Nat.succ_eq_add_one]
        congr 1
        omega
      have hs : step gl key h S B ⟨f ++ List.replicate (n + 1) .idle, true, (b : ℤ)⟩ k false
          = ⟨(f ++ [.done]) ++ List.replicate n .idle, true, (b : ℤ)⟩ := by
        have hg : (f ++ List.replicate (n + 1) (Dlog.Task.idle : Dlog.Task G))[k]? = some .idle := by
          rw [List.getElem?_append_right (by omega), hf, Nat.sub_self]
          rfl
        unfold step
        simp only [hg]
        rw [if_pos (by rfl)]
        congr 1
        rw [List.set_append_right _ _ (by omega), hf, Nat.sub_self, List.append_assoc]
        rfl
      rw [e, runSchedule, hs, ih (k + 1) (f ++ [Dlog.Task.done]) (by simp [hf]) ?_]
      · rw [List.append_assoc]
        rfl
      · intro t ht
        rcases List.mem_append.1 ht with ht | ht
        · exact hd t ht
        · simpa using ht
  rw [first]
  have := others 63 1 [.done] rfl (by simp)
  rw [List.singleton_append] at this
  rw [this]
  rfl

/-- **C106, the violation in the search** On the curve the library uses, with the keys it uses, for every base, range and tradeoff: two points
and infinity get the same exponent, which is therefore wrong for two of them, whatever the base; for no order of the steps does the search
say that it found nothing. -/
theorem p256_search_wrong (g : P256.Pt) (L T : Nat) (ex : Bool) (gl : Globals P256.Pt)
    (hi : initTable Globals.init toUint64 g L T ex = some gl) :
    (∀ x0 : ℤ, ∃ x, shanks gl toUint64 Q1 L T x0 inOrder = some (true, x) ∧ shanks gl toUint64 Q2 L T x0 inOrder = some (true, x) ∧
      ¬(x • g = Q1 ∧ x • g = Q2)) ∧
    ∀ x0 sched f x, shanks gl toUint64 Q1 L T x0 sched = some (f, x) ∨ shanks gl toUint64 Q2 L T x0 sched = some (f, x) → f = true := by
  have hl := loaded_of_initTable toUint64 g L T ex gl hi
  have hp := params_of_init hi
  have hS : 0 < slicedGiant L T := by
    have h1 := tasks_times_slice hp
    have h2 : 0 < giantNum L T := by unfold giantNum; positivity
    rw [← h1] at h2
    exact Nat.pos_of_mul_pos_left h2
  have hB : 0 < babyNum L T := by unfold babyNum; positivity
  obtain ⟨c1, c2, c3, c4, c5⟩ := p256_keys_collide
  obtain ⟨b, hb⟩ := Option.isSome_iff_exists.1 (hl.map_has 0 hB)
  have hb : gl.map (toUint64 0) = some b := by simpa using hb
  have ha : gl.anchors[0]?.getD 0 = 0 := by
    rw [hl.anchor 0 (by decide)]
    simp
  refine ⟨fun x0 => ⟨b, inOrder_run gl _ Q1 L T b x0 hS ha (by rw [c4]; exact hb), inOrder_run gl _ Q2 L T b x0 hS ha (by rw [c5]; exact hb),
    fun ⟨e1, e2⟩ => c3 (e1.symm.trans e2)⟩, ?_⟩
  have hit : ∀ Q, toUint64 Q = toUint64 0 → Hit gl toUint64 g Q (slicedGiant L T) (babyNum L T) 0 b := by
    intro Q hQ
    refine ⟨Nat.mul_pos (by decide) hS, ?_⟩
    simp [hQ, hb]
  intro x0 sched f x h
  cases f with
  | true => rfl
  | false =>
    rcases h with h | h
    · exact absurd (hit Q1 c4) ((shanks_hits hl x0 sched false x h).2 rfl 0 b)
    · exact absurd (hit Q2 c5) ((shanks_hits hl x0 sched false x h).2 rfl 0 b)

/-- **C106, the violation in decryption** Under every key of exponential ElGamal there are ciphertexts of two different group elements, formed
from the public key alone, to which `Dec` gives the same number. -/
theorem p256_decryption_wrong (g : P256.Pt) (L T : Nat) (ex : Bool) (gl : Globals P256.Pt)
    (hi : initTable Globals.init toUint64 g L T ex = some gl) (sk r : ℤ) :
    ∃ x, ExpElGamal.dec ⟨gl, toUint64, L, T⟩ inOrder sk ⟨r • g, r • ExpElGamal.keyGen g sk + Q1⟩ = some x ∧
      ExpElGamal.dec ⟨gl, toUint64, L, T⟩ inOrder sk ⟨r • g, r • ExpElGamal.keyGen g sk + Q2⟩ = some x ∧ ¬(x • g = Q1 ∧ x • g = Q2) := by
  obtain ⟨x, h1, h2, h3⟩ := (p256_search_wrong g L T ex gl hi).1 0
  have e : ∀ Q, ExpElGamal.decPoint sk ⟨r • g, r • ExpElGamal.keyGen g sk + Q⟩ = Q := by
    intro Q
    simp only [ExpElGamal.decPoint, ExpElGamal.keyGen]
    rw [smul_comm r sk g]
    abel
  refine ⟨x, ?_, ?_, h3⟩
  · unfold ExpElGamal.dec DecEnv.search
    rw [e, h1]
  · unfold ExpElGamal.dec DecEnv.search
    rw [e, h2]

/-- The tables of the theorem exist, for instance for messages of 32 bits. -/
example : ∃ gl, initTable Globals.init toUint64 P256.G 32 7 true = some gl := ⟨_, if_pos (by decide)⟩

end Kunlun.Murmur64
