import Verif.Model.HashToCurve
import Verif.Props.BigInt
import Verif.Props.Hash
import Mathlib.NumberTheory.LegendreSymbol.Basic
/-! Properties of the hashes to the curve. -/

namespace Kunlun.Hash

open Kunlun

/-- `BN_mod_sqrt` on squares modulo `p`, as far as its documentation goes: a root in the range. Which of the two roots is not said. -/
def RootOk (p : ℕ) (sqrt : ℤ → ℤ) : Prop :=
  ∀ s : ℤ, IsSquare (s : ZMod p) → 0 ≤ sqrt s ∧ sqrt s < p ∧ ((sqrt s : ℤ) : ZMod p) ^ 2 = s

/-- The candidates for the x-coordinate, in the order in which they are tried. -/
def candidate (p : ℕ) (H : Bytes → Bytes) (s : Bytes) : ℕ → ℕ
  | 0 => ofBE (H s) % p
  | i + 1 => ofBE (H (BigInt.toByteString (candidate p H s i)))

/-- `x` is the x-coordinate of a point that is not its own inverse. -/
def Weier.Hit (W : Weier) (x : ℕ) : Prop :=
  ((x : ZMod W.p) ^ 3 + W.a * x + W.b) ≠ 0 ∧ IsSquare ((x : ZMod W.p) ^ 3 + W.a * x + W.b)

variable (W : Weier)

theorem rhs_cast (hp : W.p.Prime) (x : ℤ) : ((W.rhs x : ℤ) : ZMod W.p) = (x : ZMod W.p) ^ 3 + W.a * x + W.b := by
  unfold Weier.rhs
  rw [BigInt.mod, BigInt.bnNNMod, if_neg (by exact_mod_cast hp.ne_zero), BigInt.checked, Option.getD_some, ZMod.intCast_mod]
  push_cast
  ring

theorem isSquare_iff (hp : W.p.Prime) (h2 : W.p ≠ 2) (s : ℤ) :
    W.isSquare s = true ↔ (s : ZMod W.p) ≠ 0 ∧ IsSquare (s : ZMod W.p) := by
  haveI := Fact.mk hp
  have h3 : 2 < W.p := lt_of_le_of_ne hp.two_le (Ne.symm h2)
  have e : W.p >>> 1 = W.p / 2 := by rw [Nat.shiftRight_eq_div_pow, pow_one]
  unfold Weier.isSquare
  rw [e]
  obtain ⟨h0, h1, hm⟩ := BigInt.modExp_residue s (W.p / 2) (m := (W.p : ℤ)) (by omega)
  rw [beq_iff_eq]
  have key : BigInt.modExp s ((W.p / 2 : ℕ) : ℤ) W.p = 1 ↔ ((s : ℤ) : ZMod W.p) ^ (W.p / 2) = 1 := by
    rw [← (ZMod.intCast_eq_intCast_iff _ _ _)] at hm
    rw [← Int.cast_pow, ← hm]
    constructor
    · intro h
      rw [h, Int.cast_one]
    · intro h
      have h' : ((BigInt.modExp s ((W.p / 2 : ℕ) : ℤ) W.p : ℤ) : ZMod W.p) = ((1 : ℤ) : ZMod W.p) := by rw [h, Int.cast_one]
      rw [ZMod.intCast_eq_intCast_iff, Int.ModEq, Int.emod_eq_of_lt h0 h1, Int.emod_eq_of_lt (by omega) (by omega)] at h'
      exact h'
  rw [key]
  constructor
  · intro h
    have hs : (s : ZMod W.p) ≠ 0 := by
      intro h0
      rw [h0, zero_pow (by omega)] at h
      exact zero_ne_one h
    exact ⟨hs, (ZMod.euler_criterion W.p hs).2 h⟩
  · rintro ⟨hs, hq⟩
    exact (ZMod.euler_criterion W.p hs).1 hq

theorem create_spec (x y : ℤ) (h : (y : ZMod W.p) ^ 2 = (x : ZMod W.p) ^ 3 + W.a * x + W.b) :
    W.create x y = some (x % W.p, y % W.p) := by
  unfold Weier.create
  rw [if_pos]
  apply Int.emod_eq_zero_of_dvd
  rw [← ZMod.intCast_zmod_eq_zero_iff_dvd]
  push_cast
  rw [h]
  ring

theorem loop_hit (hp : W.p.Prime) (h2 : W.p ≠ 2) (H : Bytes → Bytes) (sqrt : ℤ → ℤ) (hs : RootOk W.p sqrt) (n : ℕ) (x : ℕ) (hx : W.Hit x) :
    W.stringLoop H sqrt (n + 1) x = some (some ((x : ℤ) % W.p, sqrt (W.rhs x))) := by
  have hr := rhs_cast W hp x
  have hx' : ((W.rhs x : ℤ) : ZMod W.p) ≠ 0 ∧ IsSquare ((W.rhs x : ℤ) : ZMod W.p) := by
    rw [hr]
    simpa [Weier.Hit] using hx
  obtain ⟨a, b, c⟩ := hs _ hx'.2
  have hy : ((sqrt (W.rhs x) : ℤ) : ZMod W.p) ^ 2 = ((x : ℤ) : ZMod W.p) ^ 3 + W.a * ((x : ℤ) : ZMod W.p) + W.b := by rw [c, hr]
  have hc := create_spec W x _ hy
  rw [Int.emod_eq_of_lt a b] at hc
  have hn : ((BigInt.modNegate (sqrt (W.rhs x)) W.p : ℤ) : ZMod W.p) ^ 2 = ((x : ℤ) : ZMod W.p) ^ 3 + W.a * ((x : ℤ) : ZMod W.p) + W.b := by
    rw [← hy, BigInt.modNegate]
    split
    · rfl
    · rw [BigInt.mod, BigInt.bnNNMod, if_neg (by exact_mod_cast hp.ne_zero), BigInt.checked, Option.getD_some]
      push_cast
      rw [ZMod.natCast_self]
      ring_nf
  have hn' := create_spec W x _ hn
  unfold Weier.stringLoop
  rw [if_pos ((isSquare_iff W hp h2 _).2 hx')]
  simp only [hc, hn', Option.bind_some, ite_self]

theorem loop_miss (hp : W.p.Prime) (h2 : W.p ≠ 2) (H : Bytes → Bytes) (sqrt : ℤ → ℤ) (n : ℕ) (x : ℕ) (hx : ¬ W.Hit x) :
    W.stringLoop H sqrt (n + 1) x = W.stringLoop H sqrt n (ofBE (H (BigInt.toByteString x))) := by
  conv_lhs => unfold Weier.stringLoop
  rw [if_neg]
  · rfl
  · rw [isSquare_iff W hp h2, rhs_cast W hp]
    simpa [Weier.Hit] using hx

/-- **C99** What `StringToECPoint` computes: the loop is still running after `n` attempts exactly when none of the first `n` candidates is the
x-coordinate of a point; otherwise the process does not end early and the point belongs to the first candidate that is one. -/
theorem string_to_point_first (hp : W.p.Prime) (h2 : W.p ≠ 2) (H : Bytes → Bytes) (sqrt : ℤ → ℤ) (hs : RootOk W.p sqrt) (n : ℕ) (s : Bytes) :
    (W.stringToPoint H sqrt n s = none ↔ ∀ i < n, ¬ W.Hit (candidate W.p H s i)) ∧
    ∀ i < n, W.Hit (candidate W.p H s i) → (∀ j < i, ¬ W.Hit (candidate W.p H s j)) →
      W.stringToPoint H sqrt n s = some (some ((candidate W.p H s i : ℤ) % W.p, sqrt (W.rhs (candidate W.p H s i)))) := by
  have start : W.stringToPoint H sqrt n s = W.stringLoop H sqrt n (candidate W.p H s 0) := by
    unfold Weier.stringToPoint
    rw [BigInt.mod, BigInt.bnNNMod, if_neg (by exact_mod_cast hp.ne_zero), BigInt.checked, Option.getD_some]
    rfl
  have walk : ∀ i ≤ n, (∀ j < i, ¬ W.Hit (candidate W.p H s j)) →
      W.stringToPoint H sqrt n s = W.stringLoop H sqrt (n - i) (candidate W.p H s i) := by
    intro i
    induction i with
    | zero => intro _ _; exact start
    | succ i ih =>
      intro hi hj
      rw [ih (by omega) (fun j hj' => hj j (by omega)), show n - i = (n - (i + 1)) + 1 by omega,
        loop_miss W hp h2 H sqrt _ _ (hj i (by omega))]
      rfl
  have found : ∀ i < n, W.Hit (candidate W.p H s i) → (∀ j < i, ¬ W.Hit (candidate W.p H s j)) →
      W.stringToPoint H sqrt n s = some (some ((candidate W.p H s i : ℤ) % W.p, sqrt (W.rhs (candidate W.p H s i)))) := by
    intro i hi hh hj
    rw [walk i (by omega) hj, show n - i = (n - i - 1) + 1 by omega, loop_hit W hp h2 H sqrt hs _ _ hh]
  refine ⟨⟨fun h => ?_, fun h => ?_⟩, found⟩
  · by_contra hc
    push Not at hc
    classical
    have hc' : ∃ i, i < n ∧ W.Hit (candidate W.p H s i) := hc
    have := found (Nat.find hc') (Nat.find_spec hc').1 (Nat.find_spec hc').2 fun j hj hh =>
      Nat.find_min hc' hj ⟨by have := (Nat.find_spec hc').1; omega, hh⟩
    rw [this] at h
    cases h
  · rw [walk n (le_refl _) h, Nat.sub_self]
    rfl

/-- **C99** Every run of `StringToECPoint` that ends returns a point of the curve other than infinity, and not a point of order two. -/
theorem string_to_point_sound (hp : W.p.Prime) (h2 : W.p ≠ 2) (H : Bytes → Bytes) (sqrt : ℤ → ℤ) (hs : RootOk W.p sqrt) (n : ℕ) (s : Bytes)
    (r : Option (ℤ × ℤ)) (hr : W.stringToPoint H sqrt n s = some r) :
    ∃ x y : ℕ, r = some ((x : ℤ), (y : ℤ)) ∧ x < W.p ∧ 0 < y ∧ y < W.p ∧ y ^ 2 ≡ x ^ 3 + W.a * x + W.b [MOD W.p] := by
  obtain ⟨h1, h3⟩ := string_to_point_first W hp h2 H sqrt hs n s
  have hc : ∃ i, i < n ∧ W.Hit (candidate W.p H s i) := by
    by_contra hc
    push Not at hc
    rw [h1.2 hc] at hr
    cases hr
  classical
  have hi := (Nat.find_spec hc)
  have e := h3 (Nat.find hc) hi.1 hi.2 fun j hj hh => Nat.find_min hc hj ⟨by omega, hh⟩
  generalize candidate W.p H s (Nat.find hc) = x at e hi
  obtain ⟨-, hne, hsq⟩ := hi
  rw [hr, Option.some.injEq] at e
  have hrc := rhs_cast W hp x
  have hsq' : IsSquare ((W.rhs x : ℤ) : ZMod W.p) := by rw [hrc]; simpa using hsq
  obtain ⟨a, b, c⟩ := hs _ hsq'
  generalize hy : sqrt (W.rhs x) = y at a b c e
  lift y to ℕ using a
  refine ⟨x % W.p, y, by rw [e]; simp, Nat.mod_lt _ hp.pos, ?_, by exact_mod_cast b, ?_⟩
  · rcases Nat.eq_zero_or_pos y with h0 | h0
    · subst h0
      rw [hrc] at c
      exact absurd (by simpa using c.symm) hne
    · exact h0
  · rw [← ZMod.natCast_eq_natCast_iff]
    push_cast
    rw [hrc] at c
    simpa using c

/-- **C99** (violated) The point is not a function of the hash and the curve: `BN_mod_sqrt` may return either root, the branch meant to choose one
of them (lines 117-119) is overwritten by line 120, and with the other root every input is hashed to the opposite point. -/
theorem string_to_point_root_decides (hp : W.p.Prime) (h2 : W.p ≠ 2) (H : Bytes → Bytes) (sqrt : ℤ → ℤ) (hs : RootOk W.p sqrt) (n : ℕ)
    (s : Bytes) (x y : ℤ) (hr : W.stringToPoint H sqrt n s = some (some (x, y))) :
    ∃ sqrt' : ℤ → ℤ, RootOk W.p sqrt' ∧ W.stringToPoint H sqrt' n s = some (some (x, W.p - y)) ∧ (x, W.p - y) ≠ (x, y) := by
  let sqrt' : ℤ → ℤ := fun t => if sqrt t = 0 then 0 else W.p - sqrt t
  have hs' : RootOk W.p sqrt' := by
    intro t ht
    obtain ⟨a, b, c⟩ := hs t ht
    show 0 ≤ (if sqrt t = 0 then 0 else (W.p : ℤ) - sqrt t) ∧ (if sqrt t = 0 then 0 else (W.p : ℤ) - sqrt t) < W.p ∧
      (((if sqrt t = 0 then 0 else (W.p : ℤ) - sqrt t : ℤ)) : ZMod W.p) ^ 2 = t
    split
    · rename_i h0
      rw [h0] at c
      exact ⟨le_refl _, by exact_mod_cast hp.pos, c⟩
    · refine ⟨by omega, by omega, ?_⟩
      push_cast
      rw [ZMod.natCast_self, ← c]
      ring
  obtain ⟨h1, h3⟩ := string_to_point_first W hp h2 H sqrt hs n s
  obtain ⟨-, h3'⟩ := string_to_point_first W hp h2 H sqrt' hs' n s
  obtain ⟨x', y', e', -, hy0, hyp, -⟩ := string_to_point_sound W hp h2 H sqrt hs n s _ hr
  simp only [Option.some.injEq, Prod.mk.injEq] at e'
  have hc : ∃ i, i < n ∧ W.Hit (candidate W.p H s i) := by
    by_contra hc
    push Not at hc
    rw [h1.2 hc] at hr
    cases hr
  classical
  have hi := (Nat.find_spec hc)
  have hm : ∀ j < Nat.find hc, ¬ W.Hit (candidate W.p H s j) := fun j hj hh => Nat.find_min hc hj ⟨by omega, hh⟩
  have e := h3 _ hi.1 hi.2 hm
  have f := h3' _ hi.1 hi.2 hm
  rw [hr] at e
  simp only [Option.some.injEq, Prod.mk.injEq] at e
  refine ⟨sqrt', hs', ?_, ?_⟩
  · rw [f, e.1]
    show some (some (_, if sqrt _ = 0 then (0 : ℤ) else W.p - sqrt _)) = _
    rw [← e.2, if_neg (by omega)]
  · intro h
    rw [Prod.mk.injEq] at h
    have : (W.p : ℤ) = 2 * y := by omega
    rw [e'.2] at this
    have hd : 2 ∣ W.p := ⟨y', by exact_mod_cast this⟩
    rcases (Nat.dvd_prime hp).1 hd with h | h
    · omega
    · exact h2 h.symm

/-- **C99** The part that holds: any two root functions give the same point up to sign. -/
theorem string_to_point_unique_partial (hp : W.p.Prime) (h2 : W.p ≠ 2) (H : Bytes → Bytes) (f g : ℤ → ℤ) (hf : RootOk W.p f)
    (hg : RootOk W.p g) (n m : ℕ) (s : Bytes) (x y x' y' : ℤ) (hr : W.stringToPoint H f n s = some (some (x, y)))
    (hr' : W.stringToPoint H g m s = some (some (x', y'))) : x' = x ∧ (y' = y ∨ y' = W.p - y) := by
  haveI := Fact.mk hp
  have find : ∀ (r : ℤ → ℤ) (_ : RootOk W.p r) (k : ℕ) (u v : ℤ), W.stringToPoint H r k s = some (some (u, v)) →
      ∃ i, W.Hit (candidate W.p H s i) ∧ (∀ j < i, ¬ W.Hit (candidate W.p H s j)) ∧ u = (candidate W.p H s i : ℤ) % W.p ∧
        v = r (W.rhs (candidate W.p H s i)) := by
    intro r hro k u v hk
    obtain ⟨h1, h3⟩ := string_to_point_first W hp h2 H r hro k s
    have hc : ∃ i, i < k ∧ W.Hit (candidate W.p H s i) := by
      by_contra hc
      push Not at hc
      rw [h1.2 hc] at hk
      cases hk
    classical
    have hi := (Nat.find_spec hc)
    have hm : ∀ j < Nat.find hc, ¬ W.Hit (candidate W.p H s j) := fun j hj hh => Nat.find_min hc hj ⟨by omega, hh⟩
    have e := h3 _ hi.1 hi.2 hm
    rw [hk] at e
    simp only [Option.some.injEq, Prod.mk.injEq] at e
    exact ⟨_, hi.2, hm, e.1, e.2⟩
  obtain ⟨i, a1, a2, a3, a4⟩ := find f hf n x y hr
  obtain ⟨j, b1, b2, b3, b4⟩ := find g hg m x' y' hr'
  have hij : i = j := by
    rcases Nat.lt_trichotomy i j with h | h | h
    · exact absurd a1 (b2 i h)
    · exact h
    · exact absurd b1 (a2 j h)
  subst hij
  refine ⟨by rw [b3, a3], ?_⟩
  generalize candidate W.p H s i = c at *
  have hq : IsSquare ((W.rhs c : ℤ) : ZMod W.p) := by
    rw [rhs_cast W hp]
    simpa using a1.2
  obtain ⟨f1, f2, f3⟩ := hf _ hq
  obtain ⟨g1, g2, g3⟩ := hg _ hq
  rw [← a4] at f1 f2 f3
  rw [← b4] at g1 g2 g3
  have hy : y ≠ 0 := by
    rintro rfl
    rw [rhs_cast W hp] at f3
    exact a1.1 (by simpa using f3.symm)
  rcases sq_eq_sq_iff_eq_or_eq_neg.1 (g3.trans f3.symm) with h | h
  · left
    rw [ZMod.intCast_eq_intCast_iff, Int.ModEq, Int.emod_eq_of_lt g1 g2, Int.emod_eq_of_lt f1 f2] at h
    exact h
  · right
    have h' : ((y' : ℤ) : ZMod W.p) = ((W.p - y : ℤ) : ZMod W.p) := by
      push_cast
      rw [h, ZMod.natCast_self, zero_sub]
    rw [ZMod.intCast_eq_intCast_iff, Int.ModEq, Int.emod_eq_of_lt g1 g2, Int.emod_eq_of_lt (by omega) (by omega)] at h'
    exact h'

/-! ### The hash of a block to the curve -/

/-- `EC_POINT_set_compressed_coordinates` (OpenSSL): the point with this x-coordinate, taken modulo `p`, and this parity of `y`, if there is one. -/
def DecodeOk (decode : ℕ → Bool → Option (ℕ × ℕ)) : Prop :=
  ∀ x b P, decode x b = some P ↔ P.1 = x % W.p ∧ P.2 < W.p ∧ (P.2 % 2 = 1 ↔ b = true) ∧ P.2 ^ 2 ≡ P.1 ^ 3 + W.a * P.1 + W.b [MOD W.p]

/-- One attempt undone, with the public fixed key. -/
def unstep (B : Bytes) : Bytes :=
  Block.toBytes (D (Block.ofBytes (B.take 16))) ++ Block.toBytes (D (Block.ofBytes (B.drop 16)) ^^^ Block.ofBytes (B.take 16))

/-- The blocks that can have been hashed to a point with this x-coordinate in at most `n` attempts. -/
def preimages (n : ℕ) (x : ℕ) : List Block :=
  (List.range (2 ^ 256 / W.p + 1)).flatMap fun j => (List.range n).map fun k =>
    D (Block.ofBytes ((unstep^[k + 1] (beBytes 32 (x + j * W.p))).take 16))

theorem ofBE_lt (b : Bytes) : ofBE b < 256 ^ b.length := by
  unfold ofBE
  rw [← List.length_reverse]
  exact ofLE_lt b.reverse

theorem beBytes_ofBE (b : Bytes) : beBytes b.length (ofBE b) = b := by
  unfold ofBE beBytes
  rw [← List.length_reverse, leBytes_ofLE, List.reverse_reverse]

theorem split32 (z : Bytes) (hz : z.length = 32) : ∃ a b : Block, z = Block.toBytes a ++ Block.toBytes b := by
  refine ⟨Block.ofBytes (z.take 16), Block.ofBytes (z.drop 16), ?_⟩
  rw [Block.toBytes_ofBytes _ (by simp [hz]), Block.toBytes_ofBytes _ (by simp [hz]), List.take_append_drop]

theorem unstep_step (z y : Bytes) (hz : z.length = 32) (h : dedicatedCbcAes z = some y) : unstep y = z ∧ y.length = 32 := by
  obtain ⟨a, b, rfl⟩ := split32 z hz
  rw [dedicated_spec, Option.some.injEq] at h
  subst h
  refine ⟨?_, by simp⟩
  unfold unstep
  rw [List.take_append_of_le_length (by simp), List.take_of_length_le (by simp), List.drop_append_of_le_length (by simp),
    List.drop_of_length_le (by simp), List.nil_append, Block.ofBytes_toBytes, Block.ofBytes_toBytes, D_E, D_E, BitVec.xor_assoc, BitVec.xor_self,
    BitVec.xor_zero]

theorem loop_found {P : ℕ × ℕ} (decode : ℕ → Bool → Option (ℕ × ℕ)) (yb : Bool) (n : ℕ) (z : Bytes) (hz : z.length = 32)
    (h : blockToPointLoop decode yb n z = some P) :
    ∃ k < n, ∃ B : Bytes, B.length = 32 ∧ unstep^[k + 1] B = z ∧ decode (ofBE B) yb = some P := by
  induction n generalizing z with
  | zero => simp [blockToPointLoop] at h
  | succ n ih =>
    unfold blockToPointLoop at h
    rw [Option.bind_eq_some_iff] at h
    obtain ⟨y, e, h⟩ := h
    obtain ⟨u, l⟩ := unstep_step z y hz e
    split at h
    · rename_i p hd
      rw [Option.some.injEq] at h
      subst h
      exact ⟨0, by omega, y, l, u, hd⟩
    · obtain ⟨k, hk, B, b1, b2, b3⟩ := ih y l h
      refine ⟨k + 1, by omega, B, b1, ?_, b3⟩
      rw [Function.iterate_succ_apply', b2, u]

/-- **C99** `BlockToECPoint` returns points of the curve: the x-coordinate comes from the candidates, the parity of `y` from the first bit of the
hash of the block. -/
theorem block_to_point_sound (decode : ℕ → Bool → Option (ℕ × ℕ)) (hd : DecodeOk W decode) (n : ℕ) (v : Block) (P : ℕ × ℕ)
    (h : blockToPoint decode n v = some P) :
    P.2 < W.p ∧ P.2 ^ 2 ≡ P.1 ^ 3 + W.a * P.1 + W.b [MOD W.p] ∧
      ∃ b : Bytes, blockToBytes v = some b ∧ P.2 % 2 = (b.getD 0 0).toNat % 2 := by
  unfold blockToPoint at h
  rw [Option.bind_eq_some_iff] at h
  obtain ⟨b, e, h⟩ := h
  obtain ⟨b', e', l⟩ := blockToBytes_length v
  rw [e, Option.some.injEq] at e'
  subst e'
  obtain ⟨k, -, B, -, -, hB⟩ := loop_found decode _ n b l h
  obtain ⟨-, h2, h3, h4⟩ := (hd _ _ _).1 hB
  refine ⟨h2, h4, b, e, ?_⟩
  rw [beq_iff_eq] at h3
  omega

/-- **C99** (violated) The hash to the curve is not one-way: the block that was hashed is in a list computed from the x-coordinate with the public fixed key;
for a prime above 2^255 the list has at most two entries for every attempt. -/
theorem block_to_point_inverted (decode : ℕ → Bool → Option (ℕ × ℕ)) (hd : DecodeOk W decode) (n : ℕ) (v : Block) (P : ℕ × ℕ)
    (h : blockToPoint decode n v = some P) :
    v ∈ preimages W n P.1 ∧ (2 ^ 255 < W.p → (preimages W n P.1).length ≤ 2 * n) := by
  constructor
  · unfold blockToPoint at h
    rw [Option.bind_eq_some_iff] at h
    obtain ⟨b, e, h⟩ := h
    obtain ⟨b', e', l⟩ := blockToBytes_length v
    rw [e, Option.some.injEq] at e'
    subst e'
    obtain ⟨k, hk, B, hl, hB, hP⟩ := loop_found decode _ n b l h
    obtain ⟨h1, -⟩ := (hd _ _ _).1 hP
    unfold preimages
    rw [List.mem_flatMap]
    refine ⟨ofBE B / W.p, ?_, List.mem_map.2 ⟨k, List.mem_range.2 hk, ?_⟩⟩
    · rw [List.mem_range]
      have : ofBE B < 256 ^ B.length := ofBE_lt B
      rw [hl] at this
      exact Nat.lt_succ_of_le (Nat.div_le_div_right (by norm_num at this ⊢; omega))
    · rw [h1, Nat.mod_add_div', ← hl, beBytes_ofBE, hB]
      exact hash_block_invertible v b e
  · intro hp
    have : 2 ^ 256 / W.p < 2 := Nat.div_lt_of_lt_mul (by omega)
    unfold preimages
    simp only [List.length_flatMap, List.length_map, List.length_range, List.map_const', List.sum_replicate, smul_eq_mul]
    exact Nat.mul_le_mul_right n (by omega)

/-! ### Cases that meet the hypotheses -/

/-- A curve on which every x-coordinate occurs: `x³ + 2x + 1 = 1` modulo 3. -/
def exW : Weier := ⟨3, 2, 1⟩

theorem exRoot : RootOk exW.p fun s => s % 3 := by
  intro s hs
  refine ⟨Int.emod_nonneg _ (by decide), Int.emod_lt_of_pos _ (by decide), ?_⟩
  rw [show ((s % 3 : ℤ) : ZMod exW.p) = (s : ZMod exW.p) from ZMod.intCast_mod s 3]
  have : ∀ t : ZMod 3, IsSquare t → t ^ 2 = t := by decide
  exact this s hs

/-- On this curve the first candidate is always taken. -/
theorem exHit (x : ℕ) : exW.Hit x := by
  have : ∀ t : ZMod 3, (t ^ 3 + 2 * t + 1 ≠ 0) ∧ IsSquare (t ^ 3 + 2 * t + 1) := by decide
  exact this (x : ZMod 3)

example (H : Bytes → Bytes) (s : Bytes) : ∃ x y, exW.stringToPoint H (fun s => s % 3) 1 s = some (some (x, y)) :=
  ⟨_, _, (string_to_point_first exW (by decide) (by decide) H _ exRoot 1 s).2 0 (by decide) (exHit _) (by simp)⟩

/-- A function as `DecodeOk` asks for exists for every curve. -/
theorem decode_exists (hp : W.p.Prime) (h2 : W.p ≠ 2) : ∃ decode, DecodeOk W decode := by
  classical
  haveI := Fact.mk hp
  refine ⟨fun x b => if h : ∃ P : ℕ × ℕ, P.1 = x % W.p ∧ P.2 < W.p ∧ (P.2 % 2 = 1 ↔ b = true) ∧ P.2 ^ 2 ≡ P.1 ^ 3 + W.a * P.1 + W.b [MOD W.p]
    then some h.choose else none, ?_⟩
  intro x b P
  simp only []
  constructor
  · intro h
    split at h
    · rename_i hh
      rw [Option.some.injEq] at h
      rw [← h]
      exact hh.choose_spec
    · cases h
  · intro h
    have hh : ∃ P : ℕ × ℕ, P.1 = x % W.p ∧ P.2 < W.p ∧ (P.2 % 2 = 1 ↔ b = true) ∧ P.2 ^ 2 ≡ P.1 ^ 3 + W.a * P.1 + W.b [MOD W.p] := ⟨P, h⟩
    rw [dif_pos hh, Option.some.injEq]
    obtain ⟨c1, c2, c3, c4⟩ := hh.choose_spec
    obtain ⟨d1, d2, d3, d4⟩ := h
    generalize hh.choose = Q at *
    have e1 : Q.1 = P.1 := c1.trans d1.symm
    rw [e1] at c4
    have e := c4.trans d4.symm
    rw [← ZMod.natCast_eq_natCast_iff] at e
    push_cast at e
    have hodd : W.p % 2 = 1 := (hp.eq_two_or_odd).resolve_left h2
    rcases sq_eq_sq_iff_eq_or_eq_neg.1 e with h | h
    · rw [ZMod.natCast_eq_natCast_iff, Nat.ModEq, Nat.mod_eq_of_lt c2, Nat.mod_eq_of_lt d2] at h
      exact Prod.ext e1 h
    · have h' : ((Q.2 + P.2 : ℕ) : ZMod W.p) = 0 := by
        push_cast
        rw [h]
        ring
      rw [ZMod.natCast_eq_zero_iff] at h'
      obtain ⟨k, hk⟩ := h'
      have hk2 : k < 2 := by
        by_contra hc
        have : W.p * 2 ≤ W.p * k := Nat.mul_le_mul_left _ (by omega)
        omega
      have hpar : Q.2 % 2 = P.2 % 2 := by
        have : Q.2 % 2 = 1 ↔ P.2 % 2 = 1 := c3.trans d3.symm
        omega
      obtain rfl | rfl : k = 0 ∨ k = 1 := by omega
      · exact Prod.ext e1 (by omega)
      · omega

example (v : Block) : ∃ decode, DecodeOk exW decode ∧ ∃ P, blockToPoint decode 1 v = some P := by
  obtain ⟨decode, hd⟩ := decode_exists exW (by decide) (by decide)
  refine ⟨decode, hd, ?_⟩
  have hit : ∀ (x : ℕ) (b : Bool), ∃ P, decode x b = some P := by
    intro x b
    have h : (x % 3) ^ 3 + 2 * (x % 3) + 1 ≡ 1 [MOD 3] := by
      have : x % 3 < 3 := Nat.mod_lt _ (by decide)
      interval_cases (x % 3) <;> decide
    cases b
    · exact ⟨(x % 3, 2), (hd _ _ _).2 ⟨rfl, show 2 < 3 by decide, show 2 % 2 = 1 ↔ _ by decide, (show 2 ^ 2 ≡ 1 [MOD 3] by decide).trans h.symm⟩⟩
    · exact ⟨(x % 3, 1), (hd _ _ _).2 ⟨rfl, show 1 < 3 by decide, show 1 % 2 = 1 ↔ _ by decide, (show 1 ^ 2 ≡ 1 [MOD 3] by decide).trans h.symm⟩⟩
  obtain ⟨b, e, l⟩ := blockToBytes_length v
  obtain ⟨a, c, rfl⟩ := split32 b l
  unfold blockToPoint blockToPointLoop
  rw [e, Option.bind_some, dedicated_spec, Option.bind_some]
  obtain ⟨P, hP⟩ := hit (ofBE (Block.toBytes (E a) ++ Block.toBytes (E (c ^^^ E a)))) (((Block.toBytes a ++ Block.toBytes c).getD 0 0).toNat % 2 == 1)
  exact ⟨P, by rw [hP]⟩

end Kunlun.Hash
