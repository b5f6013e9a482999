import Verif.Model.FastKey
import Verif.Props.Aes
import Verif.Props.Murmur64
/-!
C138: the fast 64-bit keys of points, `ECPoint::FastToUint64`.
-/

namespace Kunlun.FastKey

open Kunlun Kunlun.AES

theorem ofLE_mod (b : Bytes) (k : Nat) : ofLE b % 256 ^ k = ofLE (b.take k) := by
  induction b generalizing k with
  | nil => simp [ofLE]
  | cons x xs ih =>
    cases k with
    | zero => simp [ofLE, Nat.mod_one]
    | succ k =>
      have hx := x.toNat_lt
      rw [List.take_succ_cons, ofLE, ofLE, ← ih k, pow_succ', Nat.mod_mul, Nat.add_mul_mod_self_left, Nat.mod_eq_of_lt (by omega),
        Nat.add_mul_div_left _ _ (by norm_num), Nat.div_eq_of_lt (by omega), Nat.zero_add]

/-- The low half of a block read from memory is its first eight bytes. -/
theorem low_half (b : Bytes) : (Block.ofBytes b).extractLsb' 0 64 = Murmur64.getblock (b.take 8) := by
  apply BitVec.eq_of_toNat_eq
  rw [Block.ofBytes, Murmur64.getblock, BitVec.extractLsb'_toNat, BitVec.toNat_ofNat, BitVec.toNat_ofNat, ← ofLE_mod, Nat.shiftRight_zero,
    Nat.mod_mod_of_dvd _ (by norm_num)]
  norm_num

/-- **C138** The key exists (no access leaves the array) and is the first half of the encrypted first block plus bytes 16 to 23. -/
theorem fast_key_value (k : Key) (b : Bytes) (hb : b.length = 33) :
    ofBuffer k b = some ((enc k (Block.ofBytes (b.take 16))).extractLsb' 0 64 ^^^ Murmur64.getblock ((b.drop 16).take 8)) := by
  unfold ofBuffer
  obtain ⟨r, e, hd⟩ := aes_fastECB_in_place k [Block.ofBytes (b.take 16), Block.ofBytes ((b.drop 16).take 16)] 1 (by simp)
  simp only [e, Option.bind_some, hd]
  show some _ = some _
  congr 1
  rw [BitVec.extractLsb'_xor, low_half, List.take_take, BitVec.xor_comm]
  rfl

theorem getblock_inj {a b : Bytes} (ha : a.length = 8) (hb : b.length = 8) (h : Murmur64.getblock a = Murmur64.getblock b) : a = b := by
  obtain ⟨w, -, hu⟩ := Murmur64.getblock_bij (Murmur64.getblock a)
  rw [hu a ⟨ha, rfl⟩, hu b ⟨hb, h.symm⟩]

/-- **C138, what holds** Buffers with the same first sixteen bytes have the same key exactly when they agree in the next eight bytes, whatever the
key of the cipher is. -/
theorem fast_key_tells_apart_partial (k : Key) (b b' : Bytes) (hb : b.length = 33) (hb' : b'.length = 33) (h : b.take 16 = b'.take 16) :
    ofBuffer k b = ofBuffer k b' ↔ b.take 24 = b'.take 24 := by
  have hs : ∀ c : Bytes, c.take 24 = c.take 16 ++ (c.drop 16).take 8 := fun c => by
    rw [show 24 = 16 + 8 by rfl, List.take_add]
  rw [fast_key_value k b hb, fast_key_value k b' hb', hs b, hs b', h, Option.some.injEq]
  constructor
  · intro e
    have e := congrArg ((enc k (Block.ofBytes (b'.take 16))).extractLsb' 0 64 ^^^ ·) e
    simp only [← BitVec.xor_assoc, BitVec.xor_self, BitVec.zero_xor] at e
    rw [getblock_inj (by simp [hb]) (by simp [hb']) e]
  · intro e
    rw [List.append_cancel_left e]

theorem be_head (v : ℕ) : (beBytes 32 v).take 23 = beBytes 23 (v / 2 ^ 72) := by
  have hd : ∀ (k n v : ℕ), (leBytes (n + k) v).drop k = leBytes n (v / 256 ^ k) := by
    intro k
    induction k with
    | zero => intro n v; simp
    | succ k ih =>
      intro n v
      rw [← Nat.add_assoc, leBytes, List.drop_succ_cons, ih, Nat.div_div_eq_div_mul, pow_succ']
  have := hd 9 23 v
  rw [beBytes, beBytes, List.take_reverse, leBytes_length]
  rw [show 256 ^ 9 = 2 ^ 72 by norm_num] at this
  rw [← this]

/-- **C138, the violation** The last nine bytes of the abscissa do not matter: points with the same sign whose abscissae differ in the low 72 bits
only have the same key, for every key of the cipher. -/
theorem fast_key_low_bits (k : Key) (x y x' y' : P256.F) (h h') (hx : x.val / 2 ^ 72 = x'.val / 2 ^ 72) (hy : y.val % 2 = y'.val % 2) :
    fastToUint64 k (.some x y h) = fastToUint64 k (.some x' y' h') := by
  unfold fastToUint64
  have hl : ∀ z : P256.F, (beBytes P256.bnLen z.val).length = 32 := fun z => P256.beBytes_length _ _
  have e : (Murmur64.buffer (.some x y h)).take 24 = (Murmur64.buffer (.some x' y' h')).take 24 := by
    show (UInt8.ofNat (2 + y.val % 2) :: beBytes 32 x.val).take 24 = (UInt8.ofNat (2 + y'.val % 2) :: beBytes 32 x'.val).take 24
    rw [List.take_succ_cons, List.take_succ_cons, be_head, be_head, hx, hy]
  refine (fast_key_tells_apart_partial k _ _ (by simp [Murmur64.buffer, hl]) (by simp [Murmur64.buffer, hl]) ?_).2 e
  have := congrArg (List.take 16) e
  rwa [List.take_take, List.take_take] at this

def ya : ℕ := 0x66485c780e2f83d72433bd5d84a06bb6541c2af31dae871728bf856a174f93f4
def yb : ℕ := 0x459243b9aa581806fe913bce99817ade11ca503c64d9a3c533415c083248fbcc
def yc : ℕ := 0x520df747dadad32aa7b0a84cf3e72978b1be30ff3e73c1074d2dec42be820012
/-- Points of the curve with abscissae 0, 5 and 23. -/
def A : P256.Pt := P256.mk (0 : ℕ) ya (Murmur64.on_curve (by unfold P256.p; decide +kernel))
def B : P256.Pt := P256.mk (5 : ℕ) yb (Murmur64.on_curve (by unfold P256.p; decide +kernel))
def C : P256.Pt := P256.mk (23 : ℕ) yc (Murmur64.on_curve (by unfold P256.p; decide +kernel))

/-- **C138, the violation** Three different points with one key, for every key of the cipher. -/
theorem fast_keys_collide (k : Key) : A ≠ B ∧ B ≠ C ∧ A ≠ C ∧ fastToUint64 k A = fastToUint64 k B ∧ fastToUint64 k B = fastToUint64 k C := by
  have ne : ∀ {x x' y y' : ℕ} (h h'), x < P256.p → x' < P256.p → x ≠ x' → P256.mk (x : P256.F) (y : P256.F) h ≠ P256.mk (x' : P256.F) (y' : P256.F) h' := by
    intro x x' y y' h h' h1 h2 hne he
    unfold P256.mk at he
    injection he with hx _
    exact hne (P256.cast_inj h1 h2 hx)
  have hp : 23 < P256.p := by unfold P256.p; decide +kernel
  have v : ∀ n : ℕ, n ≤ 23 → ((n : ℕ) : P256.F).val = n := fun n hn => Murmur64.val_nat (by omega)
  have va : ((ya : ℕ) : P256.F).val = ya := Murmur64.val_nat (by unfold P256.p; decide +kernel)
  have vb : ((yb : ℕ) : P256.F).val = yb := Murmur64.val_nat (by unfold P256.p; decide +kernel)
  have vc : ((yc : ℕ) : P256.F).val = yc := Murmur64.val_nat (by unfold P256.p; decide +kernel)
  refine ⟨ne _ _ (by omega) (by omega) (by decide), ne _ _ (by omega) (by omega) (by decide), ne _ _ (by omega) (by omega) (by decide), ?_, ?_⟩
  · exact fast_key_low_bits k _ _ _ _ _ _ (by rw [v 0 (by omega), v 5 (by omega)]; decide) (by rw [va, vb]; decide +kernel)
  · exact fast_key_low_bits k _ _ _ _ _ _ (by rw [v 5 (by omega), v 23 (by omega)]; decide) (by rw [vb, vc]; decide +kernel)

/-- Two buffers that differ in byte 20. -/
example (k : Key) : ofBuffer k (List.replicate 33 0) ≠ ofBuffer k (List.replicate 20 0 ++ 1 :: List.replicate 12 0) := by
  rw [ne_eq, fast_key_tells_apart_partial k _ _ (by rfl) (by rfl) (by decide)]
  decide

end Kunlun.FastKey
