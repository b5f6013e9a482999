import Verif.Model.P256Codec
/-!
Model of `MurmurHash64A` (utility/murmurhash2.hpp:134-175) and of `ECPoint::ToUint64` (crypto/ec_point.hpp:242-251), the key under which the
tables of `pke/calculate_dlog.hpp` store points.

The message is the list of the `len` bytes at the pointer, at most 2^31 of them (`int len`).
-/

namespace Kunlun.Murmur64

open Kunlun

abbrev W := BitVec 64

/-- murmurhash2.hpp:136 -/
def m : W := 0xc6a4a7935bd1e995#64

/-- `getblock` on a little-endian machine: an 8-byte load (murmurhash2.hpp:55-66). -/
def getblock (w : Bytes) : W := BitVec.ofNat 64 (ofLE w)

/-- murmurhash2.hpp:148-150 -/
def mix (k : W) : W :=
  let k := k * m
  let k := k ^^^ (k >>> 47)
  k * m

/-- The body of the loop, murmurhash2.hpp:152-153. -/
def round (h k : W) : W := (h ^^^ mix k) * m

/-- The loop of murmurhash2.hpp:144-154 over `n` words: the hash and the bytes left. -/
def words : Nat → W → Bytes → W × Bytes
  | 0, h, l => (h, l)
  | n + 1, h, l => words n (round h (getblock (l.take 8))) (l.drop 8)

/-- The `switch` of murmurhash2.hpp:158-168, entered at `len & 7`: the bytes from the last to the first, then the multiplication. -/
def tail (h : W) (l : Bytes) : W :=
  if l = [] then h
  else ((List.range l.length).reverse.foldl (fun h i => h ^^^ (BitVec.ofNat 64 (l.getD i 0).toNat <<< (8 * i))) h) * m

/-- murmurhash2.hpp:170-172 -/
def final (h : W) : W :=
  let h := h ^^^ (h >>> 47)
  let h := h * m
  h ^^^ (h >>> 47)

/-- murmurhash2.hpp:134-175 -/
def hash (data : Bytes) (seed : W) : W :=
  let (h, rest) := words (data.length / 8) (seed ^^^ (BitVec.ofNat 64 data.length * m)) data
  final (tail h rest)

/-- murmurhash2.hpp:133 -/
def fixedSalt : W := 0xAAAAAAAA#64

/-- The buffer of ec_point.hpp:245-249: the compressed form over zeros; for the point at infinity one byte is written. -/
def buffer : P256.Pt → Bytes
  | .zero => List.replicate 33 0
  | .some x y _ => UInt8.ofNat (2 + y.val % 2) :: beBytes P256.bnLen x.val

/-- ec_point.hpp:242-251 `ToUint64` -/
def toUint64 (P : P256.Pt) : W := hash (buffer P) fixedSalt

/-! ### Every step can be undone -/

/-- The inverse of `m`. -/
def mInv : W := 0x5f7a0ea7e59b19bd#64

theorem m_mInv : m * mInv = 1#64 := by decide

theorem mul_m_bij : Function.Bijective (fun h : W => h * m) := by
  refine Function.bijective_iff_has_inverse.2 ⟨fun h => h * mInv, ?_, ?_⟩
  · intro h
    show h * m * mInv = h
    rw [BitVec.mul_assoc, m_mInv, BitVec.mul_one]
  · intro h
    show h * mInv * m = h
    rw [BitVec.mul_assoc, BitVec.mul_comm mInv, m_mInv, BitVec.mul_one]

theorem shift_xor_invol (h : W) : (h ^^^ (h >>> 47)) ^^^ ((h ^^^ (h >>> 47)) >>> 47) = h := by
  apply BitVec.eq_of_getLsbD_eq
  intro i hi
  simp only [BitVec.getLsbD_xor, BitVec.getLsbD_ushiftRight]
  have : h.getLsbD (47 + (47 + i)) = false := BitVec.getLsbD_of_ge _ _ (by omega)
  rw [this]
  cases h.getLsbD i <;> cases h.getLsbD (47 + i) <;> rfl

theorem shift_xor_bij : Function.Bijective (fun h : W => h ^^^ (h >>> 47)) :=
  Function.Involutive.bijective shift_xor_invol

theorem xor_bij (k : W) : Function.Bijective (fun h : W => h ^^^ k) :=
  Function.Involutive.bijective fun h => by show h ^^^ k ^^^ k = h; rw [BitVec.xor_assoc, BitVec.xor_self, BitVec.xor_zero]

theorem mix_bij : Function.Bijective mix := mul_m_bij.comp (shift_xor_bij.comp mul_m_bij)

theorem round_bij (k : W) : Function.Bijective (fun h => round h k) := mul_m_bij.comp (xor_bij (mix k))

theorem round_bij' (h : W) : Function.Bijective (round h) := by
  have : round h = fun k => (mix k ^^^ h) * m := by funext k; rw [round, BitVec.xor_comm]
  rw [this]
  exact mul_m_bij.comp ((xor_bij h).comp mix_bij)

theorem final_bij : Function.Bijective final := shift_xor_bij.comp (mul_m_bij.comp shift_xor_bij)

theorem foldl_xor_bij (f : Nat → W) : ∀ l : List Nat, Function.Bijective (fun h : W => l.foldl (fun h i => h ^^^ f i) h)
  | [] => Function.bijective_id
  | i :: l => (foldl_xor_bij f l).comp (xor_bij (f i))

theorem tail_bij (l : Bytes) : Function.Bijective (fun h => tail h l) := by
  unfold tail
  by_cases hl : l = []
  · simp only [hl, if_true]
    exact Function.bijective_id
  · simp only [hl, if_false]
    exact mul_m_bij.comp (foldl_xor_bij _ _)

theorem words_rest (n : Nat) (h h' : W) (l : Bytes) : (words n h l).2 = (words n h' l).2 := by
  induction n generalizing h h' l with
  | zero => rfl
  | succ n ih => exact ih _ _ _

theorem words_bij (n : Nat) (l : Bytes) : Function.Bijective (fun h => (words n h l).1) := by
  induction n generalizing l with
  | zero => exact Function.bijective_id
  | succ n ih => exact (ih (l.drop 8)).comp (round_bij _)

theorem words_add (n n' : Nat) (h : W) (l : Bytes) : words (n + n') h l = words n' (words n h l).1 (words n h l).2 := by
  induction n generalizing h l with
  | zero => rw [Nat.zero_add]; rfl
  | succ n ih => rw [show n + 1 + n' = (n + n') + 1 by omega]; exact ih _ _

theorem words_append (n : Nat) (h : W) (p s : Bytes) (hp : p.length = 8 * n) : words n h (p ++ s) = ((words n h p).1, s) := by
  induction n generalizing h p with
  | zero =>
    obtain rfl : p = [] := List.length_eq_zero_iff.1 (by omega)
    rfl
  | succ n ih =>
    have e : (p ++ s).take 8 = p.take 8 := List.take_append_of_le_length (by omega)
    have e' : (p ++ s).drop 8 = p.drop 8 ++ s := List.drop_append_of_le_length (by omega)
    show words n (round h (getblock ((p ++ s).take 8))) ((p ++ s).drop 8) = _
    rw [e, e', ih _ _ (by simp; omega)]
    rfl

end Kunlun.Murmur64
