import Verif.Model.Prg
/-!
C13 (pseudorandom generator) and C15 (one-time pad), on top of the real AES-128.
-/

namespace Kunlun.PRG

open Kunlun Kunlun.AES

/-! ### C13 -/

/-- **C13** Blocks drawn in several calls are the blocks drawn in one call of the total size, and the seed ends in the same state.
`temps` and `temp` are the (uninitialised) contents of the local arrays. -/
theorem prg_split_independent (temps : Nat → List Block) (temp : List Block) (ht : temp.length = 8) (hts : ∀ i, (temps i).length = 8)
    (seed : Seed) (ns : List Nat) :
    ∃ parts seed', draws temps 0 seed ns = some (parts, seed') ∧ parts.map List.length = ns ∧
      genRandomBlocks temp seed ns.sum = some (parts.flatten, seed') := by
  have gen : ∀ (ns : List Nat) (i : Nat) (seed : Seed), ∃ parts seed', draws temps i seed ns = some (parts, seed') ∧
      parts.map List.length = ns ∧ genRandomBlocks temp seed ns.sum = some (parts.flatten, seed') := by
    intro ns
    induction ns with
    | nil =>
      intro i seed
      refine ⟨[], seed, rfl, rfl, ?_⟩
      rw [genRandomBlocks_spec temp ht]
      simp [stream]
    | cons n ns ih =>
      intro i seed
      obtain ⟨parts, seed', e, l, g⟩ := ih (i + 1) ⟨seed.counter + BitVec.ofNat 64 n, seed.key⟩
      refine ⟨stream seed.key seed.counter n :: parts, seed', ?_, by simp [l], ?_⟩
      · rw [draws, genRandomBlocks_spec _ (hts i), Option.bind_some, e]; rfl
      · rw [genRandomBlocks_spec temp ht] at g ⊢
        simp only [Option.some.injEq, Prod.mk.injEq] at g ⊢
        obtain ⟨g1, g2⟩ := g
        refine ⟨?_, ?_⟩
        · rw [List.sum_cons, stream_add, List.flatten_cons, ← g1]
        · rw [← g2, List.sum_cons, BitVec.ofNat_add, BitVec.add_assoc]
  exact gen ns 0 seed

/-- **C13** Two seeds initialised alike give identical output, whatever is in the uninitialised memory of the two runs. -/
theorem prg_deterministic (t1 t2 : List Block) (h1 : t1.length = 8) (h2 : t2.length = 8) (salt : Block) (id : BitVec 64) (len : Nat) :
    genRandomBlocks t1 (setSeed salt id) len = genRandomBlocks t2 (setSeed salt id) len ∧
    genRandomBytes t1 (setSeed salt id) len = genRandomBytes t2 (setSeed salt id) len ∧
    genRandomBits t1 (setSeed salt id) len = genRandomBits t2 (setSeed salt id) len := by
  refine ⟨?_, ?_, ?_⟩
  · rw [genRandomBlocks_spec t1 h1, genRandomBlocks_spec t2 h2]
  · rw [genRandomBytes_spec t1 h1, genRandomBytes_spec t2 h2]
  · unfold genRandomBits
    rw [genRandomBytes_spec t1 h1, genRandomBytes_spec t2 h2]

/-- **C13** No counter value is used twice for one seed: over all calls made with a seed, up to 2^64 blocks in total, no output block
repeats. -/
theorem prg_no_repeat (temps : Nat → List Block) (hts : ∀ i, (temps i).length = 8) (salt : Block) (id : BitVec 64) (ns : List Nat)
    (h : ns.sum ≤ 2 ^ 64) : ∃ parts seed', draws temps 0 (setSeed salt id) ns = some (parts, seed') ∧ parts.flatten.Nodup := by
  obtain ⟨parts, seed', e, _, g⟩ := prg_split_independent temps (temps 0) (hts 0) hts (setSeed salt id) ns
  refine ⟨parts, seed', e, ?_⟩
  rw [genRandomBlocks_spec _ (hts 0)] at g
  simp only [Option.some.injEq, Prod.mk.injEq] at g
  rw [← g.1]
  exact stream_nodup _ (by show 1 ≤ 10; omega) _ _ h

/-- The bound is sharp: block number 2^64 is block number 0 again. -/
theorem prg_wraps (k : Key) (c : BitVec 64) (n : Nat) (h : 2 ^ 64 < n) : (stream k c n)[2 ^ 64]? = (stream k c n)[0]? := by
  rw [stream_getElem?, stream_getElem?, if_pos h, if_pos (by omega)]
  congr 4

/-- **C13** Each block is the encryption of its index: blocks are AES in counter mode. -/
theorem prg_counter_mode (temp : List Block) (ht : temp.length = 8) (salt : Block) (id : BitVec 64) (len i : Nat) (hi : i < len) :
    ∃ bs s, genRandomBlocks temp (setSeed salt id) len = some (bs, s) ∧ bs.length = len ∧
      bs[i]? = some (enc (genEncKey (salt ^^^ Block.makeBlock 0 id)) (Block.makeBlock 0 (BitVec.ofNat 64 i))) := by
  refine ⟨_, _, genRandomBlocks_spec temp ht _ _, by simp, ?_⟩
  rw [stream_getElem?, if_pos hi]
  simp [setSeed]

/-- **C13** Bytes are the leading bytes of the block stream, and only their low bits are kept for bit vectors. -/
theorem prg_bytes_bits (temp : List Block) (ht : temp.length = 8) (seed : Seed) (len : Nat) :
    ∃ bs s1 bytes, genRandomBlocks temp seed ((len + 15) / 16) = some (bs, s1) ∧ genRandomBytes temp seed len = some (bytes, s1) ∧
      bytes = (bytesOf bs).take len ∧ bytes.length = len ∧ genRandomBits temp seed len = some (bytes.map (· &&& 1), s1) := by
  refine ⟨_, _, _, genRandomBlocks_spec temp ht _ _, genRandomBytes_spec temp ht _ _, rfl, ?_, ?_⟩
  · simp [bytesOf_length]; omega
  · unfold genRandomBits; rw [genRandomBytes_spec temp ht]; rfl

/-- Byte requests compose like block requests when the first ones are multiples of 16. -/
theorem prg_bytes_split (temp : List Block) (ht : temp.length = 8) (seed : Seed) (a b : Nat) :
    (genRandomBytes temp seed (16 * a)).bind (fun r => (genRandomBytes temp r.2 b).map fun q => (r.1 ++ q.1, q.2)) =
      genRandomBytes temp seed (16 * a + b) := by
  rw [genRandomBytes_spec temp ht, Option.bind_some]
  simp only
  rw [genRandomBytes_spec temp ht, genRandomBytes_spec temp ht, Option.map_some]
  rw [show (16 * a + 15) / 16 = a by omega, show (16 * a + b + 15) / 16 = a + (b + 15) / 16 by omega, stream_add, bytesOf_append]
  have hl : (bytesOf (stream seed.key seed.counter a)).length = 16 * a := by rw [bytesOf_length, stream_length]
  congr 2
  · rw [List.take_append, hl, show 16 * a + b - 16 * a = b by omega, List.take_of_length_le (i := 16 * a) (by omega),
      List.take_of_length_le (i := 16 * a + b) (by omega)]
  · congr 1
    rw [BitVec.ofNat_add, BitVec.add_assoc]

/-- But not in general: each byte request starts a fresh block, so two one-byte requests are not one two-byte request. -/
theorem prg_bytes_split_wrong : ∃ seed : Seed, ∀ temp : List Block, temp.length = 8 →
    (genRandomBytes temp seed 1).bind (fun r => (genRandomBytes temp r.2 1).map fun q => r.1 ++ q.1) ≠
      (genRandomBytes temp seed 2).map (·.1) := by
  refine ⟨setSeed 0#128 0, fun temp ht => ?_⟩
  rw [genRandomBytes_spec temp ht, Option.bind_some]
  simp only
  rw [genRandomBytes_spec temp ht, genRandomBytes_spec temp ht, Option.map_some, Option.map_some]
  decide +kernel

/-- The block matrix used by the OT extensions is the block stream, cut to size; other shapes fail the assertion. -/
theorem prg_bit_matrix (temp : List Block) (ht : temp.length = 8) (seed : Seed) (rows cols : Nat) (hr : rows % 128 = 0) (hc : cols % 8 = 0) :
    ∃ m s, genRandomBitMatrix temp seed rows cols = some (m, s) ∧ 128 * m.length = rows * cols ∧
      genRandomBlocks temp seed (rows / 128 * cols) = some (m, s) := by
  unfold genRandomBitMatrix
  rw [if_pos ⟨hr, hc⟩, genRandomBlocks_spec temp ht]
  refine ⟨_, _, rfl, ?_, rfl⟩
  rw [stream_length, ← Nat.mul_assoc]
  congr 1
  omega

/-! ### C15 -/

/-- **C15** Decryption with the same key restores the message, for every key and every length, and every access is in range. -/
theorem otp_round_trip (t1 t2 : List Block) (h1 : t1.length = 8) (h2 : t2.length = 8) (key : Block) (m : Bytes) :
    ∃ c, otpEnc t1 key m = some c ∧ c.length = m.length ∧ otpDec t2 key c = some m := by
  have hpad : ((bytesOf (stream (setSeed key 0).key (setSeed key 0).counter ((m.length + 15) / 16))).take m.length).length = m.length := by
    simp [bytesOf_length]; omega
  generalize hp : (bytesOf (stream (setSeed key 0).key (setSeed key 0).counter ((m.length + 15) / 16))).take m.length = pad at hpad
  have hl : (List.zipWith (· ^^^ ·) pad m).length = m.length := by rw [List.length_zipWith, hpad]; omega
  refine ⟨List.zipWith (· ^^^ ·) pad m, ?_, hl, ?_⟩
  · unfold otpEnc
    rw [genRandomBytes_spec t1 h1, Option.bind_some, hp]
    exact xorBytes_spec _ _ (by rw [hpad]; omega)
  · unfold otpDec
    rw [hl, genRandomBytes_spec t2 h2, Option.bind_some, hp, xorBytes_spec _ _ (by rw [hpad, hl]; omega), zipWith_xor_twice _ _ hpad]

/-- Encrypting is not the identity: the pad of the zero key does change a message. -/
example : otpEnc (List.replicate 8 0#128) 0#128 [1, 2, 3] ≠ some [1, 2, 3] := by
  unfold otpEnc
  rw [genRandomBytes_spec _ (by rfl), Option.bind_some]
  decide +kernel

/-- `XOR` with a shorter second operand reads out of range; the size check only prints. -/
theorem xor_size_mismatch (a b : Bytes) (h : b.length < a.length) : xorBytes a b = none := by
  induction a generalizing b with
  | nil => simp at h
  | cons x xs ih =>
    cases b with
    | nil => rfl
    | cons y ys => simp [xorBytes, ih ys (by simpa using h)]

end Kunlun.PRG
