import Verif.Model.Hash
import Verif.Props.Aes
import Verif.Model.OtExtLemmas
/-! Properties of the AES-based hash functions. -/

namespace Kunlun.Hash

open Kunlun Kunlun.AES

/-- One encryption under the fixed key. -/
abbrev E (v : Block) : Block := enc fixedEncKey v
/-- One decryption under the key derived from it (aes.hpp:222). -/
abbrev D (v : Block) : Block := dec (deriveDecKey fixedEncKey) v

theorem D_E (v : Block) : D (E v) = v := aes_block_round_trip 0 v

theorem E_inj {v w : Block} (h : E v = E w) : v = w := by rw [← D_E v, h, D_E]

theorem dedicated_spec (a b : Block) :
    dedicatedCbcAes (Block.toBytes a ++ Block.toBytes b) = some (Block.toBytes (E a) ++ Block.toBytes (E (b ^^^ E a))) := by
  unfold dedicatedCbcAes
  have h1 : load (Block.toBytes a ++ Block.toBytes b) 0 16 = some (Block.toBytes a) := by
    unfold load
    rw [if_pos (by simp)]
    simp [List.take_append_of_le_length]
  have h2 : load (Block.toBytes a ++ Block.toBytes b) 16 16 = some (Block.toBytes b) := by
    unfold load
    rw [if_pos (by simp), List.drop_append_of_le_length (by simp)]
    simp [List.take_of_length_le]
  simp only [h1, h2, Option.bind_eq_bind, Option.bind_some, Block.ofBytes_toBytes, aes_cbc_chained, Option.pure_def]
  simp [PRG.bytesOf]

theorem zero_bytes : List.replicate 16 (0 : UInt8) = Block.toBytes 0 := by decide +kernel

/-- The 32 bytes: the block encrypted once, then twice. -/
theorem blockToBytes_spec (v : Block) : blockToBytes v = some (Block.toBytes (E v) ++ Block.toBytes (E (E v))) := by
  unfold blockToBytes
  rw [zero_bytes, dedicated_spec, show (0 : Block) = 0#128 from rfl, BitVec.zero_xor]

theorem blockToBytes_length (v : Block) : ∃ b, blockToBytes v = some b ∧ b.length = 32 :=
  ⟨_, blockToBytes_spec v, by simp⟩

/-- **C76** Different blocks are hashed to different byte strings. -/
theorem hash_block_injective (v w : Block) (h : blockToBytes v = blockToBytes w) : v = w := by
  rw [blockToBytes_spec, blockToBytes_spec, Option.some.injEq] at h
  have := List.append_inj_left h (by simp)
  exact E_inj (Block.toBytes_inj this)

/-- **C76** …and the block is read off the result by one decryption with a key everybody has: the "hash" hides nothing. -/
theorem hash_block_invertible (v : Block) (b : Bytes) (h : blockToBytes v = some b) : D (Block.ofBytes (b.take 16)) = v := by
  rw [blockToBytes_spec, Option.some.injEq] at h
  subst h
  rw [List.take_append_of_le_length (by simp), List.take_of_length_le (by simp), Block.ofBytes_toBytes, D_E]

/-- **C76** The step that the point hash iterates never merges two candidates. -/
theorem dedicated_injective (x y : Bytes) (hx : x.length = 32) (hy : y.length = 32) (h : dedicatedCbcAes x = dedicatedCbcAes y) : x = y := by
  have split : ∀ z : Bytes, z.length = 32 → ∃ a b : Block, z = Block.toBytes a ++ Block.toBytes b := by
    intro z hz
    refine ⟨Block.ofBytes (z.take 16), Block.ofBytes (z.drop 16), ?_⟩
    rw [Block.toBytes_ofBytes _ (by simp [hz]), Block.toBytes_ofBytes _ (by simp [hz]), List.take_append_drop]
  obtain ⟨a, b, rfl⟩ := split x hx
  obtain ⟨c, d, rfl⟩ := split y hy
  rw [dedicated_spec, dedicated_spec, Option.some.injEq] at h
  have h1 := E_inj (Block.toBytes_inj (List.append_inj_left h (by simp)))
  have h2 := E_inj (Block.toBytes_inj (List.append_inj_right h (by simp)))
  subst h1
  have : b = d := by
    have := congrArg (· ^^^ E a) h2
    simpa [BitVec.xor_assoc] using this
  rw [this]

/-- More attempts do not change a point that was found. -/
theorem blockToPoint_fuel {G : Type} (decode : Nat → Bool → Option G) (n m : Nat) (hnm : n ≤ m) (v : Block) (p : G)
    (hp : blockToPoint decode n v = some p) : blockToPoint decode m v = some p := by
  have key : ∀ (y : Bool) (n m : Nat) (_ : n ≤ m) (b : Bytes) (p : G), blockToPointLoop decode y n b = some p → blockToPointLoop decode y m b = some p := by
    intro y n
    induction n with
    | zero => intro m _ b p h; simp [blockToPointLoop] at h
    | succ n ih =>
      intro m hm b p h
      obtain ⟨m, rfl⟩ : ∃ k, m = k + 1 := ⟨m - 1, by omega⟩
      unfold blockToPointLoop at h ⊢
      rw [Option.bind_eq_some_iff] at h ⊢
      obtain ⟨b', e, h⟩ := h
      refine ⟨b', e, ?_⟩
      split at h
      · exact h
      · exact ih m (by omega) b' p h
  unfold blockToPoint at hp ⊢
  rw [Option.bind_eq_some_iff] at hp ⊢
  obtain ⟨b, e, h⟩ := hp
  exact ⟨b, e, key _ n m hnm b p h⟩

theorem cbcEncLoop_ne (k : Key) (p d : Block) (ds : List Block) : cbcEncLoop k p (d :: ds) ≠ [] := by simp [cbcEncLoop]

theorem cbcEncLoop_snoc (k : Key) (p : Block) (v : List Block) (b : Block) :
    cbcEncLoop k p (v ++ [b]) = cbcEncLoop k p v ++ [enc k (b ^^^ (cbcEncLoop k p v).getLastD p)] := by
  induction v generalizing p with
  | nil => simp [cbcEncLoop]
  | cons d ds ih =>
    rw [List.cons_append, cbcEncLoop, ih, cbcEncLoop]
    simp [List.getLast?_cons, List.getLastD_eq_getLast?]

/-- What the block-vector hash computes: the last block, xored with the hash of the blocks before it, encrypted. -/
theorem fastBlocksToBlock_snoc (v : List Block) (h : Block) (hv : fastBlocksToBlock v = some h) (b : Block) :
    fastBlocksToBlock (v ++ [b]) = some (E (b ^^^ h)) := by
  cases v with
  | nil => simp [fastBlocksToBlock, cbcEnc] at hv
  | cons d ds =>
    unfold fastBlocksToBlock at hv ⊢
    rw [List.cons_append, cbcEnc, Option.bind_some, ← List.cons_append, cbcEncLoop_snoc]
    rw [cbcEnc, Option.bind_some] at hv
    rw [List.getLastD_eq_getLast?, hv]
    simp

theorem fastBlocksToBlock_single (b : Block) : fastBlocksToBlock [b] = some (E b) := by
  simp [fastBlocksToBlock, cbcEnc, cbcEncLoop]

theorem fastBlocksToBlock_isSome (v : List Block) (h : v ≠ []) : ∃ r, fastBlocksToBlock v = some r := by
  cases v with
  | nil => exact absurd rfl h
  | cons d ds =>
    unfold fastBlocksToBlock
    rw [cbcEnc, Option.bind_some]
    cases e : (cbcEncLoop fixedEncKey 0#128 (d :: ds)).getLast? with
    | none => simp [cbcEncLoop] at e
    | some r => exact ⟨r, rfl⟩

/-- **C77** (violated) Collisions of the block-vector hash: any two vectors of at least one block are extended to two colliding ones, and
only encryptions under the public fixed key are needed. -/
theorem fastBlocksToBlock_collision (v w : List Block) (h k : Block) (hv : fastBlocksToBlock v = some h) (hw : fastBlocksToBlock w = some k)
    (b : Block) : fastBlocksToBlock (v ++ [b]) = fastBlocksToBlock (w ++ [b ^^^ h ^^^ k]) := by
  rw [fastBlocksToBlock_snoc v h hv, fastBlocksToBlock_snoc w k hw]
  congr 2
  rw [BitVec.xor_assoc (b ^^^ h), BitVec.xor_self, BitVec.xor_zero]

/-- A concrete use of the collision: two different two-block messages with the same hash. -/
theorem fastBlocksToBlock_collision_example : ∃ v w : List Block, v ≠ w ∧ v.length = 2 ∧ w.length = 2 ∧
    ∃ r, fastBlocksToBlock v = some r ∧ fastBlocksToBlock w = some r := by
  refine ⟨[0] ++ [0], [1] ++ [0 ^^^ E 0 ^^^ E 1], by simp, rfl, rfl, ?_⟩
  obtain ⟨r, hr⟩ := fastBlocksToBlock_isSome ([0] ++ [0]) (by simp)
  exact ⟨r, hr, by rw [← fastBlocksToBlock_collision [0] [1] (E 0) (E 1) (fastBlocksToBlock_single 0) (fastBlocksToBlock_single 1), hr]⟩

/-- **C77** What does hold: vectors that differ only in their last block, in particular single blocks, have different hashes. -/
theorem fastBlocksToBlock_injective_partial (v : List Block) (a b : Block) (h : fastBlocksToBlock (v ++ [a]) = fastBlocksToBlock (v ++ [b])) :
    a = b := by
  by_cases hv : v = []
  · subst hv
    rw [List.nil_append, List.nil_append, fastBlocksToBlock_single, fastBlocksToBlock_single, Option.some.injEq] at h
    exact E_inj h
  · obtain ⟨r, hr⟩ := fastBlocksToBlock_isSome v hv
    rw [fastBlocksToBlock_snoc v r hr, fastBlocksToBlock_snoc v r hr, Option.some.injEq] at h
    have := congrArg (· ^^^ r) (E_inj h)
    simpa [BitVec.xor_assoc] using this

theorem getLast_append_toBytes (bs : List Block) (i : Nat) (h : i < bs.length) :
    load (PRG.bytesOf bs) (i * 16) 16 = some (Block.toBytes (bs.getD i 0)) := by
  induction bs generalizing i with
  | nil => simp at h
  | cons b bs ih =>
    have hl : ∀ l : List Block, (PRG.bytesOf l).length = 16 * l.length := by
      intro l
      induction l with
      | nil => rfl
      | cons x l ih => simp only [PRG.bytesOf, List.map_cons, List.flatten_cons, List.length_append, List.length_cons] at ih ⊢; rw [ih]; simp; omega
    have hc : PRG.bytesOf (b :: bs) = Block.toBytes b ++ PRG.bytesOf bs := by simp [PRG.bytesOf]
    cases i with
    | zero =>
      unfold load
      rw [if_pos (by rw [hl]; simp), hc]
      simp [List.take_append_of_le_length]
    | succ i =>
      have h' : i < bs.length := by simpa using h
      have := ih i h'
      unfold load at this ⊢
      rw [if_pos (by rw [hl]; simp; omega), hc]
      rw [if_pos (by rw [hl]; omega)] at this
      rw [show (i + 1) * 16 = 16 + i * 16 by omega, ← List.drop_drop, List.drop_append_of_le_length (by simp), (List.drop_of_length_le (by simp) : List.drop 16 (Block.toBytes b) = []), List.nil_append]
      simpa using this

/-- On whole blocks `CBCAES` is the block-vector hash (so C77 applies to it too). -/
theorem cbcAes_blocks (bs : List Block) : cbcAes (PRG.bytesOf bs) = fastBlocksToBlock bs := by
  have hl : ∀ l : List Block, (PRG.bytesOf l).length = 16 * l.length := by
    intro l
    induction l with
    | nil => rfl
    | cons x l ih => simp only [PRG.bytesOf, List.map_cons, List.flatten_cons, List.length_append, List.length_cons] at ih ⊢; rw [ih]; simp; omega
  unfold cbcAes
  have e : (List.range (((PRG.bytesOf bs).length + 15) / 16)).mapM (fun i => (load (PRG.bytesOf bs) (i * 16) 16).map Block.ofBytes) = some bs := by
    rw [hl, show (16 * bs.length + 15) / 16 = bs.length by omega, OTE.mapM_range_spec _ (fun i => bs.getD i 0)]
    · congr 1
      apply List.ext_getElem
      · simp
      · intro i h1 h2
        simp [List.getD, h2]
    · intro i hi
      rw [getLast_append_toBytes bs i hi, Option.map_some, Block.ofBytes_toBytes]
  simp only [e, Option.bind_eq_bind, Option.bind_some]
  rfl

/-- **C77** An input whose length is not a multiple of 16 is read past its end. -/
theorem cbcAes_ragged_undefined (input : Bytes) (h : input.length % 16 ≠ 0) : cbcAes input = none := by
  unfold cbcAes
  have hn : (input.length + 15) / 16 = input.length / 16 + 1 := by omega
  have e : (List.range ((input.length + 15) / 16)).mapM (fun i => (load input (i * 16) 16).map Block.ofBytes) = none := by
    rw [hn, List.range_succ, List.mapM_append]
    have : (load input (input.length / 16 * 16) 16) = none := by
      unfold load; rw [if_neg (by omega)]
    cases (List.range (input.length / 16)).mapM (fun i => (load input (i * 16) 16).map Block.ofBytes) <;>
      simp [this]
  simp only [e, Option.bind_eq_bind, Option.bind_none]

example : cbcAes [1, 2, 3] = none := cbcAes_ragged_undefined _ (by decide)

end Kunlun.Hash
