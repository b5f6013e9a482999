import Verif.Model.AesLemmas
/-!
Model of `crypto/prg.hpp` and `crypto/otp.hpp` (without the text-only printing functions and the `/dev/urandom` seed, which is an
arbitrary salt).

`ceil(double(LEN)/16)` is modelled by the exact integer ceiling (they agree below 2^53).  `&v[0]` of an empty vector is treated as a
plain address computation that is never dereferenced.
-/

namespace Kunlun.PRG

open Kunlun Kunlun.AES

/-- prg.hpp:22-25 -/
structure Seed where
  counter : BitVec 64
  key : Key

/-- prg.hpp:51-57, and 59-91 with a given salt -/
def setSeed (salt : Block) (id : BitVec 64) : Seed := ⟨0, genEncKey (salt ^^^ Block.makeBlock 0 id)⟩

/-- prg.hpp:98-99 and 104-105: `for j: temp[j] = MakeBlock(0, counter++)`, `n` steps from `j` -/
def fill : Nat → Nat → List Block → BitVec 64 → List Block × BitVec 64
  | _, 0, t, c => (t, c)
  | j, n + 1, t, c => fill (j + 1) n (t.set j (Block.makeBlock 0 c)) (c + 1#64)

/-- `memcpy` of `n` blocks to offset `off` -/
def copyBlocks (dst : List Block) (off : Nat) (src : List Block) (n : Nat) : Option (List Block) :=
  if off + n ≤ dst.length ∧ n ≤ src.length then some (dst.take off ++ src.take n ++ dst.drop (off + n)) else none

/-- State of the generator loop: output vector, `temp_block`, counter. -/
structure St where
  vec : List Block
  temp : List Block
  ctr : BitVec 64

/-- prg.hpp:98-101 (`n = 8`) and 104-107 (`n` the remainder): encrypt `n` counters and copy them to offset `off` -/
def chunk (k : Key) (off n : Nat) (s : St) : Option St :=
  let (t, c) := fill 0 n s.temp s.ctr
  (fastECBEnc k ⟨true, t, t⟩ n).bind fun b => (copyBlocks s.vec off b.dst n).map fun v => ⟨v, b.dst, c⟩

/-- The batch loop, prg.hpp:97-102: `n` more iterations from `i` -/
def batches (k : Key) : Nat → Nat → St → Option St
  | _, 0, s => some s
  | i, n + 1, s => (chunk k (i * 8) 8 s).bind (batches k (i + 1) n)

/-- prg.hpp:93-110; `temp` is the uninitialised local array of eight blocks -/
def genRandomBlocks (temp : List Block) (seed : Seed) (len : Nat) : Option (List Block × Seed) :=
  (batches seed.key 0 (len / 8) ⟨List.replicate len 0#128, temp, seed.counter⟩).bind fun s =>
    (chunk seed.key (len / 8 * 8) (len % 8) s).map fun s => (s.vec, ⟨s.ctr, seed.key⟩)

/-- Memory image of a block array. -/
def bytesOf (bs : List Block) : Bytes := (bs.map Block.toBytes).flatten

/-- prg.hpp:114-131: `memcpy` of `LEN` bytes out of the block vector -/
def genRandomBytes (temp : List Block) (seed : Seed) (len : Nat) : Option (Bytes × Seed) :=
  (genRandomBlocks temp seed ((len + 15) / 16)).bind fun r => (load (bytesOf r.1) 0 len).map fun b => (b, r.2)

/-- prg.hpp:134-142 -/
def genRandomBits (temp : List Block) (seed : Seed) (len : Nat) : Option (Bytes × Seed) :=
  (genRandomBytes temp seed len).map fun r => (r.1.map (· &&& 1), r.2)

/-- prg.hpp:162-167: `ROW_NUM/128 * COLUMN_NUM` blocks, after the assertion on the shape -/
def genRandomBitMatrix (temp : List Block) (seed : Seed) (rows cols : Nat) : Option (List Block × Seed) :=
  if rows % 128 = 0 ∧ cols % 8 = 0 then genRandomBlocks temp seed (rows / 128 * cols) else none

/-- Several requests from one seed, in order (`temps` gives the uninitialised local array of each call). -/
def draws (temps : Nat → List Block) : Nat → Seed → List Nat → Option (List (List Block) × Seed)
  | _, s, [] => some ([], s)
  | i, s, n :: ns => (genRandomBlocks (temps i) s n).bind fun r =>
      (draws temps (i + 1) r.2 ns).map fun q => (r.1 :: q.1, q.2)

/-! ### otp.hpp -/

/-- otp.hpp:6-12, 25-34: element-wise XOR; the size check only prints, a shorter second operand is read out of range -/
def xorBytes : Bytes → Bytes → Option Bytes
  | [], _ => some []
  | _ :: _, [] => none
  | a :: as, b :: bs => (xorBytes as bs).map ((a ^^^ b) :: ·)

/-- otp.hpp:39-46 -/
def otpEnc (temp : List Block) (key : Block) (m : Bytes) : Option Bytes :=
  (genRandomBytes temp (setSeed key 0) m.length).bind fun r => xorBytes r.1 m

/-- otp.hpp:48-55 -/
def otpDec (temp : List Block) (key : Block) (c : Bytes) : Option Bytes :=
  (genRandomBytes temp (setSeed key 0) c.length).bind fun r => xorBytes r.1 c

/-! ### Lemmas -/

/-- The counter-mode stream. -/
def stream (k : Key) (c : BitVec 64) (n : Nat) : List Block :=
  (List.range n).map fun j => enc k (Block.makeBlock 0 (c + BitVec.ofNat 64 j))

@[simp] theorem stream_length (k : Key) (c : BitVec 64) (n : Nat) : (stream k c n).length = n := by simp [stream]

theorem stream_getElem? (k : Key) (c : BitVec 64) (n i : Nat) :
    (stream k c n)[i]? = if i < n then some (enc k (Block.makeBlock 0 (c + BitVec.ofNat 64 i))) else none := by
  unfold stream
  by_cases h : i < n <;> simp [h]

theorem stream_add (k : Key) (c : BitVec 64) (m n : Nat) :
    stream k c (m + n) = stream k c m ++ stream k (c + BitVec.ofNat 64 m) n := by
  unfold stream
  rw [List.range_add, List.map_append, List.map_map]
  refine congrArg (List.map _ (List.range m) ++ ·) (List.map_congr_left fun j _ => ?_)
  rw [Function.comp_apply, BitVec.add_assoc, ← BitVec.ofNat_add]

theorem fill_spec (n j : Nat) (t : List Block) (c : BitVec 64) (h : j + n ≤ t.length) :
    (fill j n t c).2 = c + BitVec.ofNat 64 n ∧ (fill j n t c).1.length = t.length ∧
      ∀ i : Nat, (fill j n t c).1[i]? = if j ≤ i ∧ i < j + n then some (Block.makeBlock 0 (c + BitVec.ofNat 64 (i - j))) else t[i]? := by
  induction n generalizing j t c with
  | zero => exact ⟨by simp [fill], rfl, fun i => by rw [if_neg (by omega)]; rfl⟩
  | succ n ih =>
    obtain ⟨h1, h2, h3⟩ := ih (j + 1) (t.set j (Block.makeBlock 0 c)) (c + 1#64) (by simp; omega)
    refine ⟨?_, by rw [fill, h2]; simp, fun i => ?_⟩
    · rw [fill, h1, BitVec.add_assoc]
      congr 1
      rw [Nat.add_comm n 1, BitVec.ofNat_add]
    · rw [fill, h3]
      by_cases hi : i = j
      · subst hi
        rw [if_neg (by omega), if_pos (by omega), List.getElem?_set, if_pos rfl, if_pos (by omega), Nat.sub_self]
        simp
      · rw [List.getElem?_set, if_neg (Ne.symm hi)]
        by_cases h4 : j + 1 ≤ i ∧ i < j + 1 + n
        · rw [if_pos h4, if_pos (by omega), BitVec.add_assoc]
          congr 4
          rw [show i - j = 1 + (i - (j + 1)) by omega, BitVec.ofNat_add]
        · rw [if_neg h4, if_neg (by omega)]

theorem chunk_spec (k : Key) (off n : Nat) (s : St) (ht : s.temp.length = 8) (hn : n ≤ 8) (ho : off + n ≤ s.vec.length) :
    ∃ s', chunk k off n s = some s' ∧ s'.temp.length = 8 ∧ s'.ctr = s.ctr + BitVec.ofNat 64 n ∧
      s'.vec = s.vec.take off ++ stream k s.ctr n ++ s.vec.drop (off + n) := by
  obtain ⟨f1, f2, f3⟩ := fill_spec n 0 s.temp s.ctr (by omega)
  unfold chunk
  have hread : ∀ j < n, (Bufs.mk true (fill 0 n s.temp s.ctr).1 (fill 0 n s.temp s.ctr).1).read j =
      some (Block.makeBlock 0 (s.ctr + BitVec.ofNat 64 j)) := by
    intro j hj
    show (fill 0 n s.temp s.ctr).1[j]? = _
    rw [f3, if_pos (by omega), Nat.sub_zero]
  obtain ⟨b', e, p⟩ := fastECBEnc_prefix k (Bufs.mk true (fill 0 n s.temp s.ctr).1 (fill 0 n s.temp s.ctr).1) n
    (fun j hj => ⟨_, hread j hj⟩) (by show n ≤ (fill 0 n s.temp s.ctr).1.length; omega)
  have hlen : b'.dst.length = 8 := by rw [p.len]; show (fill 0 n s.temp s.ctr).1.length = 8; omega
  simp only
  rw [e, Option.bind_some]
  unfold copyBlocks
  rw [if_pos ⟨ho, by omega⟩]
  refine ⟨_, rfl, hlen, f1, ?_⟩
  have : b'.dst.take n = stream k s.ctr n := by
    apply List.ext_getElem?
    intro i
    rw [List.getElem?_take, stream_getElem?]
    by_cases hi : i < n
    · rw [if_pos hi, if_pos hi, p.done i hi, hread i hi]; rfl
    · rw [if_neg hi, if_neg hi]
  rw [this]

theorem batches_spec (k : Key) (c0 : BitVec 64) (len : Nat) (n i : Nat) (s : St) (ht : s.temp.length = 8) (hin : (i + n) * 8 ≤ len)
    (hv : ∃ rest, s.vec = stream k c0 (i * 8) ++ rest ∧ rest.length = len - i * 8) (hc : s.ctr = c0 + BitVec.ofNat 64 (i * 8)) :
    ∃ s', batches k i n s = some s' ∧ s'.temp.length = 8 ∧ s'.ctr = c0 + BitVec.ofNat 64 ((i + n) * 8) ∧
      ∃ rest, s'.vec = stream k c0 ((i + n) * 8) ++ rest ∧ rest.length = len - (i + n) * 8 := by
  induction n generalizing i s with
  | zero => exact ⟨s, rfl, ht, hc, hv⟩
  | succ n ih =>
    obtain ⟨rest, hv1, hv2⟩ := hv
    obtain ⟨s1, e1, t1, c1, v1⟩ := chunk_spec k (i * 8) 8 s ht (by omega) (by rw [hv1]; simp; omega)
    have hv' : s1.vec = stream k c0 ((i + 1) * 8) ++ rest.drop 8 := by
      rw [v1, hv1, hc, Nat.succ_mul, stream_add]
      rw [List.take_append_of_le_length (by simp), List.take_of_length_le (by simp)]
      congr 1
      rw [List.drop_append, List.drop_eq_nil_of_le (by simp)]
      simp
    obtain ⟨s2, e2, h2⟩ := ih (i + 1) s1 t1 (by omega) ⟨rest.drop 8, hv', by simp; omega⟩ (by
      rw [c1, hc, BitVec.add_assoc, ← BitVec.ofNat_add]; congr 2; omega)
    refine ⟨s2, by simp [batches, e1, e2], ?_⟩
    rwa [show i + 1 + n = i + (n + 1) by omega] at h2

theorem genRandomBlocks_spec (temp : List Block) (ht : temp.length = 8) (seed : Seed) (len : Nat) :
    genRandomBlocks temp seed len = some (stream seed.key seed.counter len, ⟨seed.counter + BitVec.ofNat 64 len, seed.key⟩) := by
  obtain ⟨s1, e1, t1, c1, rest, v1, l1⟩ := batches_spec seed.key seed.counter len (len / 8) 0
    ⟨List.replicate len 0#128, temp, seed.counter⟩ ht (by omega) ⟨List.replicate len 0#128, by simp [stream], by simp⟩ (by simp)
  simp only [Nat.zero_add] at c1 v1 l1
  have hrest : rest.length = len % 8 := by omega
  obtain ⟨s2, e2, t2, c2, v2⟩ := chunk_spec seed.key (len / 8 * 8) (len % 8) s1 t1 (by omega) (by rw [v1]; simp; omega)
  unfold genRandomBlocks
  rw [e1, Option.bind_some, e2, Option.map_some]
  congr 2
  · rw [v2, v1, List.take_append_of_le_length (by simp), List.take_of_length_le (by simp), List.drop_eq_nil_of_le (by simp; omega),
      List.append_nil, c1, ← stream_add]
    congr 1; omega
  · congr 1
    rw [c2, c1, BitVec.add_assoc, ← BitVec.ofNat_add]
    congr 2; omega

theorem bytesOf_length (bs : List Block) : (bytesOf bs).length = 16 * bs.length := by
  induction bs with
  | nil => rfl
  | cons b bs ih => simp [bytesOf] at ih ⊢; omega

theorem bytesOf_append (a b : List Block) : bytesOf (a ++ b) = bytesOf a ++ bytesOf b := by simp [bytesOf]

theorem genRandomBytes_spec (temp : List Block) (ht : temp.length = 8) (seed : Seed) (len : Nat) :
    genRandomBytes temp seed len = some ((bytesOf (stream seed.key seed.counter ((len + 15) / 16))).take len,
      ⟨seed.counter + BitVec.ofNat 64 ((len + 15) / 16), seed.key⟩) := by
  unfold genRandomBytes
  rw [genRandomBlocks_spec temp ht, Option.bind_some, load_eq_some (by rw [bytesOf_length]; simp; omega)]
  simp

theorem xorBytes_spec (a b : Bytes) (h : a.length ≤ b.length) : xorBytes a b = some (List.zipWith (· ^^^ ·) a b) := by
  induction a generalizing b with
  | nil => simp [xorBytes]
  | cons x xs ih =>
    cases b with
    | nil => simp at h
    | cons y ys => simp [xorBytes, ih ys (by simpa using h)]

theorem zipWith_xor_twice (p m : Bytes) (h : p.length = m.length) :
    List.zipWith (· ^^^ ·) p (List.zipWith (· ^^^ ·) p m) = m := by
  induction p generalizing m with
  | nil => cases m <;> simp_all
  | cons x xs ih =>
    cases m with
    | nil => simp at h
    | cons y ys =>
      simp only [List.zipWith_cons_cons, ih ys (by simpa using h)]
      congr 1
      rw [← UInt8.xor_assoc, UInt8.xor_self, UInt8.zero_xor]

theorem makeBlock_low_inj {a b : BitVec 64} (h : Block.makeBlock 0 a = Block.makeBlock 0 b) : a = b := by
  apply BitVec.eq_of_getLsbD_eq
  intro i hi
  have : (Block.makeBlock 0 a).getLsbD i = (Block.makeBlock 0 b).getLsbD i := by rw [h]
  unfold Block.makeBlock at this
  rw [BitVec.getLsbD_append, BitVec.getLsbD_append] at this
  simpa [hi] using this

theorem stream_nodup (k : Key) (hk : 1 ≤ k.rounds) (c : BitVec 64) (n : Nat) (hn : n ≤ 2 ^ 64) : (stream k c n).Nodup := by
  unfold stream
  rw [List.nodup_iff_pairwise_ne, List.pairwise_map]
  have hr : (List.range n).Pairwise (fun a b => a ≠ b ∧ a < n ∧ b < n) := by
    rw [List.pairwise_iff_getElem]
    intro i j hi hj hij
    simp at hi hj
    simp; omega
  refine hr.imp ?_
  rintro a b ⟨hab, ha, hb⟩ he
  have := makeBlock_low_inj (enc_injective k hk he)
  have := congrArg BitVec.toNat (BitVec.add_right_inj c |>.mp this)
  simp only [BitVec.toNat_ofNat] at this
  rw [Nat.mod_eq_of_lt (by omega), Nat.mod_eq_of_lt (by omega)] at this
  exact hab this

end Kunlun.PRG
