import Verif.Model.FastDiv
import Verif.Model.Block
import Verif.Model.Gf128
/-!
Model of the row hashing of `mpc/okvs/paxos.hpp`: how a 128-bit hash value becomes the `sparse_weight` column
positions of a row (`set_sparse_1`, `set_sparse_32`).
-/

namespace Kunlun.OKVS

open Kunlun.FastDiv

/-- The template parameter `idx_type` (paxos.hpp:103; baxos.hpp chooses one of the four at run time). -/
inductive Idx where
  | u8 | u16 | u32 | u64
  deriving DecidableEq

def Idx.bits : Idx → Nat
  | .u8 => 8 | .u16 => 16 | .u32 => 32 | .u64 => 64

/-- Product of two `idx_type` values. The 8- and 16-bit types are promoted to `int`, whose overflow is undefined. -/
def Idx.mul (t : Idx) (a b : Nat) : Option Nat :=
  match t with
  | .u8 | .u16 => if a * b < 2 ^ 31 then some (a * b) else none
  | .u32 => some (a * b % 2 ^ 32)
  | .u64 => some (a * b % 2 ^ 64)

/-- `*(uint64_t*)(&((uint32_t*)dense)[i])`: the 64-bit word at byte offset `4i` of a (little-endian) block. -/
def win (d : Block) (i : Nat) : BitVec 64 := (d >>> (32 * i)).setWidth 64

/-- paxos.hpp:640-648 (constructor) and baxos.hpp:308-313, one turn of the loop: the divider for `s - i`. A modulus of 0 makes
`gen_divider` throw, so `w > s` never gets past this loop. -/
def mkDivider (s i : Nat) : Option Divider :=
  if i < s then
    match genDivider (BitVec.ofNat 64 (s - i)) with
    | .ok d => some d
    | _ => none
  else none

/-- One divider for each of `s, s-1, …, s-w+1`. -/
def mkDividers (w s : Nat) : Option (List Divider) := (List.range w).mapM (mkDivider s)

/-- paxos.hpp:956-962 (`Row[i] = divide_u64_do(rr, &mMods[i]); Row[i] = rr - Row[i] * mModVals[i];`). The quotient is stored
in an `idx_type` before it is multiplied; the difference is taken modulo 2^64 and truncated again. -/
def modIdx (t : Idx) (x : BitVec 64) (dv : Divider) (m : Nat) : Option Nat :=
  match divideU64 x dv with
  | none => none
  | some q =>
    match t.mul (q.toNat % 2 ^ t.bits) m with
    | none => none
    | some p => some ((x - BitVec.ofNat 64 p).toNat % 2 ^ t.bits)

/-- paxos.hpp:970-986: the three residues made distinct. (`Row[0] + Row[1] - min` is exact: a wrap-around of the sum is undone
by the subtraction.) -/
def adjust3 (t : Idx) (r0 r1 r2 : Nat) : List Nat :=
  let mn := min r0 r1
  let mx := r0 + r1 - mn
  let b := decide (mx = r1)
  let r1 := if b then (r1 + 1) % 2 ^ t.bits else r1
  let mx := if b then mx + 1 else mx
  let r2 := if mn ≤ r2 then (r2 + 1) % 2 ^ t.bits else r2
  let r2 := if mx ≤ r2 then (r2 + 1) % 2 ^ t.bits else r2
  [r0, r1, r2]

/-- paxos.hpp:1004-1016 and 1026-1038: insertion of a column into the sorted positions found so far; `col` is moved past every
position not above it. (The search loop, the shifting loop and the store in one recursion.) -/
def place (t : Idx) : List Nat → Nat → List Nat
  | [], c => [c % 2 ^ t.bits]
  | x :: xs, c => if x ≤ c then x :: place t xs (c + 1) else (c % 2 ^ t.bits) :: x :: xs

/-- `dense_temp` of paxos.hpp:996-1020 after `k` groups of three: squared by `gf128_mul` after each group. -/
def squared (d : Block) : Nat → Block
  | 0 => d
  | k + 1 => GF.mul (squared d k) (squared d k)

/-- The 64-bit word used for position number `j` when the weight is not 3. The first loop (998-1021) takes the words 0, 1, 2 of each
group, the second one (1022-1040) the word `j % 3` of the last group. -/
def word (d : Block) (j : Nat) : BitVec 64 := win (squared d (j / 3)) (j % 3)

/-- paxos.hpp:993-1041, the branch for weights other than 3. -/
def rowLoop (t : Idx) (s : Nat) (d : Block) : Nat → List Nat
  | 0 => []
  | j + 1 => place t (rowLoop t s d j) ((word d j).toNat % (s - j))

/-- paxos.hpp:945-1043 `set_sparse_1`. -/
def sparse1 (t : Idx) (w s : Nat) (dvs : List Divider) (d : Block) : Option (List Nat) :=
  if w = 3 then
    match dvs with
    | d0 :: d1 :: d2 :: _ =>
      match modIdx t (win d 0) d0 s, modIdx t (win d 1) d1 (s - 1), modIdx t (win d 2) d2 (s - 2) with
      | some r0, some r1, some r2 => some (adjust3 t r0 r1 r2)
      | _, _, _ => none
    | _ => none
  else some (rowLoop t s d w)

/-- One 64-bit lane of `_mm_cmpgt_epi64` (signed). -/
def cmpgt (a b : BitVec 64) : BitVec 64 := if b.slt a then BitVec.allOnes 64 else 0#64

/-- One 64-bit lane of `_mm_cmpeq_epi64`. -/
def cmpeq (a b : BitVec 64) : BitVec 64 := if a = b then BitVec.allOnes 64 else 0#64

/-- paxos.hpp:706-844: one lane of the vectorised adjustment, and the stores to `idx_type` of 857-905. -/
def lane (t : Idx) (a b c : BitVec 64) : List Nat :=
  let mask := cmpgt a b
  let mn := a ^^^ b
  let mx := mn &&& mask
  let mx := mx ^^^ b
  let mn := mn ^^^ mx
  let mask := cmpeq mx b
  let b := b - mask
  let mx := mx - mask
  let mask := cmpgt mn c ^^^ BitVec.allOnes 64
  let c := c - mask
  let mask := cmpgt mx c ^^^ BitVec.allOnes 64
  let c := c - mask
  [a.toNat % 2 ^ t.bits, b.toNat % 2 ^ t.bits, c.toNat % 2 ^ t.bits]

/-- The lanes of three arrays together. -/
def lanes (t : Idx) : List (BitVec 64) → List (BitVec 64) → List (BitVec 64) → List (List Nat)
  | a :: as, b :: bs, c :: cs => lane t a b c :: lanes t as bs cs
  | _, _, _ => []

/-- paxos.hpp:679-931 `set_sparse_32`: 32 rows at once. -/
def sparse32 (t : Idx) (w s : Nat) (dvs : List Divider) (ds : List Block) : Option (List (List Nat)) :=
  if ds.length ≠ 32 then none
  else if w = 3 then
    match dvs with
    | d0 :: d1 :: d2 :: _ =>
      match doMod32 (ds.map fun d => win d 0) d0 (BitVec.ofNat 64 s),
            doMod32 (ds.map fun d => win d 1) d1 (BitVec.ofNat 64 (s - 1)),
            doMod32 (ds.map fun d => win d 2) d2 (BitVec.ofNat 64 (s - 2)) with
      | some a, some b, some c => some (lanes t a b c)
      | _, _, _ => none
    | _ => none
  else ds.mapM (sparse1 t w s dvs)

/-- paxos.hpp:1153-1183 `set_Mtx` and baxos.hpp:314 `set_sparse`: the rows of all hash values, by groups of 32 and then singly
(`fuel` bounds the number of groups). -/
def sparseAll (t : Idx) (w s : Nat) (dvs : List Divider) : Nat → List Block → Option (List (List Nat))
  | 0, ds => ds.mapM (sparse1 t w s dvs)
  | fuel + 1, ds =>
    if 32 ≤ ds.length then
      match sparse32 t w s dvs (ds.take 32), sparseAll t w s dvs fuel (ds.drop 32) with
      | some a, some b => some (a ++ b)
      | _, _ => none
    else ds.mapM (sparse1 t w s dvs)

/-! ### Lemmas -/

/-- What the type must be able to hold (`bit_len = log2_ceil(sparse_size + 1)` of baxos.hpp:530), and the bound that keeps the
16-bit product inside `int`. -/
structure Fits (t : Idx) (w s : Nat) : Prop where
  hw : w ≤ s
  hs : s < 2 ^ t.bits
  h16 : t = .u16 → w = 3 → s ≤ 2 ^ 15

theorem Idx.bits_le (t : Idx) : t.bits ≤ 64 := by cases t <;> decide

theorem Idx.pow_le (t : Idx) : 2 ^ t.bits ≤ 2 ^ 64 := Nat.pow_le_pow_right (by norm_num) t.bits_le

theorem Idx.dvd (t : Idx) : 2 ^ t.bits ∣ 2 ^ 64 := Nat.pow_dvd_pow _ t.bits_le

theorem mul_spec (t : Idx) (a m : Nat) (ha : a < 2 ^ t.bits) (hm : m < 2 ^ t.bits) (h16 : t = .u16 → m ≤ 2 ^ 15) :
    ∃ p, t.mul a m = some p ∧ p < 2 ^ 64 ∧ p % 2 ^ t.bits = a * m % 2 ^ t.bits := by
  cases t with
  | u8 =>
    simp only [Idx.bits] at ha hm
    have : a * m ≤ 255 * 255 := Nat.mul_le_mul (by omega) (by omega)
    exact ⟨a * m, by simp only [Idx.mul]; rw [if_pos (by omega)], by omega, rfl⟩
  | u16 =>
    simp only [Idx.bits] at ha hm
    have := h16 rfl
    have : a * m ≤ 65535 * 32768 := Nat.mul_le_mul (by omega) (by omega)
    exact ⟨a * m, by simp only [Idx.mul]; rw [if_pos (by omega)], by omega, rfl⟩
  | u32 =>
    refine ⟨_, rfl, ?_, ?_⟩
    · have := Nat.mod_lt (a * m) (show 0 < 2 ^ 32 by norm_num); omega
    · simp [Idx.bits]
  | u64 =>
    refine ⟨_, rfl, ?_, ?_⟩
    · exact Nat.mod_lt _ (by norm_num)
    · simp [Idx.bits]

/-- Division and multiplication in the narrow type still give the residue. -/
theorem modIdx_spec (t : Idx) (x : BitVec 64) (dv : Divider) (m : Nat) (h0 : 0 < m) (hm : m < 2 ^ t.bits)
    (h16 : t = .u16 → m ≤ 2 ^ 15) (hq : divideU64 x dv = some (x / BitVec.ofNat 64 m)) :
    modIdx t x dv m = some (x.toNat % m) := by
  have hp := t.pow_le
  have hx := x.isLt
  have hm64 : (BitVec.ofNat 64 m).toNat = m := by
    rw [BitVec.toNat_ofNat, Nat.mod_eq_of_lt (by omega)]
  unfold modIdx
  rw [hq]
  simp only [BitVec.toNat_udiv, hm64]
  obtain ⟨p, e, hlt, hmod⟩ := mul_spec t (x.toNat / m % 2 ^ t.bits) m (Nat.mod_lt _ (by positivity)) hm h16
  rw [e]
  simp only [Option.some.injEq]
  rw [BitVec.toNat_sub, BitVec.toNat_ofNat, Nat.mod_eq_of_lt hlt, Nat.mod_mod_of_dvd _ t.dvd]
  have hr : x.toNat % m < 2 ^ t.bits := lt_trans (Nat.mod_lt _ h0) hm
  have e1 : (2 ^ 64 - p + x.toNat) ≡ x.toNat % m [MOD 2 ^ t.bits] := by
    have hdm := Nat.div_add_mod x.toNat m
    have hpm : p ≡ x.toNat / m * m [MOD 2 ^ t.bits] := by
      unfold Nat.ModEq
      rw [hmod, Nat.mul_mod, Nat.mod_mod, ← Nat.mul_mod]
    have : (2 ^ 64 - p + x.toNat) + p ≡ x.toNat % m + p [MOD 2 ^ t.bits] := by
      have e2 : 2 ^ 64 - p + x.toNat + p = 2 ^ 64 + (x.toNat % m + x.toNat / m * m) := by
        rw [Nat.mul_comm (x.toNat / m) m]; omega
      rw [e2]
      have h1 : (2 ^ 64 : Nat) ≡ 0 [MOD 2 ^ t.bits] := (Nat.modEq_zero_iff_dvd).2 t.dvd
      calc 2 ^ 64 + (x.toNat % m + x.toNat / m * m) ≡ 0 + (x.toNat % m + x.toNat / m * m) [MOD 2 ^ t.bits] :=
            h1.add_right _
        _ ≡ x.toNat % m + p [MOD 2 ^ t.bits] := by
            rw [Nat.zero_add]; exact hpm.symm.add_left _
    exact Nat.ModEq.add_right_cancel' p this
  rw [e1, Nat.mod_eq_of_lt hr]

theorem adjust3_spec (t : Idx) (s r0 r1 r2 : Nat) (h0 : r0 < s) (h1 : r1 < s - 1) (h2 : r2 < s - 2) (hs : s < 2 ^ t.bits) :
    ∃ a b c, adjust3 t r0 r1 r2 = [a, b, c] ∧ a < s ∧ b < s ∧ c < s ∧ a ≠ b ∧ a ≠ c ∧ b ≠ c ∧
      a = r0 ∧ b = (if r0 ≤ r1 then r1 + 1 else r1) ∧
      c = (if max r0 b ≤ (if min r0 r1 ≤ r2 then r2 + 1 else r2) then (if min r0 r1 ≤ r2 then r2 + 1 else r2) + 1
            else (if min r0 r1 ≤ r2 then r2 + 1 else r2)) := by
  generalize hB : 2 ^ t.bits = B at hs
  unfold adjust3
  rw [hB]
  rw [Nat.mod_eq_of_lt (show r1 + 1 < B by omega), Nat.mod_eq_of_lt (show r2 + 1 < B by omega)]
  simp only [decide_eq_true_eq]
  by_cases hle : r0 ≤ r1
  · rw [Nat.min_eq_left hle]
    have e : r0 + r1 - r0 = r1 := by omega
    simp only [e, if_true, if_pos hle]
    by_cases hc : r0 ≤ r2
    · simp only [if_pos hc]
      rw [Nat.mod_eq_of_lt (show r2 + 1 + 1 < B by omega)]
      refine ⟨_, _, _, rfl, by omega, by omega, ?_, by omega, ?_, ?_, rfl, rfl, by rw [Nat.max_eq_right (by omega)]⟩ <;> split <;> omega
    · simp only [if_neg hc]
      rw [Nat.mod_eq_of_lt (show r2 + 1 < B by omega)]
      refine ⟨_, _, _, rfl, by omega, by omega, ?_, by omega, ?_, ?_, rfl, rfl, by rw [Nat.max_eq_right (by omega)]⟩ <;> split <;> omega
  · have hle' : r1 ≤ r0 := by omega
    rw [Nat.min_eq_right hle']
    have e : r0 + r1 - r1 = r0 := by omega
    have ne : ¬ r0 = r1 := by omega
    simp only [e, if_neg ne, if_neg hle]
    by_cases hc : r1 ≤ r2
    · simp only [if_pos hc]
      rw [Nat.mod_eq_of_lt (show r2 + 1 + 1 < B by omega)]
      refine ⟨_, _, _, rfl, by omega, by omega, ?_, by omega, ?_, ?_, rfl, rfl, by rw [Nat.max_eq_left hle']⟩ <;> split <;> omega
    · simp only [if_neg hc]
      rw [Nat.mod_eq_of_lt (show r2 + 1 < B by omega)]
      refine ⟨_, _, _, rfl, by omega, by omega, ?_, by omega, ?_, ?_, rfl, rfl, by rw [Nat.max_eq_left hle']⟩ <;> split <;> omega

theorem cmpgt_nat (a b : BitVec 64) (ha : a.toNat < 2 ^ 63) (hb : b.toNat < 2 ^ 63) :
    cmpgt a b = if b.toNat < a.toNat then BitVec.allOnes 64 else 0#64 := by
  unfold cmpgt
  have h : b.slt a = decide (b.toNat < a.toNat) := by
    rw [BitVec.slt_eq_decide]
    have h1 : a.toInt = a.toNat := by rw [BitVec.toInt_eq_toNat_cond, if_pos (by omega)]
    have h2 : b.toInt = b.toNat := by rw [BitVec.toInt_eq_toNat_cond, if_pos (by omega)]
    rw [h1, h2]
    simp
  rw [h]
  simp

theorem sub_allOnes (x : BitVec 64) : x - BitVec.allOnes 64 = x + 1#64 := by
  have : BitVec.allOnes 64 = -1#64 := by decide
  rw [this]; simp [BitVec.sub_eq_add_neg]

theorem toNat_succ (x : BitVec 64) (h : x.toNat < 2 ^ 63) : (x + 1#64).toNat = x.toNat + 1 := by
  rw [BitVec.toNat_add]; simp; omega

theorem sub_mask (x : BitVec 64) (p : Prop) [Decidable p] (h : x.toNat < 2 ^ 63) :
    (x - if p then BitVec.allOnes 64 else 0#64).toNat = if p then x.toNat + 1 else x.toNat := by
  split
  · rw [sub_allOnes, toNat_succ x h]
  · simp

theorem not_mask (p : Prop) [Decidable p] :
    (if p then BitVec.allOnes 64 else 0#64) ^^^ BitVec.allOnes 64 = if ¬ p then BitVec.allOnes 64 else 0#64 := by
  by_cases h : p <;> simp [h]

/-- One vector lane computes the same three positions as the scalar code. -/
theorem lane_eq (t : Idx) (s : Nat) (a b c : BitVec 64) (h0 : a.toNat < s) (h1 : b.toNat < s - 1) (h2 : c.toNat < s - 2)
    (hs : s < 2 ^ t.bits) (hs63 : s < 2 ^ 63) : lane t a b c = adjust3 t a.toNat b.toNat c.toNat := by
  obtain ⟨x, y, z, e, hx, hy, hz, -, -, -, ea, eb, ec⟩ := adjust3_spec t s a.toNat b.toNat c.toNat h0 h1 h2 hs
  rw [e]
  unfold lane
  simp only
  rw [cmpgt_nat a b (by omega) (by omega)]
  by_cases hle : a.toNat ≤ b.toNat
  · rw [if_neg (show ¬ b.toNat < a.toNat by omega)]
    have e1 : (a ^^^ b) &&& 0#64 ^^^ b = b := by simp
    have e2 : a ^^^ b ^^^ b = a := by rw [BitVec.xor_assoc, BitVec.xor_self, BitVec.xor_zero]
    rw [e1, e2]
    have e3 : cmpeq b b = BitVec.allOnes 64 := by simp [cmpeq]
    rw [e3, sub_allOnes]
    have hb1 := toNat_succ b (by omega)
    rw [cmpgt_nat a c (by omega) (by omega), not_mask]
    have hc1 := sub_mask c (¬ c.toNat < a.toNat) (by omega)
    generalize hc' : (c - if ¬ c.toNat < a.toNat then BitVec.allOnes 64 else 0#64) = c' at *
    have hc'lt : c'.toNat < 2 ^ 63 := by rw [hc1]; split <;> omega
    rw [cmpgt_nat (b + 1#64) c' (by omega) hc'lt, not_mask, sub_mask c' _ hc'lt, hb1]
    rw [if_pos hle] at eb
    rw [eb, Nat.max_eq_right (by omega), Nat.min_eq_left hle] at ec
    have e4 : c'.toNat = if a.toNat ≤ c.toNat then c.toNat + 1 else c.toNat := by
      rw [hc1]; split <;> split <;> omega
    rw [← e4] at ec
    have e5 : (if ¬ c'.toNat < b.toNat + 1 then c'.toNat + 1 else c'.toNat) = z := by
      rw [ec]; split <;> split <;> omega
    rw [e5, Nat.mod_eq_of_lt (show a.toNat < 2 ^ t.bits by omega), Nat.mod_eq_of_lt (show b.toNat + 1 < 2 ^ t.bits by omega),
      Nat.mod_eq_of_lt (show z < 2 ^ t.bits by omega), ea, eb]
  · rw [if_pos (show b.toNat < a.toNat by omega)]
    have e1 : (a ^^^ b) &&& BitVec.allOnes 64 ^^^ b = a := by
      rw [BitVec.and_allOnes, BitVec.xor_assoc, BitVec.xor_self, BitVec.xor_zero]
    have e2 : a ^^^ b ^^^ a = b := by rw [BitVec.xor_comm a b, BitVec.xor_assoc, BitVec.xor_self, BitVec.xor_zero]
    rw [e1, e2]
    have hne : a ≠ b := by rintro rfl; omega
    have e3 : cmpeq a b = 0#64 := by simp [cmpeq, hne]
    rw [e3, BitVec.sub_zero, BitVec.sub_zero]
    rw [cmpgt_nat b c (by omega) (by omega), not_mask]
    have hc1 := sub_mask c (¬ c.toNat < b.toNat) (by omega)
    generalize hc' : (c - if ¬ c.toNat < b.toNat then BitVec.allOnes 64 else 0#64) = c' at *
    have hc'lt : c'.toNat < 2 ^ 63 := by rw [hc1]; split <;> omega
    rw [cmpgt_nat a c' (by omega) hc'lt, not_mask, sub_mask c' _ hc'lt]
    rw [if_neg hle] at eb
    rw [eb, Nat.max_eq_left (by omega), Nat.min_eq_right (by omega)] at ec
    have e4 : c'.toNat = if b.toNat ≤ c.toNat then c.toNat + 1 else c.toNat := by
      rw [hc1]; split <;> split <;> omega
    rw [← e4] at ec
    have e5 : (if ¬ c'.toNat < a.toNat then c'.toNat + 1 else c'.toNat) = z := by
      rw [ec]; split <;> split <;> omega
    rw [e5, Nat.mod_eq_of_lt (show a.toNat < 2 ^ t.bits by omega), Nat.mod_eq_of_lt (show b.toNat < 2 ^ t.bits by omega),
      Nat.mod_eq_of_lt (show z < 2 ^ t.bits by omega), ea, eb]

/-- Inserting a new column: sorted, one longer, below the bound. -/
theorem place_spec (t : Idx) (s : Nat) (hs : s < 2 ^ t.bits) (l : List Nat) (c : Nat)
    (hl : l.Pairwise (· < ·)) (hb : ∀ x ∈ l, x < s) (hc : c + l.length < s) :
    (place t l c).Pairwise (· < ·) ∧ (∀ x ∈ place t l c, x < s) ∧ (place t l c).length = l.length + 1 ∧
      ∀ x ∈ place t l c, x ∈ l ∨ c ≤ x := by
  induction l generalizing c with
  | nil =>
    simp at hc
    simp [place, Nat.mod_eq_of_lt (show c < 2 ^ t.bits by omega), hc]
  | cons x xs ih =>
    simp only [List.length_cons] at hc
    rw [List.pairwise_cons] at hl
    unfold place
    split
    · rename_i hle
      obtain ⟨h1, h2, h3, h4⟩ := ih (c + 1) hl.2 (fun y hy => hb y (List.mem_cons_of_mem _ hy)) (by omega)
      refine ⟨?_, ?_, by simp [h3], ?_⟩
      · rw [List.pairwise_cons]
        refine ⟨fun y hy => ?_, h1⟩
        rcases h4 y hy with h | h
        · exact hl.1 y h
        · omega
      · intro y hy
        rcases List.mem_cons.1 hy with rfl | hy
        · exact hb _ (List.mem_cons_self ..)
        · exact h2 y hy
      · intro y hy
        rcases List.mem_cons.1 hy with rfl | hy
        · exact Or.inl (List.mem_cons_self ..)
        · rcases h4 y hy with h | h
          · exact Or.inl (List.mem_cons_of_mem _ h)
          · exact Or.inr (by omega)
    · rename_i hgt
      rw [Nat.mod_eq_of_lt (show c < 2 ^ t.bits by omega)]
      refine ⟨?_, ?_, by simp, ?_⟩
      · rw [List.pairwise_cons]
        refine ⟨fun y hy => ?_, List.pairwise_cons.2 hl⟩
        rcases List.mem_cons.1 hy with rfl | hy
        · omega
        · have := hl.1 y hy; omega
      · intro y hy
        rcases List.mem_cons.1 hy with rfl | hy
        · omega
        · exact hb y hy
      · intro y hy
        rcases List.mem_cons.1 hy with rfl | hy
        · exact Or.inr le_rfl
        · exact Or.inl hy

theorem rowLoop_spec (t : Idx) (s : Nat) (hs : s < 2 ^ t.bits) (d : Block) (w : Nat) (hw : w ≤ s) :
    (rowLoop t s d w).Pairwise (· < ·) ∧ (∀ x ∈ rowLoop t s d w, x < s) ∧ (rowLoop t s d w).length = w := by
  induction w with
  | zero => simp [rowLoop]
  | succ j ih =>
    obtain ⟨h1, h2, h3⟩ := ih (by omega)
    have hm : (word d j).toNat % (s - j) < s - j := Nat.mod_lt _ (by omega)
    obtain ⟨g1, g2, g3, -⟩ := place_spec t s hs (rowLoop t s d j) ((word d j).toNat % (s - j)) h1 h2 (by omega)
    exact ⟨g1, g2, by rw [rowLoop, g3, h3]⟩

end Kunlun.OKVS
