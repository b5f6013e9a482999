import Verif.Model.OteOprf
import Verif.Props.OtExt
import Verif.Props.Aes
/-! Lemmas about the model of the OT-extension OPRF. -/

namespace Kunlun.OTEOPRF

open Kunlun Kunlun.Proto Kunlun.AES

/-! ### Bits -/

theorem bit?_eq (m : Bytes) (i : Nat) (h : i < 8 * m.length) : ∃ b, bit? m i = some b := by
  have : i / 8 < m.length := by omega
  exact ⟨_, by unfold bit?; rw [List.getElem?_eq_getElem this]; rfl⟩

theorem div_mod_ne {i j : Nat} (h : i ≠ j) (hd : i / 8 = j / 8) : i % 8 ≠ j % 8 := by omega

theorem orBit_spec (m : Bytes) (i : Nat) (v : Bool) (h : i < 8 * m.length) :
    ∃ m', orBit m i v = some m' ∧ m'.length = m.length ∧ ∀ j, bit? m' j = (bit? m j).map (· || (decide (i = j) && v)) := by
  have hl : i / 8 < m.length := by omega
  obtain ⟨b, hb0⟩ : ∃ b, m[i / 8]? = some b := ⟨_, List.getElem?_eq_getElem hl⟩
  refine ⟨_, by unfold orBit; rw [hb0]; rfl, by simp, fun j => ?_⟩
  unfold bit?
  by_cases hd : i / 8 = j / 8
  · rw [hd] at hb0 ⊢
    rw [List.getElem?_set_self (by omega), hb0]
    simp only [Option.map_some, Option.some.injEq]
    have hb : b.toNat ||| (if v then 2 ^ (i % 8) else 0) < 2 ^ 8 := by
      apply Nat.or_lt_two_pow b.toNat_lt
      split
      · exact Nat.pow_lt_pow_right (by omega) (by omega)
      · exact Nat.two_pow_pos 8
    have hm : b.toNat ||| (if v then 2 ^ (i % 8) else 0) < UInt8.size := hb
    rw [UInt8.toNat_ofNat_of_lt' hm, Nat.testBit_or]
    congr 1
    by_cases hij : i = j
    · subst hij; cases v <;> simp
    · have := div_mod_ne hij hd
      cases v
      · simp
      · simp only [if_true, hij, decide_false, Bool.false_and]
        rw [Nat.testBit_two_pow_of_ne (by omega)]
  · rw [List.getElem?_set_ne hd]
    have : i ≠ j := by rintro rfl; exact hd rfl
    rw [Option.map_map]
    congr 1; funext b
    simp [this]

theorem orBits_spec (f : Nat → Option Bool) (g : Nat → Bool) (n j : Nat) (m : Bytes) (hf : ∀ i, j ≤ i → i < j + n → f i = some (g i))
    (h : j + n ≤ 8 * m.length) :
    ∃ m', orBits f n j m = some m' ∧ m'.length = m.length ∧
      ∀ i, bit? m' i = (bit? m i).map (· || (decide (j ≤ i ∧ i < j + n) && g i)) := by
  induction n generalizing j m with
  | zero =>
    refine ⟨m, rfl, rfl, fun i => ?_⟩
    have : ¬ (j ≤ i ∧ i < j + 0) := by omega
    simp only [this, decide_false, Bool.false_and, Bool.or_false]
    exact Option.map_id'.symm ▸ rfl
  | succ n ih =>
    obtain ⟨m1, e1, l1, b1⟩ := orBit_spec m j (g j) (by omega)
    obtain ⟨m2, e2, l2, b2⟩ := ih (j + 1) m1 (fun i h1 h2 => hf i (by omega) (by omega)) (by omega)
    refine ⟨m2, ?_, by omega, fun i => ?_⟩
    · simp only [orBits, hf j (by omega) (by omega), Option.bind_some, e1, e2]
    · rw [b2, b1, Option.map_map]
      congr 1
      funext b
      simp only [Function.comp_apply]
      by_cases hij : j = i
      · subst hij
        have h1 : ¬ (j + 1 ≤ j ∧ j < j + 1 + n) := by omega
        have h2 : j ≤ j ∧ j < j + (n + 1) := by omega
        simp [h1, h2]
      · have h1 : (j + 1 ≤ i ∧ i < j + 1 + n) ↔ (j ≤ i ∧ i < j + (n + 1)) := by omega
        simp only [h1, hij, decide_false, Bool.false_and, Bool.or_false]

/-- Only the values read matter. -/
theorem orBits_congr (f f' : Nat → Option Bool) (n j : Nat) (m : Bytes) (h : ∀ i, j ≤ i → i < j + n → f i = f' i) :
    orBits f n j m = orBits f' n j m := by
  induction n generalizing j m with
  | zero => rfl
  | succ n ih =>
    simp only [orBits, h j (by omega) (by omega)]
    congr 1; funext v; congr 1; funext m'
    exact ih (j + 1) m' fun i h1 h2 => h i (by omega) (by omega)

theorem clear_mask : ∀ k < 8, ∀ i < 8, (255 - 2 ^ k).testBit i = decide (k ≠ i) := by decide

theorem clearBit_spec (m : Bytes) (i : Nat) (h : i < 8 * m.length) :
    ∃ m', clearBit m i = some m' ∧ m'.length = m.length ∧ ∀ j, bit? m' j = (bit? m j).map (· && decide (i ≠ j)) := by
  have hl : i / 8 < m.length := by omega
  obtain ⟨b, hb0⟩ : ∃ b, m[i / 8]? = some b := ⟨_, List.getElem?_eq_getElem hl⟩
  refine ⟨_, by unfold clearBit; rw [hb0]; rfl, by simp, fun j => ?_⟩
  unfold bit?
  by_cases hd : i / 8 = j / 8
  · rw [hd] at hb0 ⊢
    rw [List.getElem?_set_self (by omega), hb0]
    simp only [Option.map_some, Option.some.injEq]
    have hb : b.toNat &&& (255 - 2 ^ (i % 8)) < UInt8.size := lt_of_le_of_lt Nat.and_le_left b.toNat_lt
    rw [UInt8.toNat_ofNat_of_lt' hb, Nat.testBit_and, clear_mask _ (by omega) _ (by omega)]
    congr 1
    rw [decide_eq_decide]
    omega
  · rw [List.getElem?_set_ne hd]
    have : i ≠ j := by rintro rfl; exact hd rfl
    rw [Option.map_map]
    congr 1; funext b
    simp [this]

theorem clearBits_spec (f : Nat → Option Nat) (l : Nat → Nat) (n j : Nat) (m : Bytes) (hf : ∀ i, j ≤ i → i < j + n → f i = some (l i))
    (hl : ∀ i, j ≤ i → i < j + n → l i < 8 * m.length) :
    ∃ m', clearBits f n j m = some m' ∧ m'.length = m.length ∧
      ∀ i, bit? m' i = (bit? m i).map (· && decide (∀ a, j ≤ a → a < j + n → l a ≠ i)) := by
  induction n generalizing j m with
  | zero =>
    refine ⟨m, rfl, rfl, fun i => ?_⟩
    have : ∀ a, j ≤ a → a < j + 0 → l a ≠ i := by omega
    have h2 : decide (∀ a, j ≤ a → a < j + 0 → l a ≠ i) = true := by rw [decide_eq_true_iff]; exact this
    simp only [h2, Bool.and_true]
    exact Option.map_id'.symm ▸ rfl
  | succ n ih =>
    obtain ⟨m1, e1, l1, b1⟩ := clearBit_spec m (l j) (hl j (by omega) (by omega))
    obtain ⟨m2, e2, l2, b2⟩ := ih (j + 1) m1 (fun i h1 h2 => hf i (by omega) (by omega))
      (fun i h1 h2 => by rw [l1]; exact hl i (by omega) (by omega))
    refine ⟨m2, ?_, by omega, fun i => ?_⟩
    · simp only [clearBits, hf j (by omega) (by omega), Option.bind_some, e1, e2]
    · rw [b2, b1, Option.map_map]
      congr 1
      funext b
      simp only [Function.comp_apply, Bool.and_assoc, ← Bool.decide_and]
      congr 1
      rw [decide_eq_decide]
      constructor
      · rintro ⟨h1, h2⟩ a ha1 ha2
        rcases Nat.eq_or_lt_of_le ha1 with rfl | h3
        · exact h1
        · exact h2 a h3 (by omega)
      · intro h1
        exact ⟨h1 j (by omega) (by omega), fun a ha1 ha2 => h1 a (by omega) (by omega)⟩

theorem bit?_replicate (n : Nat) (b : UInt8) (i : Nat) (h : i < 8 * n) : bit? (List.replicate n b) i = some (b.toNat.testBit (i % 8)) := by
  unfold bit?
  rw [List.getElem?_replicate_of_lt (by omega)]
  rfl

theorem bit?_xor (a b : Bytes) (h : a.length = b.length) (i : Nat) (x y : Bool) (hx : bit? a i = some x) (hy : bit? b i = some y) :
    bit? (List.zipWith (· ^^^ ·) a b) i = some (x ^^ y) := by
  unfold bit? at *
  rw [Option.map_eq_some_iff] at hx hy
  obtain ⟨p, hp, rfl⟩ := hx
  obtain ⟨q, hq, rfl⟩ := hy
  rw [List.getElem?_zipWith, hp, hq]
  simp [UInt8.toNat_xor, Nat.testBit_xor]

theorem bit?_append (a b : Bytes) (i : Nat) (h : i < 8 * a.length) : bit? (a ++ b) i = bit? a i := by
  unfold bit?
  rw [List.getElem?_append_left (by omega)]

/-! ### Locations -/

theorem ofLE_append (a b : Bytes) : ofLE (a ++ b) = ofLE a + 256 ^ a.length * ofLE b := by
  induction a with
  | nil => simp [ofLE]
  | cons x xs ih => simp only [List.cons_append, ofLE, ih, List.length_cons, Nat.pow_succ]; ring

/-- The place of an encrypted input in column `i` of its bucket. -/
def place (pp : PP) (i : Nat) (b : Block) : Nat := ofLE (((Block.toBytes b).drop (i * pp.lhb)).take pp.lhb) % 2 ^ pp.logHeight

/-- `MATRIX_WIDTH` is free; the other parameters are as `Setup` makes them. -/
structure Good (pp : PP) : Prop where
  lo : 3 ≤ pp.logHeight
  hi : pp.logHeight ≤ 30
  height : pp.height = 2 ^ pp.logHeight
  batch : 0 < pp.batch
  whole : pp.height % pp.batch = 0
  range : pp.range ≤ 32

variable {pp : PP}

theorem Good.lhb (g : Good pp) : 1 ≤ pp.lhb ∧ pp.lhb ≤ 4 ∧ pp.logHeight ≤ 8 * pp.lhb := by
  have := g.lo; have := g.hi
  unfold PP.lhb; omega

theorem Good.hb (g : Good pp) : pp.height = 8 * pp.hb := by
  unfold PP.hb
  rw [g.height]
  obtain ⟨k, hk⟩ := Nat.exists_eq_add_of_le g.lo
  rw [hk, Nat.pow_add]; omega

theorem Good.sb (g : Good pp) : 4 ≤ pp.sb ∧ pp.sb * pp.lhb ≤ 16 := by
  have h := g.lhb
  unfold PP.sb
  refine ⟨?_, Nat.div_mul_le_self _ _⟩
  rw [Nat.le_div_iff_mul_le (by omega)]
  omega

theorem place_lt (g : Good pp) (i : Nat) (b : Block) : place pp i b < 8 * pp.hb := by
  rw [← g.hb, g.height]
  exact Nat.mod_lt _ (Nat.two_pow_pos _)

theorem location_spec (g : Good pp) (row : Bytes) (j : Nat) (p : Bytes) (h : load row (j * pp.lhb) pp.lhb = some p)
    (hl : j * pp.lhb + 4 ≤ row.length) : location pp row j = some (ofLE p % 2 ^ pp.logHeight) := by
  unfold location
  rw [if_pos hl, Nat.and_two_pow_sub_one_eq_mod]
  congr 1
  obtain ⟨h1, h4, h8⟩ := g.lhb
  have hp := load_length h
  rw [load_eq_some (by omega)] at h
  simp only [Option.some.injEq] at h
  have : (row.drop (j * pp.lhb)).take 4 = p ++ ((row.drop (j * pp.lhb)).drop pp.lhb).take (4 - pp.lhb) := by
    rw [← h, ← List.take_add]
    congr 1; omega
  rw [this, ofLE_append, hp]
  have : 256 ^ pp.lhb = 2 ^ pp.logHeight * 2 ^ (8 * pp.lhb - pp.logHeight) := by
    rw [show (256 : Nat) = 2 ^ 8 from rfl, ← Nat.pow_mul, ← Nat.pow_add]
    congr 1; omega
  rw [this, Nat.mul_assoc, Nat.add_mul_mod_self_left]

theorem locRow_spec (lhb i : Nat) (v : List Block) (hi : i * lhb + lhb ≤ 16) (n j : Nat) (row : Bytes) (hv : j + n ≤ v.length)
    (hr : (j + n) * lhb ≤ row.length) :
    ∃ r, locRow lhb i v n j row = some r ∧ r.length = row.length ∧ (∀ a < j, load r (a * lhb) lhb = load row (a * lhb) lhb) ∧
      ∀ a b, j ≤ a → a < j + n → v[a]? = some b → load r (a * lhb) lhb = some (((Block.toBytes b).drop (i * lhb)).take lhb) := by
  induction n generalizing j row with
  | zero => exact ⟨row, rfl, rfl, fun _ _ => rfl, fun a b h1 h2 => by omega⟩
  | succ n ih =>
    have hlt : j < v.length := by omega
    have hpl : (((Block.toBytes v[j]).drop (i * lhb)).take lhb).length = lhb := by
      rw [List.length_take, List.length_drop, Block.toBytes_length]; omega
    have hb1 : (j + (n + 1)) * lhb = j * lhb + lhb + n * lhb := by ring
    obtain ⟨row1, e1⟩ := store_isSome (m := row) (off := j * lhb) (b := ((Block.toBytes v[j]).drop (i * lhb)).take lhb) (by omega)
    have l1 := store_length e1
    obtain ⟨r, e2, l2, p2, q2⟩ := ih (j + 1) row1 (by omega) (by rw [l1]; rw [show (j + 1 + n) * lhb = j * lhb + lhb + n * lhb by ring]; omega)
    refine ⟨r, ?_, by omega, ?_, ?_⟩
    · simp only [locRow, List.getElem?_eq_getElem hlt, Option.bind_some, e1, e2]
    · intro a ha
      rw [p2 a (by omega)]
      apply load_store_disjoint e1
      left
      calc a * lhb + lhb = (a + 1) * lhb := by ring
        _ ≤ j * lhb := Nat.mul_le_mul_right _ ha
    · intro a b h1 h2 hb
      rcases Nat.eq_or_lt_of_le h1 with rfl | h3
      · rw [List.getElem?_eq_getElem hlt, Option.some.injEq] at hb
        subst hb
        rw [p2 j (by omega)]
        have := load_store_same e1
        rwa [hpl] at this
      · exact q2 a b h3 (by omega) hb

theorem encSlice_spec (k : Key) (B low : Nat) (v : List Block) (h : low + B ≤ v.length) :
    encSlice k B low v = some (v.take low ++ ((v.drop low).take B).map (enc k) ++ v.drop (low + B)) := by
  unfold encSlice
  rw [if_pos h]
  obtain ⟨b, e, d⟩ := aes_fastECB_in_place k ((v.drop low).take B) B (by simp; omega)
  rw [e]
  simp only [Option.map_some, d]
  have h2 : ((v.drop low).take B).drop B = [] := List.drop_eq_nil_of_le (by simp)
  rw [List.take_take, Nat.min_self, h2, List.append_nil]

theorem encBatches_spec (k : Key) (B m low : Nat) (v : List Block) (h : low + m * B ≤ v.length) :
    encBatches k B m low v = some (v.take low ++ ((v.drop low).take (m * B)).map (enc k) ++ v.drop (low + m * B)) := by
  induction m generalizing low v with
  | zero => simp [encBatches]
  | succ m ih =>
    have hb : (m + 1) * B = B + m * B := by ring
    rw [hb] at h ⊢
    simp only [encBatches, encSlice_spec k B low v (by omega), Option.bind_some]
    rw [ih _ _ (by simp; omega)]
    congr 1
    have e1 : (v.take low ++ ((v.drop low).take B).map (enc k) ++ v.drop (low + B)).take (low + B) =
        v.take low ++ ((v.drop low).take B).map (enc k) := by
      rw [List.take_append_of_le_length (by simp; omega), List.take_of_length_le (by simp; omega)]
    have e2 : (v.take low ++ ((v.drop low).take B).map (enc k) ++ v.drop (low + B)).drop (low + B) = v.drop (low + B) := by
      rw [List.drop_append_of_le_length (by simp; omega), List.drop_eq_nil_of_le (by simp; omega), List.nil_append]
    rw [e1, e2, Nat.add_assoc low B (m * B)]
    have e3 : (v.take low ++ ((v.drop low).take B).map (enc k) ++ v.drop (low + B)).drop (low + (B + m * B)) = v.drop (low + (B + m * B)) := by
      rw [← Nat.add_assoc, ← List.drop_drop, e2, List.drop_drop]
    rw [e3, List.take_add, List.map_append, List.drop_drop]
    simp only [List.append_assoc]

/-- All inputs, when their number is a multiple of the batch size. -/
theorem encBatches_all (g : Good pp) (k : Key) (v : List Block) (h : v.length % pp.batch = 0) :
    encBatches k pp.batch (batches pp v.length) 0 v = some (v.map (enc k)) ∧ batches pp v.length * pp.batch = v.length := by
  have hb := g.batch
  have : batches pp v.length * pp.batch = v.length := by
    unfold batches
    obtain ⟨q, hq⟩ := Nat.dvd_of_mod_eq_zero h
    rw [hq, show (pp.batch * q + pp.batch - 1) / pp.batch = q from ?_, Nat.mul_comm]
    rw [show pp.batch * q + pp.batch - 1 = (pp.batch - 1) + pp.batch * q by omega, Nat.add_mul_div_left _ _ hb,
      Nat.div_eq_of_lt (by omega), Nat.zero_add]
  refine ⟨?_, this⟩
  rw [encBatches_spec _ _ _ _ _ (by omega), this]
  simp

theorem encode_spec (BH : Bytes → Bytes) (key : Block) (X : List Block) :
    encode BH key X = some (X.map fun x => enc (genEncKey key) (Block.ofBytes ((BH (Block.toBytes x)).take 16)) ^^^
      Block.ofBytes (((BH (Block.toBytes x)).drop 16).take 16)) := by
  unfold encode
  obtain ⟨b, e, d⟩ := aes_fastECB_in_place (genEncKey key) (X.map fun x => Block.ofBytes ((BH (Block.toBytes x)).take 16)) X.length (by simp)
  simp only [e, Option.map_some, d]
  rw [List.take_of_length_le (by simp), List.drop_eq_nil_of_le (by simp), List.append_nil, List.map_map, List.zipWith_map, List.zipWith_self]
  simp

/-! ### What both parties compute -/

/-- Block `t` of the extended encoding of an input: the first encoding encrypted under salts 1 to `t`. -/
def chain (salts : List Block) (b : Block) : Nat → Block
  | 0 => b
  | t + 1 => enc (genEncKey (salts.getD (t + 1) 0)) (chain salts b t)

/-- The encoding of an input under salt 0. -/
def code (BH : Bytes → Bytes) (salts : List Block) (x : Block) : Block :=
  enc (genEncKey (salts.getD 0 0)) (Block.ofBytes ((BH (Block.toBytes x)).take 16)) ^^^ Block.ofBytes (((BH (Block.toBytes x)).drop 16).take 16)

/-- The place of input `x` in column `c`. -/
def spot (BH : Bytes → Bytes) (pp : PP) (salts : List Block) (c : Nat) (x : Block) : Nat :=
  place pp (c % pp.sb) (chain salts (code BH salts x) (c / pp.sb + 1))

/-- The bit of column `C` at the place of `x`. -/
def colBit (BH : Bytes → Bytes) (pp : PP) (salts : List Block) (C : Bytes) (c : Nat) (x : Block) : Bool :=
  (bit? C (spot BH pp salts c x)).getD false

/-- Bits packed into zeroed bytes. -/
def pack (w : Nat) (f : Nat → Bool) : Bytes := (orBits (fun i => some (f i)) w 0 (List.replicate ((w + 7) / 8) 0)).getD []

/-- The PRF: hash of the bits found in the columns. -/
def prfCols (BH : Bytes → Bytes) (pp : PP) (salts : List Block) (cols : Nat → Bytes) (x : Block) : Bytes :=
  (BH (pack pp.width fun c => colBit BH pp salts (cols c) c x)).take pp.range

/-- The hash of an all-zero row, returned for the positions after the last input. -/
def blank (BH : Bytes → Bytes) (pp : PP) : Bytes := (BH (pack pp.width fun _ => false)).take pp.range

theorem spot_lt (g : Good pp) (BH : Bytes → Bytes) (salts : List Block) (c : Nat) (x : Block) : spot BH pp salts c x < 8 * pp.hb := place_lt g _ _

structure LocsOk (BH : Bytes → Bytes) (pp : PP) (salts X : List Block) (t : Nat) (s : Locs) : Prop where
  enc : s.enc = X.map fun x => chain salts (code BH salts x) t
  len : s.rows.length = pp.sb
  row : ∀ r ∈ s.rows, r.length = X.length * pp.lhb + 4

theorem bucketSize_le (t : Nat) : pp.bucketSize t ≤ pp.sb := by unfold PP.bucketSize; omega

theorem step_spec (g : Good pp) (BH : Bytes → Bytes) (salts X : List Block) (t : Nat) (s : Locs) (hs : t + 1 < salts.length)
    (ok : LocsOk BH pp salts X t s) (hX : X.length % pp.batch = 0) :
    ∃ s', step pp salts X.length t s = some s' ∧ LocsOk BH pp salts X (t + 1) s' ∧
      ∀ i < pp.bucketSize t, ∃ r, s'.rows[i]? = some r ∧ ∀ j x, X[j]? = some x → location pp r j = some (spot BH pp salts (t * pp.sb + i) x) := by
  have hle := bucketSize_le (pp := pp) t
  obtain ⟨hsb, hsl⟩ := g.sb
  obtain ⟨e1, e2⟩ := encBatches_all g (genEncKey (salts.getD (t + 1) 0)) s.enc (by rw [ok.enc, List.length_map]; exact hX)
  have hlen : s.enc.length = X.length := by rw [ok.enc, List.length_map]
  rw [hlen] at e1 e2
  have henc : s.enc.map (enc (genEncKey (salts.getD (t + 1) 0))) = X.map fun x => chain salts (code BH salts x) (t + 1) := by
    rw [ok.enc, List.map_map]; rfl
  rw [henc] at e1
  have hrow : ∀ i, ∃ r, i < pp.bucketSize t → ((s.rows[i]?).bind
      (locRow pp.lhb i (X.map fun x => chain salts (code BH salts x) (t + 1)) (batches pp X.length * pp.batch) 0)) = some r ∧
      r.length = X.length * pp.lhb + 4 ∧ ∀ j x, X[j]? = some x → location pp r j = some (spot BH pp salts (t * pp.sb + i) x) := by
    intro i
    by_cases hi : i < pp.bucketSize t
    swap
    · exact ⟨[], fun h => absurd h hi⟩
    have hir : i < s.rows.length := by rw [ok.len]; omega
    have hrl := ok.row _ (List.getElem_mem hir)
    have hil : i * pp.lhb + pp.lhb ≤ 16 := by
      calc i * pp.lhb + pp.lhb = (i + 1) * pp.lhb := by ring
        _ ≤ pp.sb * pp.lhb := Nat.mul_le_mul_right _ (by omega)
        _ ≤ 16 := hsl
    obtain ⟨r, r1, r2, -, r4⟩ := locRow_spec pp.lhb i (X.map fun x => chain salts (code BH salts x) (t + 1)) hil X.length 0 s.rows[i]
      (by simp) (by rw [Nat.zero_add, hrl]; omega)
    refine ⟨r, fun _ => ⟨by rw [List.getElem?_eq_getElem hir, Option.bind_some, e2, r1], by omega, ?_⟩⟩
    intro j x hx
    obtain ⟨hjl, -⟩ := List.getElem?_eq_some_iff.1 hx
    have := r4 j (chain salts (code BH salts x) (t + 1)) (by omega) (by omega) (by rw [List.getElem?_map, hx]; rfl)
    rw [location_spec g r j _ this ?_]
    · unfold spot place
      rw [show (t * pp.sb + i) % pp.sb = i by rw [Nat.add_comm, Nat.add_mul_mod_self_right, Nat.mod_eq_of_lt (by omega)],
        show (t * pp.sb + i) / pp.sb = t by rw [Nat.add_comm, Nat.add_mul_div_right _ _ (by omega), Nat.div_eq_of_lt (by omega), Nat.zero_add]]
    · rw [r2, hrl]
      have := Nat.mul_le_mul_right pp.lhb (show j ≤ X.length by omega)
      omega
  choose r hr using hrow
  have hm := OTE.mapM_range_spec (fun i => (s.rows[i]?).bind
      (locRow pp.lhb i (X.map fun x => chain salts (code BH salts x) (t + 1)) (batches pp X.length * pp.batch) 0)) r (pp.bucketSize t)
      (fun i hi => (hr i hi).1)
  refine ⟨⟨_, (List.range (pp.bucketSize t)).map r ++ s.rows.drop (pp.bucketSize t)⟩, ?_, ⟨rfl, ?_, ?_⟩, ?_⟩
  · unfold step
    simp only [OTE.getD_of_lt salts (t + 1) 0 hs, e1, hm, Option.bind_eq_bind, Option.bind_some, Option.pure_def]
  · simp [ok.len]; omega
  · intro x hx
    rw [List.mem_append] at hx
    rcases hx with hx | hx
    · rw [List.mem_map] at hx
      obtain ⟨i, hi, rfl⟩ := hx
      exact (hr i (List.mem_range.1 hi)).2.1
    · exact ok.row _ (List.mem_of_mem_drop hx)
  · intro i hi
    refine ⟨r i, ?_, (hr i hi).2.2⟩
    show ((List.range (pp.bucketSize t)).map r ++ s.rows.drop (pp.bucketSize t))[i]? = _
    rw [List.getElem?_append_left (by simpa using hi), List.getElem?_map, List.getElem?_range hi]
    rfl

theorem start_spec (g : Good pp) (BH : Bytes → Bytes) (seed : PRG.Seed) (X : List Block) :
    ∃ salts seed' s, PRG.genRandomBlocks OTE.uninit seed (pp.width / pp.sb + 2) = some (salts, seed') ∧
      start BH pp seed X X.length = some (salts, s, seed') ∧ salts.length = pp.width / pp.sb + 2 ∧ LocsOk BH pp salts X 0 s := by
  obtain ⟨salts, seed', e, l⟩ : ∃ A s2, PRG.genRandomBlocks OTE.uninit seed (pp.width / pp.sb + 2) = some (A, s2) ∧ A.length = pp.width / pp.sb + 2 :=
    ⟨_, _, PRG.genRandomBlocks_spec _ rfl _ _, by simp⟩
  refine ⟨salts, seed', ⟨_, List.replicate pp.sb (List.replicate (X.length * pp.lhb + 4) 0)⟩, e, ?_, l, ⟨rfl, by simp, ?_⟩⟩
  · unfold start
    rw [if_neg (by have := g.lhb; omega)]
    have h0 := OTE.getD_of_lt salts 0 0 (by rw [l]; exact Nat.succ_pos _)
    simp only [e, h0, encode_spec, Option.bind_eq_bind, Option.bind_some, Option.pure_def]
    rfl
  · intro r hr
    rw [List.eq_of_mem_replicate hr, List.length_replicate]

/-- What a row of `matrix_mapping_values` has to contain for column `C`. -/
def RowOk (BH : Bytes → Bytes) (pp : PP) (salts X : List Block) (C : Bytes) (c : Nat) (row : Bytes) : Prop :=
  ∀ j < pp.height, bit? row j = some (match X[j]? with | some x => colBit BH pp salts C c x | none => false)

theorem mapRow_spec (g : Good pp) (BH : Bytes → Bytes) (salts X : List Block) (C row : Bytes) (c : Nat) (hC : pp.hb ≤ C.length)
    (hX : X.length ≤ pp.height) (hr : ∀ j x, X[j]? = some x → location pp row j = some (spot BH pp salts c x)) :
    ∃ m, mapRow pp C row X.length = some m ∧ RowOk BH pp salts X C c m := by
  have hb := g.hb
  obtain ⟨m, e, -, b⟩ := orBits_spec (fun j => (location pp row j).bind (bit? C))
    (fun j => match X[j]? with | some x => colBit BH pp salts C c x | none => false) X.length 0 (List.replicate pp.hb 0) (by
      intro j _ hj
      have hj' : j < X.length := by omega
      have hx := List.getElem?_eq_getElem hj'
      rw [hr j _ hx, hx]
      simp only [Option.bind_some, colBit]
      obtain ⟨v, hv⟩ := bit?_eq C (spot BH pp salts c X[j]) (by have := spot_lt g BH salts c X[j]; omega)
      rw [hv]; rfl) (by rw [List.length_replicate]; omega)
  refine ⟨m, e, fun j hj => ?_⟩
  rw [b j, bit?_replicate _ _ _ (by omega), Option.map_some]
  congr 1
  by_cases hjx : j < X.length
  · simp [hjx]
  · rw [List.getElem?_eq_none (by omega)]
    simp

theorem RowOk.congr {BH : Bytes → Bytes} {salts X : List Block} {C C' : Bytes} {c : Nat} {row : Bytes} (h : RowOk BH pp salts X C c row)
    (hc : ∀ x ∈ X, colBit BH pp salts C c x = colBit BH pp salts C' c x) : RowOk BH pp salts X C' c row := by
  intro j hj
  rw [h j hj]
  congr 1
  cases hx : X[j]? with
  | none => rfl
  | some x => exact hc x (List.mem_of_getElem? hx)

theorem packing_spec (g : Good pp) (BH : Bytes → Bytes) (salts X : List Block) (cols : Nat → Bytes) (rows : List Bytes)
    (hl : rows.length = pp.width) (hX : X.length ≤ pp.height)
    (h : ∀ c < pp.width, RowOk BH pp salts X (cols c) c (rows.getD c [])) :
    packing BH pp rows = some (X.map (prfCols BH pp salts cols) ++ List.replicate (pp.height - X.length) (blank BH pp)) := by
  have hp : ∀ f : Nat → Bool, orBits (fun i => some (f i)) pp.width 0 (List.replicate ((pp.width + 7) / 8) 0) = some (pack pp.width f) := by
    intro f
    obtain ⟨m, e, -⟩ := orBits_spec (fun i => some (f i)) f pp.width 0 (List.replicate ((pp.width + 7) / 8) 0) (fun _ _ _ => rfl)
      (by rw [List.length_replicate]; omega)
    unfold pack
    rw [e]; rfl
  have key : ∀ j < pp.height, ((orBits (fun i => (rows[i]?).bind fun r => bit? r j) pp.width 0 (List.replicate ((pp.width + 7) / 8) 0)).map fun r =>
        (BH r).take pp.range) = some (match X[j]? with | some x => prfCols BH pp salts cols x | none => blank BH pp) := by
    intro j hj
    rw [orBits_congr _ (fun c => some (match X[j]? with | some x => colBit BH pp salts (cols c) c x | none => false)) _ _ _ ?_]
    · rw [hp]
      cases X[j]? <;> rfl
    · intro c _ hc
      have hc' : c < rows.length := by omega
      rw [OTE.getD_of_lt rows c [] hc', Option.bind_some]
      exact h c (by omega) j hj
  unfold packing
  rw [if_neg (by simp [g.whole]), if_neg (by have := g.range; omega), OTE.mapM_range_spec _ _ _ key]
  congr 1
  apply List.ext_getElem?
  intro j
  by_cases hj : j < pp.height
  · rw [List.getElem?_map, List.getElem?_range hj, Option.map_some]
    by_cases hjx : j < X.length
    · rw [List.getElem?_append_left (by simpa using hjx), List.getElem?_map, List.getElem?_eq_getElem hjx]; rfl
    · rw [List.getElem?_append_right (by simp; omega), List.getElem?_replicate_of_lt (by simp; omega), List.getElem?_eq_none (by omega)]
  · rw [List.getElem?_eq_none (by simpa using hj), List.getElem?_eq_none (by simp; omega)]

end Kunlun.OTEOPRF
