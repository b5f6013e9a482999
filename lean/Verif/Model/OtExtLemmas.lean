import Verif.Model.OtExt
import Verif.Props.Transpose
import Verif.Props.Block
import Verif.Props.Prg
import Verif.Props.NaorPinkas
/-! Lemmas about the OT extensions: the transposed matrices at the level of blocks and bits. -/

namespace Kunlun.OTE

open Kunlun Kunlun.Proto

theorem leBytes_getElem? (n v i : Nat) : (leBytes n v)[i]? = if i < n then some (UInt8.ofNat (v / 256 ^ i)) else none := by
  induction n generalizing v i with
  | zero => simp [leBytes]
  | succ n ih =>
    cases i with
    | zero => simp [leBytes]
    | succ i =>
      simp only [leBytes, List.getElem?_cons_succ, ih, Nat.add_lt_add_iff_right]
      rw [Nat.div_div_eq_div_mul, Nat.pow_succ, Nat.mul_comm]

theorem toBytes_bit (b : Block) (i k : Nat) (hi : i < 16) (hk : k < 8) :
    ∃ x, b.toBytes[i]? = some x ∧ x.toNat.testBit k = b.getLsbD (8 * i + k) := by
  refine ⟨_, by rw [Block.toBytes, leBytes_getElem?, if_pos hi], ?_⟩
  rw [UInt8.toNat_ofNat']
  have e : (256 : Nat) ^ i = 2 ^ (8 * i) := by rw [Nat.pow_mul]
  rw [show (2 : Nat) ^ 8 = 2 ^ 8 from rfl, Nat.testBit_mod_two_pow, e, ← Nat.shiftRight_eq_div_pow, Nat.testBit_shiftRight]
  simp [hk, BitVec.getLsbD]

theorem flatten_getElem? {α : Type} (l : List (List α)) (w a b : Nat) (hw : ∀ x ∈ l, x.length = w) (hb : b < w) :
    l.flatten[a * w + b]? = l[a]?.bind fun x => x[b]? := by
  induction l generalizing a with
  | nil => simp
  | cons x l ih =>
    have hx := hw x (by simp)
    cases a with
    | zero =>
      rw [List.flatten_cons, List.getElem?_append_left (by omega)]
      simp
    | succ a =>
      rw [List.flatten_cons, List.getElem?_append_right (by rw [hx, Nat.succ_mul]; omega), hx,
        show (a + 1) * w + b - w = a * w + b by rw [Nat.succ_mul]; omega, ih a (fun y hy => hw y (by simp [hy]))]
      simp

theorem flatten_len {α : Type} (l : List (List α)) (w : Nat) (hw : ∀ x ∈ l, x.length = w) : l.flatten.length = l.length * w := by
  induction l with
  | nil => simp
  | cons x l ih =>
    rw [List.flatten_cons, List.length_append, hw x (by simp), ih (fun y hy => hw y (by simp [hy])), List.length_cons, Nat.succ_mul]
    omega

theorem bytesOf_bit (m : List Block) (a k : Nat) (hk : k < 128) :
    (PRG.bytesOf m)[16 * a + k / 8]?.map (fun b => b.toNat.testBit (k % 8)) = m[a]?.map fun x => x.getLsbD k := by
  unfold PRG.bytesOf
  rw [Nat.mul_comm, flatten_getElem? _ 16 a (k / 8) (by simp) (by omega), List.getElem?_map]
  cases h : m[a]? with
  | none => simp
  | some x =>
    obtain ⟨y, h1, h2⟩ := toBytes_bit x (k / 8) (k % 8) (by omega) (by omega)
    simp only [Option.map_some, Option.bind_some, h1, h2, Option.some.injEq]
    congr 1; omega

/-- Bit `(r, c)` of a matrix of blocks with `w` blocks in each row. -/
def bit (m : List Block) (w r c : Nat) : Bool := (m.getD (r * w + c / 128) 0).getLsbD (c % 128)

theorem bitOf_blocks (m : List Block) (w r c : Nat) (h : r * w + c / 128 < m.length) :
    Transpose.bitOf (16 * w) (PRG.bytesOf m) r c = some (bit m w r c) := by
  unfold Transpose.bitOf bit
  rw [show r * (16 * w) + c / 8 = 16 * (r * w + c / 128) + (c % 128) / 8 by rw [Nat.mul_add, Nat.mul_left_comm]; omega]
  have := bytesOf_bit m (r * w + c / 128) (c % 128) (Nat.mod_lt _ (by decide))
  rw [show c % 128 % 8 = c % 8 by omega] at this
  rw [this, List.getElem?_eq_getElem h]
  simp [List.getD, h]

theorem rows_length (n : Nat) (b : Bytes) (h : b.length = 16 * n) : ∀ v ∈ Chan.rows 16 n b, v.length = 16 := by
  induction n generalizing b with
  | zero => simp [Chan.rows]
  | succ n ih =>
    intro v hv
    rw [Chan.rows, List.mem_cons] at hv
    rcases hv with rfl | hv
    · rw [List.length_take]; omega
    · exact ih _ (by rw [List.length_drop]; omega) v hv

theorem rows_count (n : Nat) (b : Bytes) : (Chan.rows 16 n b).length = n := by
  induction n generalizing b with
  | zero => rfl
  | succ n ih => simp [Chan.rows, ih]

theorem rows_join (n : Nat) (b : Bytes) (h : b.length = 16 * n) : (Chan.rows 16 n b).flatten = b := by
  induction n generalizing b with
  | zero => rw [Nat.mul_zero, List.length_eq_zero_iff] at h; simp [Chan.rows, h]
  | succ n ih =>
    rw [Chan.rows, List.flatten_cons, ih _ (by rw [List.length_drop]; omega), List.take_append_drop]

theorem bytesOf_blocksOf (b : Bytes) (n : Nat) (h : b.length = 16 * n) : PRG.bytesOf (blocksOf b) = b ∧ (blocksOf b).length = n := by
  unfold PRG.bytesOf blocksOf
  rw [show b.length / 16 = n by omega, List.map_map]
  have e : (Chan.rows 16 n b).map (Block.toBytes ∘ Block.ofBytes) = Chan.rows 16 n b := by
    conv => rhs; rw [← List.map_id (Chan.rows 16 n b)]
    apply List.map_congr_left
    intro v hv
    exact Block.toBytes_ofBytes v (rows_length n b h v hv)
  exact ⟨by rw [e, rows_join n b h], by rw [List.length_map, rows_count]⟩

/-- The transpose between block vectors is exact. -/
theorem transposeBlocks_spec (stale : Nat → BitVec 8) (m : List Block) (R C : Nat) (hR : R % 128 = 0) (hR0 : R ≠ 0) (hC : C % 128 = 0)
    (hm : m.length = R * (C / 128)) : ∃ t, transposeBlocks stale m R C (C / 128 * R) = some t ∧ t.length = C * (R / 128) ∧
      ∀ r c, r < R → c < C → bit t (R / 128) c r = bit m (C / 128) r c := by
  have e1 : C * (R / 8) = 16 * (C / 128 * R) := by
    obtain ⟨a, rfl⟩ : ∃ a, C = 128 * a := ⟨C / 128, by omega⟩
    obtain ⟨b, rfl⟩ : ∃ b, R = 128 * b := ⟨R / 128, by omega⟩
    rw [show 128 * a / 128 = a by omega, show 128 * b / 8 = 16 * b by omega]; ring
  have e2 : C / 128 * R = C * (R / 128) := by
    obtain ⟨a, rfl⟩ : ∃ a, C = 128 * a := ⟨C / 128, by omega⟩
    obtain ⟨b, rfl⟩ : ∃ b, R = 128 * b := ⟨R / 128, by omega⟩
    rw [show 128 * a / 128 = a by omega, show 128 * b / 128 = b by omega]; ring
  obtain ⟨o, h1, h2, h3, -⟩ := Transpose.transpose_exact stale (PRG.bytesOf m) (List.replicate (16 * (C / 128 * R)) 0) R C
    ⟨by omega, by omega, by omega, .inl (by omega)⟩
    (by rw [PRG.bytesOf_length, hm, show C / 8 = 16 * (C / 128) by omega, Nat.mul_left_comm]) (by simp [e1])
  rw [List.length_replicate] at h2
  obtain ⟨h4, h5⟩ := bytesOf_blocksOf o _ h2
  refine ⟨blocksOf o, by unfold transposeBlocks; rw [h1]; rfl, by rw [h5, e2], ?_⟩
  intro r c hr hc
  obtain ⟨b, h6, h7⟩ := h3 r c hr hc
  have lt : ∀ {x y n w : Nat}, x < n → y < 128 * w → x * w + y / 128 < n * w := by
    intro x y n w hx hy
    calc x * w + y / 128 < x * w + w := by omega
      _ = (x + 1) * w := by ring
      _ ≤ n * w := Nat.mul_le_mul_right _ hx
  rw [show C / 8 = 16 * (C / 128) by omega, bitOf_blocks _ _ _ _ (by rw [hm]; exact lt hr (by omega))] at h6
  rw [show R / 8 = 16 * (R / 128) by omega, ← h4, bitOf_blocks _ _ _ _ (by rw [h5, e2]; exact lt hc (by omega))] at h7
  rw [Option.some.injEq] at h6 h7
  rw [h6, h7]

/-- Rows of blocks are equal when their bits are. -/
theorem row_ext (t t' : List Block) (w n i : Nat) (hi : i < n) (ht : t.length = n * w) (s : List Block) (hs : s.length = w)
    (h : ∀ k < 128 * w, bit t w i k = (bit t' w i k ^^ (s.getD (k / 128) 0).getLsbD (k % 128))) (ht' : t'.length = n * w) :
    row t w i = List.zipWith (· ^^^ ·) (row t' w i) s := by
  have hw : i * w + w ≤ n * w := by
    calc i * w + w = (i + 1) * w := by ring
      _ ≤ n * w := Nat.mul_le_mul_right _ hi
  apply List.ext_getElem?
  intro j
  by_cases hj : j < w
  · have e1 : (row t w i)[j]? = some (t.getD (i * w + j) 0) := by
      simp only [row, List.getElem?_take, List.getElem?_drop, hj, if_true]
      rw [List.getElem?_eq_getElem (by omega)]
      simp [List.getD, show i * w + j < t.length by omega]
    have e2 : (row t' w i)[j]? = some (t'.getD (i * w + j) 0) := by
      simp only [row, List.getElem?_take, List.getElem?_drop, hj, if_true]
      rw [List.getElem?_eq_getElem (by omega)]
      simp [List.getD, show i * w + j < t'.length by omega]
    have e3 : s[j]? = some (s.getD j 0) := by
      rw [List.getElem?_eq_getElem (by omega)]
      simp [List.getD, show j < s.length by omega]
    rw [e1, List.getElem?_zipWith, e2, e3]
    simp only [Option.some.injEq]
    apply BitVec.eq_of_getLsbD_eq
    intro k hk
    have := h (128 * j + k) (by omega)
    simp only [bit] at this
    rw [show (128 * j + k) / 128 = j by omega, show (128 * j + k) % 128 = k by omega] at this
    rw [BitVec.getLsbD_xor, this]
  · rw [List.getElem?_eq_none (by simp [row]; omega), List.getElem?_eq_none (by simp [row]; omega)]

theorem pad_spec (key : Block) (n : Nat) : ∃ p, pad key n = some p ∧ p.length = n := by
  unfold pad
  rw [PRG.genRandomBlocks_spec _ rfl]
  exact ⟨_, rfl, by simp⟩

theorem xorVec_spec (a b : List Block) (h : a.length = b.length) : Block.xorVec a b = some (List.zipWith (· ^^^ ·) a b) :=
  (Block.block_vec_ops a b).1 h |>.1

/-- The keys of the sender in terms of the receiver's: where the receiver's bit is zero its key is the sender's first key, where it is
not zero its key is the sender's second one. -/
structure KeysMatch (K0 K1 K : List Block) (sel : Bytes) (n : Nat) : Prop where
  l0 : K0.length = n
  l1 : K1.length = n
  l : K.length = n
  key : ∀ i < n, K.getD i 0 = if sel.getD i 0 = 0 then K0.getD i 0 else K1.getD i 0

theorem mapM_range_spec {α : Type} (f : Nat → Option α) (g : Nat → α) (n : Nat) (h : ∀ i < n, f i = some (g i)) :
    (List.range n).mapM f = some ((List.range n).map g) := by
  have : ∀ l : List Nat, (∀ i ∈ l, f i = some (g i)) → l.mapM f = some (l.map g) := by
    intro l
    induction l with
    | nil => intro _; rfl
    | cons x l ih =>
      intro hl
      rw [List.mapM_cons, hl x (by simp), ih (fun i hi => hl i (by simp [hi]))]
      rfl
  exact this _ (fun i hi => h i (List.mem_range.1 hi))

theorem xor_zipWith_cancel (a s : List Block) (h : a.length = s.length) :
    List.zipWith (· ^^^ ·) (List.zipWith (· ^^^ ·) a s) s = a := by
  induction a generalizing s with
  | nil => simp
  | cons x a ih =>
    cases s with
    | nil => simp at h
    | cons y s =>
      simp only [List.zipWith_cons_cons, List.cons.injEq]
      refine ⟨by rw [BitVec.xor_assoc, BitVec.xor_self, BitVec.xor_zero], ih s (by simpa using h)⟩

theorem row_length (t : List Block) (w n i : Nat) (hi : i < n) (ht : t.length = n * w) : (row t w i).length = w := by
  have hw : i * w + w ≤ n * w := by
    calc i * w + w = (i + 1) * w := by ring
      _ ≤ n * w := Nat.mul_le_mul_right _ hi
  simp only [row, List.length_take, List.length_drop]
  omega

/-- The heart of both extensions. `Q` is the matrix of the sender and `T` that of the receiver, both with `cols` rows of `rows` bits; they
differ by the receiver's selection bits in the rows the sender selected. -/
theorem keys_match (H : List Block → Block) (st st' : Nat → BitVec 8) (Q T : List Block) (ssel rsel : Bytes) (cols rows : Nat)
    (hc : cols % 128 = 0) (hc0 : cols ≠ 0) (hr : rows % 128 = 0) (hQ : Q.length = cols * (rows / 128)) (hT : T.length = cols * (rows / 128))
    (hs : ssel.length = cols) (h : ∀ j < cols, ∀ i < rows,
      bit Q (rows / 128) j i = (bit T (rows / 128) j i ^^ (decide (ssel.getD j 0 ≠ 0) && decide (rsel.getD i 0 ≠ 0)))) :
    ∃ K0 K1 K, senderKeys H st Q ssel cols rows = some (K0, K1) ∧ receiverKeys H st' T cols rows = some K ∧ KeysMatch K0 K1 K rsel rows := by
  obtain ⟨Qt, q1, q2, q3⟩ := transposeBlocks_spec st Q cols rows hc hc0 hr hQ
  obtain ⟨Tt, t1, t2, t3⟩ := transposeBlocks_spec st' T cols rows hc hc0 hr hT
  obtain ⟨s, s1, s2, s3⟩ := Block.block_fromSparseBytes ssel (cols / 128) (by omega)
  have hx : ∀ i < rows, Block.xorVec (row Qt (cols / 128) i) s = some (List.zipWith (· ^^^ ·) (row Qt (cols / 128) i) s) := by
    intro i hi
    exact xorVec_spec _ _ (by rw [row_length _ _ rows i hi q2, s2])
  have hbit : ∀ k < 128 * (cols / 128), (s.getD (k / 128) 0).getLsbD (k % 128) = decide (ssel.getD k 0 ≠ 0) := by
    intro k hk
    obtain ⟨b, b1, b2⟩ := s3 (k / 128) (k % 128) (by omega) (by omega)
    have e : s.getD (k / 128) 0 = b := by simp [List.getD, b1]
    rw [e, Bool.eq_iff_iff, b2, show 128 * (k / 128) + k % 128 = k by omega, List.getElem?_eq_getElem (by omega)]
    simp [List.getD, show k < ssel.length by omega]
  refine ⟨(List.range rows).map fun i => H (row Qt (cols / 128) i),
    (List.range rows).map fun i => H (List.zipWith (· ^^^ ·) (row Qt (cols / 128) i) s),
    (List.range rows).map fun i => H (row Tt (cols / 128) i), ?_, ?_, ?_⟩
  · unfold senderKeys
    simp only [q1, s1, Option.bind_eq_bind, Option.bind_some, Option.pure_def]
    rw [mapM_range_spec _ (fun i => H (List.zipWith (· ^^^ ·) (row Qt (cols / 128) i) s)) rows (fun i hi => by rw [hx i hi]; rfl)]
    rfl
  · unfold receiverKeys
    simp only [t1, Option.bind_eq_bind, Option.bind_some, Option.pure_def]
  · refine ⟨by simp, by simp, by simp, ?_⟩
    intro i hi
    rw [NPOT.getD_map_range _ _ _ _ hi, NPOT.getD_map_range _ _ _ _ hi, NPOT.getD_map_range _ _ _ _ hi]
    have hrow : ∀ k < 128 * (cols / 128), bit Qt (cols / 128) i k =
        (bit Tt (cols / 128) i k ^^ (decide (ssel.getD k 0 ≠ 0) && decide (rsel.getD i 0 ≠ 0))) := by
      intro k hk
      rw [q3 k i (by omega) hi, t3 k i (by omega) hi, h k (by omega) i hi]
    by_cases e : rsel.getD i 0 = 0
    · rw [if_pos e]
      congr 1
      have := row_ext Qt Tt (cols / 128) rows i hi q2 (List.replicate (cols / 128) 0) (by simp) (by
        intro k hk
        rw [hrow k hk]
        have : (List.replicate (cols / 128) (0 : Block)).getD (k / 128) 0 = 0 := by
          simp [List.getD, List.getElem?_replicate]; split <;> rfl
        rw [this]
        simp [-List.getD_eq_getElem?_getD, e]) t2
      rw [this]
      apply List.ext_getElem?
      intro j
      rw [List.getElem?_zipWith]
      by_cases hj : j < cols / 128
      · rw [List.getElem?_eq_getElem (by rw [row_length _ _ rows i hi t2]; exact hj), List.getElem?_replicate, if_pos hj]
        simp
      · rw [List.getElem?_eq_none (by rw [row_length _ _ rows i hi t2]; omega)]
    · rw [if_neg e]
      congr 1
      have := row_ext Qt Tt (cols / 128) rows i hi q2 s s2 (by
        intro k hk
        rw [hrow k hk, hbit k hk]
        simp [-List.getD_eq_getElem?_getD, e]) t2
      rw [this, xor_zipWith_cancel _ _ (by rw [row_length _ _ rows i hi t2, s2])]

end Kunlun.OTE
