import Verif.Model.Block
/-!
Model of `BitMatrixTranspose`, crypto/block.hpp:277-342.

`input` holds `ROW_NUM` rows of `COLUMN_NUM` bits, eight bits per byte, low bit first; `output` receives `COLUMN_NUM` rows of
`ROW_NUM` bits.  Reads and writes outside the arrays are `none`.

Loop counters are `int` compared with 64-bit unsigned expressions `ROW_NUM - 16` and `COLUMN_NUM - 16`: for a count below 16 the
expression wraps and the loop runs far outside the arrays, so the model returns `none` there.  Counts are assumed to fit an `int`.
The branch at lines 319-334 is not modelled: it is reached only if `ROW_NUM % 16 = 0`, and then line 301 has already returned.
-/

namespace Kunlun.Transpose

open Kunlun

/-- Lines 297-298, 313-316, 329-332, 340-341: `for (i = 8; --i >= 0; vec <<= 1) wr(i, movemask(vec))`. -/
def bitLoop (wr : Nat → Nat → Bytes → Option Bytes) : Nat → Block → Bytes → Option Bytes
  | 0, _, out => some out
  | i + 1, vec, out => (wr i (Block.movemask vec) out).bind (bitLoop wr i (Block.slli64 vec 1))

/-- `OUTPUT(x, y) = v` as a byte, lines 278, 314, 315, 341 -/
def putByte (R : Nat) (x y v : Nat) (out : Bytes) : Option Bytes := store out (y * R / 8 + x / 8) [UInt8.ofNat v]

/-- `*(uint16_t *)&OUTPUT(x, y) = v`, line 298 -/
def putWord (R : Nat) (x y v : Nat) (out : Bytes) : Option Bytes :=
  store out (y * R / 8 + x / 8) [UInt8.ofNat v, UInt8.ofNat (v / 256)]

/-- Lines 291-298: one 16x8 block. -/
def block16x8 (R C : Nat) (inp : Bytes) (rr : Nat) (out : Bytes) (cc : Nat) : Option Bytes :=
  ((List.range 16).mapM fun k => inp[(rr + k) * C / 8 + cc / 8]?).bind fun bs =>
    bitLoop (fun i m => putWord R rr (cc + i) m) 8 (Block.ofLanes fun k => (bs.getD k 0).toBitVec) out

/-- Lines 309-316: a pair of 8x8 blocks. -/
def pair8x8 (R C : Nat) (inp : Bytes) (rr : Nat) (out : Bytes) (cc : Nat) : Option Bytes :=
  ((List.range 8).mapM fun k => inp[(rr + k) * C / 8 + cc / 8]?).bind fun lo =>
  ((List.range 8).mapM fun k => inp[(rr + k) * C / 8 + cc / 8 + 1]?).bind fun hi =>
    bitLoop (fun i m out => (putByte R rr (cc + i) m out).bind (putByte R rr (cc + i + 8) (m / 256)))
      8 (Block.ofLanes fun k => if k < 8 then (lo.getD k 0).toBitVec else (hi.getD (k - 8) 0).toBitVec) out

/-- Lines 338-341: the last 8x8 block; the upper eight bytes of `tmp` are left over from before (`stale`). -/
def last8x8 (R C : Nat) (inp : Bytes) (stale : Nat → BitVec 8) (rr : Nat) (out : Bytes) (cc : Nat) : Option Bytes :=
  ((List.range 8).mapM fun k => inp[(rr + k) * C / 8 + cc / 8]?).bind fun bs =>
    bitLoop (fun i m => putByte R rr (cc + i) m) 8
      (Block.ofLanes fun k => if k < 8 then (bs.getD k 0).toBitVec else stale k) out

/-- block.hpp:281-342 -/
def bitMatrixTranspose (stale : Nat → BitVec 8) (inp : Bytes) (R C : Nat) (out : Bytes) : Option Bytes :=
  if ¬(R % 8 = 0 ∧ C % 8 = 0) then none
  else if R < 16 then none
  else
    ((List.range (R / 16)).foldlM (fun out r =>
      (List.range (C / 8)).foldlM (fun out c => block16x8 R C inp (16 * r) out (8 * c)) out) out).bind fun out =>
    let rr := 16 * (R / 16)
    if rr = R then some out
    else if C < 16 then none
    else
      ((List.range (C / 16)).foldlM (fun out c => pair8x8 R C inp rr out (16 * c)) out).bind fun out =>
      let cc := 16 * (C / 16)
      if cc = C then some out else last8x8 R C inp stale rr out cc

/-! ### Lemmas -/

/-- `slli64` by one, repeated. -/
def shifts : Nat → Block → Block
  | 0, v => v
  | n + 1, v => shifts n (Block.slli64 v 1)

theorem shifts_getLsbD (n : Nat) (v : Block) (k : Nat) (hk : k < 128) (h : n ≤ k % 64) :
    (shifts n v).getLsbD k = v.getLsbD (k - n) := by
  induction n generalizing v with
  | zero => rfl
  | succ n ih =>
    rw [shifts, ih _ (by omega), Block.getLsbD_slli64 _ _ _ (by omega)]
    have : 1 ≤ (k - n) % 64 := by omega
    simp [this, Nat.sub_sub]

/-- The values produced by the bit loop: at index `i` the mask collects bit `i` of every lane. -/
theorem mask_bit (f : Nat → BitVec 8) (i k : Nat) (hi : i < 8) (hk : k < 16) :
    (Block.movemask (shifts (7 - i) (Block.ofLanes f))).testBit k = (f k).getLsbD i := by
  unfold Block.movemask
  rw [Block.movemaskN_testBit, shifts_getLsbD _ _ _ (by omega) (by omega), Block.getLsbD_ofLanes _ _ (by omega)]
  rw [show (8 * k + 7 - (7 - i)) / 8 = k by omega, show (8 * k + 7 - (7 - i)) % 8 = i by omega]
  simp [hk]

section
variable (R C : Nat) (inp : Bytes)

/-- Bit `(r, c)` of a bit matrix stored with `w` bytes per row. -/
def bitOf (w : Nat) (m : Bytes) (r c : Nat) : Option Bool := m[r * w + c / 8]?.map fun b => b.toNat.testBit (c % 8)

/-- The byte at column-row position `(c, k)` of the output holds the right eight bits. -/
def Ok (out : Bytes) (c k : Nat) : Prop :=
  ∃ v : UInt8, out[c * (R / 8) + k]? = some v ∧ ∀ b < 8, some (v.toNat.testBit b) = bitOf (C / 8) inp (8 * k + b) c

/-- `out'` extends the progress of `out`. -/
def Ext (out out' : Bytes) : Prop :=
  out'.length = out.length ∧ (∀ c k, c < C → k < R / 8 → Ok R C inp out c k → Ok R C inp out' c k) ∧
    ∀ j : Nat, C * (R / 8) ≤ j → out'[j]? = out[j]?

variable {R C inp}

theorem Ext.refl (out : Bytes) : Ext R C inp out out := ⟨rfl, fun _ _ _ _ h => h, fun _ _ => rfl⟩

theorem Ext.trans {a b c : Bytes} (h1 : Ext R C inp a b) (h2 : Ext R C inp b c) : Ext R C inp a c :=
  ⟨h2.1.trans h1.1, fun x k hx hk h => h2.2.1 x k hx hk (h1.2.1 x k hx hk h), fun j hj => (h2.2.2 j hj).trans (h1.2.2 j hj)⟩

/-- A step succeeds, keeps progress, and makes the given cells right. -/
def Does (f : Bytes → Option Bytes) (T : Nat → Nat → Prop) : Prop :=
  ∀ out : Bytes, C * (R / 8) ≤ out.length → ∃ out', f out = some out' ∧ Ext R C inp out out' ∧
    ∀ c k, c < C → k < R / 8 → T c k → Ok R C inp out' c k

theorem Does.mono {f : Bytes → Option Bytes} {T T' : Nat → Nat → Prop} (h : Does (R := R) (C := C) (inp := inp) f T)
    (hT : ∀ c k, T' c k → T c k) : Does (R := R) (C := C) (inp := inp) f T' := by
  intro out ho
  obtain ⟨o, h1, h2, h3⟩ := h out ho
  exact ⟨o, h1, h2, fun c k hc hk ht => h3 c k hc hk (hT c k ht)⟩

theorem Does.bind {f g : Bytes → Option Bytes} {T T' : Nat → Nat → Prop} (hf : Does (R := R) (C := C) (inp := inp) f T)
    (hg : Does (R := R) (C := C) (inp := inp) g T') :
    Does (R := R) (C := C) (inp := inp) (fun o => (f o).bind g) (fun c k => T c k ∨ T' c k) := by
  intro out ho
  obtain ⟨o1, h1, e1, k1⟩ := hf out ho
  obtain ⟨o2, h2, e2, k2⟩ := hg o1 (by rw [e1.1]; exact ho)
  refine ⟨o2, by simp [h1, h2], e1.trans e2, ?_⟩
  rintro c k hc hk (h | h)
  · exact e2.2.1 c k hc hk (k1 c k hc hk h)
  · exact k2 c k hc hk h

theorem Does.foldlM {α : Type} {f : Bytes → α → Option Bytes} {T : α → Nat → Nat → Prop} (l : List α)
    (h : ∀ x ∈ l, Does (R := R) (C := C) (inp := inp) (fun o => f o x) (T x)) :
    Does (R := R) (C := C) (inp := inp) (fun o => l.foldlM f o) (fun c k => ∃ x ∈ l, T x c k) := by
  induction l with
  | nil => intro out _; exact ⟨out, rfl, Ext.refl out, by simp⟩
  | cons a l ih =>
    have := (h a (by simp)).bind (ih fun x hx => h x (by simp [hx]))
    simp only [List.foldlM_cons, Option.bind_eq_bind]
    refine this.mono ?_
    rintro c k ⟨x, hx, ht⟩
    rcases List.mem_cons.mp hx with rfl | hx
    · exact Or.inl ht
    · exact Or.inr ⟨x, hx, ht⟩

theorem addr_inj {w c k c' k' : Nat} (hk : k < w) (hk' : k' < w) (h : c * w + k = c' * w + k') : c = c' ∧ k = k' := by
  have hw : 0 < w := by omega
  have h1 : c = c' := by
    have : (c * w + k) / w = (c' * w + k') / w := by rw [h]
    rw [Nat.add_comm, Nat.add_mul_div_right _ _ hw, Nat.div_eq_of_lt hk, Nat.add_comm (c' * w), Nat.add_mul_div_right _ _ hw,
      Nat.div_eq_of_lt hk'] at this
    omega
  subst h1
  exact ⟨rfl, by omega⟩

theorem addr_lt {w n c k : Nat} (hk : k < w) (hc : c < n) : c * w + k < n * w := by
  have : (c + 1) * w ≤ n * w := Nat.mul_le_mul_right w hc
  rw [Nat.succ_mul] at this
  omega

/-- A right value for cell `(c, k)`. -/
def Right (C : Nat) (inp : Bytes) (c k v : Nat) : Prop := ∀ b < 8, some (v.testBit b) = bitOf (C / 8) inp (8 * k + b) c

theorem ofNat_testBit (v b : Nat) (hb : b < 8) : (UInt8.ofNat v).toNat.testBit b = v.testBit b := by
  rw [UInt8.toNat_ofNat', Nat.testBit_mod_two_pow]
  simp [hb]

theorem store_does (hR : R % 8 = 0) (c k : Nat) (hc : c < C) (vs : List Nat) (hk : k + vs.length ≤ R / 8)
    (hv : ∀ i v, vs[i]? = some v → Right C inp c (k + i) v) :
    Does (R := R) (C := C) (inp := inp) (fun o => store o (c * R / 8 + 8 * k / 8) (vs.map UInt8.ofNat))
      (fun c' k' => c' = c ∧ k ≤ k' ∧ k' < k + vs.length) := by
  intro out ho
  have haddr : c * R / 8 + 8 * k / 8 = c * (R / 8) + k := by
    rw [Nat.mul_div_assoc _ (by omega)]; omega
  have hin : c * (R / 8) + (k + vs.length) ≤ C * (R / 8) := by
    have : (c + 1) * (R / 8) ≤ C * (R / 8) := Nat.mul_le_mul_right _ hc
    rw [Nat.succ_mul] at this; omega
  simp only
  rw [haddr]
  obtain ⟨o, hst⟩ := store_isSome (m := out) (off := c * (R / 8) + k) (b := vs.map UInt8.ofNat) (by simp; omega)
  have hget := store_getElem? hst
  have hnew : ∀ i v, vs[i]? = some v → Ok R C inp o c (k + i) := by
    intro i v hi
    have hlt : i < vs.length := (List.getElem?_eq_some_iff.mp hi).1
    refine ⟨UInt8.ofNat v, ?_, ?_⟩
    · rw [hget, if_pos (by simp; omega)]
      rw [List.getElem?_map, show c * (R / 8) + (k + i) - (c * (R / 8) + k) = i by omega, hi]; rfl
    · intro b hb
      rw [ofNat_testBit _ _ hb]
      exact hv i v hi b hb
  refine ⟨o, hst, ⟨store_length hst, ?_, ?_⟩, ?_⟩
  · intro c' k' hc' hk' hok
    by_cases hcell : c' = c ∧ k ≤ k' ∧ k' < k + vs.length
    · obtain ⟨rfl, h1, h2⟩ := hcell
      have hi : k' - k < vs.length := by omega
      have := hnew (k' - k) _ (List.getElem?_eq_getElem hi)
      rwa [show k + (k' - k) = k' by omega] at this
    · obtain ⟨v, hv1, hv2⟩ := hok
      refine ⟨v, ?_, hv2⟩
      rw [hget, if_neg]
      · exact hv1
      · simp only [List.length_map]
        rintro ⟨h1, h2⟩
        apply hcell
        have hd : ∃ d, d < vs.length ∧ c' * (R / 8) + k' = c * (R / 8) + (k + d) :=
          ⟨c' * (R / 8) + k' - (c * (R / 8) + k), by omega, by omega⟩
        obtain ⟨d, hd1, hd2⟩ := hd
        obtain ⟨e1, e2⟩ := addr_inj hk' (by omega) hd2
        exact ⟨e1, by omega, by omega⟩
  · intro j hj
    rw [hget, if_neg (by simp; omega)]
  · rintro c' k' hc' hk' ⟨rfl, h1, h2⟩
    have hi : k' - k < vs.length := by omega
    have := hnew (k' - k) _ (List.getElem?_eq_getElem hi)
    rwa [show k + (k' - k) = k' by omega] at this

theorem bitLoop_does (f : Nat → BitVec 8) (wr : Nat → Nat → Bytes → Option Bytes) (T : Nat → Nat → Nat → Prop)
    (h : ∀ i < 8, Does (R := R) (C := C) (inp := inp) (wr i (Block.movemask (shifts (7 - i) (Block.ofLanes f)))) (T i)) :
    Does (R := R) (C := C) (inp := inp) (bitLoop wr 8 (Block.ofLanes f)) (fun c k => ∃ i < 8, T i c k) := by
  have gen : ∀ n ≤ 8, ∀ vec, (∀ i < n, Does (R := R) (C := C) (inp := inp) (wr i (Block.movemask (shifts (n - 1 - i) vec))) (T i)) →
      Does (R := R) (C := C) (inp := inp) (bitLoop wr n vec) (fun c k => ∃ i < n, T i c k) := by
    intro n
    induction n with
    | zero => intro _ vec _ out _; exact ⟨out, rfl, Ext.refl out, by simp⟩
    | succ n ih =>
      intro hn vec hh
      have h1 : Does (R := R) (C := C) (inp := inp) (wr n (Block.movemask vec)) (T n) := by
        have := hh n (by omega)
        rwa [show n + 1 - 1 - n = 0 by omega] at this
      have h2 := ih (by omega) (Block.slli64 vec 1) (by
        intro i hi
        have := hh i (by omega)
        rwa [show n + 1 - 1 - i = (n - 1 - i) + 1 by omega] at this)
      exact (h1.bind h2).mono (by
        rintro c k ⟨i, hi, ht⟩
        by_cases he : i = n
        · subst he; exact Or.inl ht
        · exact Or.inr ⟨i, by omega, ht⟩)
  exact gen 8 (by omega) _ h

theorem bitOf_byte (r c : Nat) {b : UInt8} (h : inp[r * (C / 8) + c / 8]? = some b) :
    bitOf (C / 8) inp r c = some (b.toBitVec.getLsbD (c % 8)) := by
  unfold bitOf
  rw [h]
  rfl

/-- Reading one byte of each of the given rows. -/
theorem mapM_read (g : Nat → Nat) (n : Nat) (h : ∀ k < n, g k < inp.length) :
    ∃ bs : List UInt8, (List.range n).mapM (fun k => inp[g k]?) = some bs ∧ ∀ k < n, inp[g k]? = some (bs.getD k 0) := by
  refine ⟨(List.range n).map (fun k => inp.getD (g k) 0), ?_, ?_⟩
  · have gen : ∀ l : List Nat, (∀ k ∈ l, g k < inp.length) →
        l.mapM (fun k => inp[g k]?) = some (l.map (fun k => inp.getD (g k) 0)) := by
      intro l
      induction l with
      | nil => intro _; rfl
      | cons a l ih =>
        intro hl
        have ha := hl a (by simp)
        rw [List.mapM_cons, ih fun k hk => hl k (by simp [hk])]
        simp [ha]
    exact gen _ fun k hk => h k (by simpa using hk)
  · intro k hk
    have := h k hk
    simp [List.getD, hk, this]

theorem in_addr (hC : C % 8 = 0) (x c : Nat) : x * C / 8 + 8 * c / 8 = x * (C / 8) + c := by
  rw [Nat.mul_div_assoc _ (by omega)]; omega

theorem block16x8_does (hR : R % 8 = 0) (hC : C % 8 = 0) (hin : R * (C / 8) ≤ inp.length) (r c : Nat) (hr : 16 * r + 16 ≤ R)
    (hc : c < C / 8) :
    Does (R := R) (C := C) (inp := inp) (fun o => block16x8 R C inp (16 * r) o (8 * c))
      (fun c' k' => c' / 8 = c ∧ k' / 2 = r) := by
  obtain ⟨bs, hbs, hb⟩ := mapM_read (inp := inp) (fun k => (16 * r + k) * C / 8 + 8 * c / 8) 16 (by
    intro k hk
    have := addr_lt (n := R) hc (show 16 * r + k < R by omega)
    rw [in_addr hC]; omega)
  have hrun : (fun o => block16x8 R C inp (16 * r) o (8 * c)) =
      bitLoop (fun i m => putWord R (16 * r) (8 * c + i) m) 8 (Block.ofLanes fun k => (bs.getD k 0).toBitVec) := by
    funext o; unfold block16x8; rw [hbs]; rfl
  rw [hrun]
  refine (bitLoop_does _ _ (fun i c' k' => c' = 8 * c + i ∧ 2 * r ≤ k' ∧ k' < 2 * r + 2) ?_).mono ?_
  · intro i hi
    have := store_does (R := R) (C := C) (inp := inp) hR (8 * c + i) (2 * r) (by omega)
      [Block.movemask (shifts (7 - i) (Block.ofLanes fun k => (bs.getD k 0).toBitVec)),
       Block.movemask (shifts (7 - i) (Block.ofLanes fun k => (bs.getD k 0).toBitVec)) / 256] (by simp; omega) (by
        intro j v hj b hb8
        have hj2 : j < 2 := (List.getElem?_eq_some_iff.mp hj).1
        have hv : v.testBit b = (Block.movemask (shifts (7 - i) (Block.ofLanes fun k => (bs.getD k 0).toBitVec))).testBit (8 * j + b) := by
          rcases j with _ | _ | j
          · cases hj; simp
          · cases hj
            rw [show (256 : Nat) = 2 ^ 8 from rfl, ← Nat.shiftRight_eq_div_pow, Nat.testBit_shiftRight]
          · omega
        rw [hv, mask_bit _ _ _ hi (by omega)]
        have hbyte := hb (8 * j + b) (by omega)
        simp only [in_addr hC] at hbyte
        rw [bitOf_byte _ _ (b := bs.getD (8 * j + b) 0)]
        · rw [show (8 * c + i) % 8 = i by omega]
        · rw [show 8 * (2 * r + j) + b = 16 * r + (8 * j + b) by omega, show (8 * c + i) / 8 = c by omega]
          exact hbyte)
    simp only [List.length_cons, List.length_nil, List.map_cons, List.map_nil] at this
    unfold putWord
    rw [show 16 * r / 8 = 8 * (2 * r) / 8 by omega]
    exact this
  · rintro c' k' ⟨h1, h2⟩
    exact ⟨c' % 8, by omega, by omega, by omega, by omega⟩

theorem pair8x8_does (hR : R % 8 = 0) (hC : C % 8 = 0) (hin : R * (C / 8) ≤ inp.length) (k c : Nat) (hk : 8 * k + 8 ≤ R)
    (hc : 2 * c + 1 < C / 8) :
    Does (R := R) (C := C) (inp := inp) (fun o => pair8x8 R C inp (8 * k) o (16 * c))
      (fun c' k' => c' / 16 = c ∧ k' = k) := by
  have haddr : ∀ j, (8 * k + j) * C / 8 + 16 * c / 8 = (8 * k + j) * (C / 8) + 2 * c := by
    intro j
    have := in_addr hC (8 * k + j) (2 * c)
    rw [show 8 * (2 * c) = 16 * c by omega] at this
    exact this
  obtain ⟨lo, hlo, hl⟩ := mapM_read (inp := inp) (fun j => (8 * k + j) * C / 8 + 16 * c / 8) 8 (by
    intro j hj
    have := addr_lt (n := R) (show 2 * c < C / 8 by omega) (show 8 * k + j < R by omega)
    rw [haddr]; omega)
  obtain ⟨hi, hhi, hh⟩ := mapM_read (inp := inp) (fun j => (8 * k + j) * C / 8 + 16 * c / 8 + 1) 8 (by
    intro j hj
    have := addr_lt (n := R) hc (show 8 * k + j < R by omega)
    rw [haddr]; omega)
  have hrun : (fun o => pair8x8 R C inp (8 * k) o (16 * c)) =
      bitLoop (fun i m out => (putByte R (8 * k) (16 * c + i) m out).bind (putByte R (8 * k) (16 * c + i + 8) (m / 256)))
      8 (Block.ofLanes fun j => if j < 8 then (lo.getD j 0).toBitVec else (hi.getD (j - 8) 0).toBitVec) := by
    funext o; unfold pair8x8; rw [hlo]; simp only [Option.bind_some]; rw [hhi]; rfl
  rw [hrun]
  refine (bitLoop_does _ _ (fun i c' k' => (c' = 16 * c + i ∧ k ≤ k' ∧ k' < k + 1) ∨ (c' = 16 * c + i + 8 ∧ k ≤ k' ∧ k' < k + 1)) ?_).mono ?_
  · intro i hi8
    have m := fun j hj => mask_bit (fun j => if j < 8 then (lo.getD j 0).toBitVec else (hi.getD (j - 8) 0).toBitVec) i j hi8 hj
    generalize hM : Block.movemask (shifts (7 - i) (Block.ofLanes fun j =>
      if j < 8 then (lo.getD j 0).toBitVec else (hi.getD (j - 8) 0).toBitVec)) = M at m ⊢
    have s1 := store_does (R := R) (C := C) (inp := inp) hR (16 * c + i) k (by omega) [M] (by simp; omega) (by
      intro j v hj b hb8
      have hj0 : j = 0 := by have := (List.getElem?_eq_some_iff.mp hj).1; simp at this; omega
      subst hj0
      simp at hj
      subst hj
      rw [m b (by omega), if_pos hb8]
      have hbyte := hl b hb8
      simp only [haddr] at hbyte
      rw [bitOf_byte _ _ (b := lo.getD b 0)]
      · rw [show (16 * c + i) % 8 = i by omega]
      · rw [show (16 * c + i) / 8 = 2 * c by omega]; exact hbyte)
    have s2 := store_does (R := R) (C := C) (inp := inp) hR (16 * c + i + 8) k (by omega) [M / 256] (by simp; omega) (by
      intro j v hj b hb8
      have hj0 : j = 0 := by have := (List.getElem?_eq_some_iff.mp hj).1; simp at this; omega
      subst hj0
      simp at hj
      subst hj
      rw [show (256 : Nat) = 2 ^ 8 from rfl, ← Nat.shiftRight_eq_div_pow, Nat.testBit_shiftRight, m _ (by omega), if_neg (by omega)]
      have hbyte := hh b hb8
      simp only [haddr] at hbyte
      rw [show 8 + b - 8 = b by omega]
      rw [bitOf_byte _ _ (b := hi.getD b 0)]
      · rw [show (16 * c + i + 8) % 8 = i by omega]
      · rw [show (16 * c + i + 8) / 8 = 2 * c + 1 by omega]; exact hbyte)
    exact s1.bind s2
  · rintro c' k' ⟨h1, rfl⟩
    refine ⟨c' % 8, by omega, ?_⟩
    by_cases h : c' % 16 < 8
    · left; omega
    · right; omega

theorem last8x8_does (hR : R % 8 = 0) (hC : C % 8 = 0) (hin : R * (C / 8) ≤ inp.length) (stale : Nat → BitVec 8) (k c : Nat)
    (hk : 8 * k + 8 ≤ R) (hc : c < C / 8) :
    Does (R := R) (C := C) (inp := inp) (fun o => last8x8 R C inp stale (8 * k) o (8 * c)) (fun c' k' => c' / 8 = c ∧ k' = k) := by
  obtain ⟨bs, hbs, hb⟩ := mapM_read (inp := inp) (fun j => (8 * k + j) * C / 8 + 8 * c / 8) 8 (by
    intro j hj
    have := addr_lt (n := R) hc (show 8 * k + j < R by omega)
    rw [in_addr hC]; omega)
  have hrun : (fun o => last8x8 R C inp stale (8 * k) o (8 * c)) =
      bitLoop (fun i m => putByte R (8 * k) (8 * c + i) m) 8
        (Block.ofLanes fun j => if j < 8 then (bs.getD j 0).toBitVec else stale j) := by
    funext o; unfold last8x8; rw [hbs]; rfl
  rw [hrun]
  refine (bitLoop_does _ _ (fun i c' k' => c' = 8 * c + i ∧ k ≤ k' ∧ k' < k + 1) ?_).mono ?_
  · intro i hi8
    have m := fun j hj => mask_bit (fun j => if j < 8 then (bs.getD j 0).toBitVec else stale j) i j hi8 hj
    generalize Block.movemask (shifts (7 - i) (Block.ofLanes fun j => if j < 8 then (bs.getD j 0).toBitVec else stale j)) = M at m ⊢
    exact store_does (R := R) (C := C) (inp := inp) hR (8 * c + i) k (by omega) [M] (by simp; omega) (by
      intro j v hj b hb8
      have hj0 : j = 0 := by have := (List.getElem?_eq_some_iff.mp hj).1; simp at this; omega
      subst hj0
      simp at hj
      subst hj
      rw [m b (by omega), if_pos hb8]
      have hbyte := hb b hb8
      simp only [in_addr hC] at hbyte
      rw [bitOf_byte _ _ (b := bs.getD b 0)]
      · rw [show (8 * c + i) % 8 = i by omega]
      · rw [show (8 * c + i) / 8 = c by omega]; exact hbyte)
  · rintro c' k' ⟨h1, rfl⟩
    exact ⟨c' % 8, by omega, by omega, by omega, by omega⟩

end

end Kunlun.Transpose
