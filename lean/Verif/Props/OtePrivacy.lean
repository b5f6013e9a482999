import Verif.Props.OtExt
import Verif.Props.Hash
import Verif.Model.ProtoNever
/-!
What the two parties of an OT extension learn.

C93: the sender's view (its base-OT keys and the matrices it receives) fits every vector of selection bits equally well.
C94: the receiver should learn nothing about the messages it did not select. With the hash function of the code it learns all of them
from one of them.
-/

namespace Kunlun.OTE

open Kunlun Kunlun.Proto

variable {G : Type} [AddCommGroup G]

/-! ### C93: the selection bits -/

/-- XOR of two block vectors of one length. -/
def vxor (a b : List Block) : List Block := List.zipWith (· ^^^ ·) a b

theorem vxor_length (a b : List Block) (h : a.length = b.length) : (vxor a b).length = a.length := by
  simp [vxor, h]

theorem vxor_getD (a b : List Block) (w i : Nat) (ha : a.length = w) (hb : b.length = w) (hi : i < w) :
    (vxor a b).getD i 0 = a.getD i 0 ^^^ b.getD i 0 := by
  have h1 : i < a.length := by omega
  have h2 : i < b.length := by omega
  simp [vxor, List.getD, List.getElem?_zipWith, List.getElem?_eq_getElem h1, List.getElem?_eq_getElem h2]

theorem vec_ext (a b : List Block) (w : Nat) (ha : a.length = w) (hb : b.length = w) (h : ∀ i < w, a.getD i 0 = b.getD i 0) : a = b := by
  apply List.ext_getElem (by omega)
  intro i h1 h2
  have := h i (by omega)
  simpa [List.getD, List.getElem?_eq_getElem h1, List.getElem?_eq_getElem h2] using this

theorem vxor_cancel (a s : List Block) (h : a.length = s.length) : vxor (vxor a s) s = a := xor_zipWith_cancel a s h

namespace IKNP

/-- iknp_ote.hpp:203-217 with the two pads as arguments. -/
def encColWith (m0 p0 p1 selBlock : List Block) : Option (List Block × List Block) := do
  let m1 ← Block.xorVec m0 selBlock
  let C0 ← Block.xorVec m0 p0
  let C1 ← Block.xorVec m1 p1
  return (C0, C1)

/-- The code encrypts column `j` of `T` with the expansions of the two keys of the base OT. -/
theorem encCol_eq (w : Nat) (T K0 K1 selBlock : List Block) (j : Nat) :
    encCol w T K0 K1 selBlock j =
      (pad (K0.getD j 0) w).bind fun p0 => (pad (K1.getD j 0) w).bind fun p1 => encColWith (row T w j) p0 p1 selBlock := by
  obtain ⟨p0, h0, -⟩ := pad_spec (K0.getD j 0) w
  obtain ⟨p1, h1, -⟩ := pad_spec (K1.getD j 0) w
  unfold encCol encColWith
  simp only [h0, h1, Option.bind_eq_bind, Option.bind_some]
/-- What explains the sender's view of one column with other selection bits: `d` is the difference of the bits. The sender holds the
first pad if its bit is zero, otherwise the second. -/
def shift (d : List Block) (s : Bool) (x : List Block × List Block × List Block) : List Block × List Block × List Block :=
  if s then (vxor x.1 d, vxor x.2.1 d, x.2.2) else (x.1, x.2.1, vxor x.2.2 d)

/-- **C93** IKNP. For any two vectors `r`, `r'` of selection bits and each bit `s` of the sender there is a renaming of the receiver's
random column and pads, one-to-one because it undoes itself, that keeps the pad the sender holds and both ciphertexts. -/
theorem iknp_hides_bits (w : Nat) (r r' : List Block) (hr : r.length = w) (hr' : r'.length = w) (s : Bool) (m0 p0 p1 : List Block)
    (hm : m0.length = w) (h0 : p0.length = w) (h1 : p1.length = w) :
    let x' := shift (vxor r r') s (m0, p0, p1)
    encColWith x'.1 x'.2.1 x'.2.2 r' = encColWith m0 p0 p1 r ∧ (if s then x'.2.2 = p1 else x'.2.1 = p0) ∧
      shift (vxor r r') s x' = (m0, p0, p1) ∧ x'.1.length = w ∧ x'.2.1.length = w ∧ x'.2.2.length = w := by
  have hd : (vxor r r').length = w := by rw [vxor_length _ _ (by omega), hr]
  have hx : ∀ a b : List Block, a.length = w → b.length = w → (vxor a b).length = w := fun a b ha hb => by
    rw [vxor_length _ _ (by omega), ha]
  have enc : ∀ a b c d : List Block, a.length = w → b.length = w → c.length = w → d.length = w →
      encColWith a b c d = some (vxor a b, vxor (vxor a d) c) := by
    intro a b c d ha hb hc hd
    unfold encColWith
    rw [xorVec_spec a d (by omega), xorVec_spec a b (by omega)]
    simp only [Option.bind_eq_bind, Option.bind_some]
    rw [xorVec_spec _ c (by rw [List.length_zipWith]; omega)]
    rfl
  intro x'
  cases s with
  | false =>
    have hl := hx p1 _ h1 hd
    refine ⟨?_, rfl, ?_, hm, h0, hl⟩
    · show encColWith m0 p0 (vxor p1 (vxor r r')) r' = _
      rw [enc _ _ _ _ hm h0 hl hr', enc _ _ _ _ hm h0 h1 hr]
      congr 2
      refine vec_ext _ _ w (hx _ _ (hx _ _ hm hr') hl) (hx _ _ (hx _ _ hm hr) h1) fun i hi => ?_
      rw [vxor_getD _ _ w i (hx _ _ hm hr') hl hi, vxor_getD _ _ w i (hx _ _ hm hr) h1 hi, vxor_getD _ _ w i hm hr' hi,
        vxor_getD _ _ w i hm hr hi, vxor_getD _ _ w i h1 hd hi, vxor_getD _ _ w i hr hr' hi]
      generalize m0.getD i 0 = x; generalize r'.getD i 0 = y; generalize p1.getD i 0 = z; generalize r.getD i 0 = u
      ext k hk
      simp only [BitVec.getElem_xor]
      cases x[k] <;> cases y[k] <;> cases z[k] <;> cases u[k] <;> rfl
    · show (m0, p0, vxor (vxor p1 (vxor r r')) (vxor r r')) = _
      rw [vxor_cancel _ _ (by omega)]
  | true =>
    have l1 := hx m0 _ hm hd
    have l2 := hx p0 _ h0 hd
    refine ⟨?_, rfl, ?_, l1, l2, h1⟩
    · show encColWith (vxor m0 (vxor r r')) (vxor p0 (vxor r r')) p1 r' = _
      rw [enc _ _ _ _ l1 l2 h1 hr', enc _ _ _ _ hm h0 h1 hr]
      congr 2
      · refine vec_ext _ _ w (hx _ _ l1 l2) (hx _ _ hm h0) fun i hi => ?_
        rw [vxor_getD _ _ w i l1 l2 hi, vxor_getD _ _ w i hm h0 hi, vxor_getD _ _ w i hm hd hi, vxor_getD _ _ w i h0 hd hi]
        generalize m0.getD i 0 = x; generalize (vxor r r').getD i 0 = y; generalize p0.getD i 0 = z
        ext k hk
        simp only [BitVec.getElem_xor]
        cases x[k] <;> cases y[k] <;> cases z[k] <;> rfl
      · congr 1
        refine vec_ext _ _ w (hx _ _ l1 hr') (hx _ _ hm hr) fun i hi => ?_
        rw [vxor_getD _ _ w i l1 hr' hi, vxor_getD _ _ w i hm hr hi, vxor_getD _ _ w i hm hd hi, vxor_getD _ _ w i hr hr' hi]
        generalize m0.getD i 0 = x; generalize r'.getD i 0 = y; generalize r.getD i 0 = z
        ext k hk
        simp only [BitVec.getElem_xor]
        cases x[k] <;> cases y[k] <;> cases z[k] <;> rfl
    · show (vxor (vxor m0 (vxor r r')) (vxor r r'), vxor (vxor p0 (vxor r r')) (vxor r r'), p1) = _
      rw [vxor_cancel _ _ (by omega), vxor_cancel _ _ (by omega)]

/-- Bits `5` and `6` in one block, sender bit 0: the second pad changes by `3`, the ciphertexts do not. -/
example : encColWith [1] [2] [7 ^^^ 3] [6] = encColWith [1] [2] [7] [5] :=
  (iknp_hides_bits 1 [5] [6] rfl rfl false [1] [2] [7] rfl rfl rfl).1

end IKNP

namespace ALSZ

/-- alsz_ote.hpp:217-233 with the two expanded columns as arguments: the column of the adjust matrix. -/
def columnWith (T U selBlock : List Block) : Option (List Block) := (Block.xorVec T U).bind fun P => Block.xorVec P selBlock

/-- The code expands the two seeds of the base OT. -/
theorem column_eq (w : Nat) (ts us selBlock : List Block) (j : Nat) :
    column w ts us selBlock j =
      (pad (ts.getD j 0) w).bind fun T => (pad (us.getD j 0) w).bind fun U => (columnWith T U selBlock).map fun P => (T, P) := by
  obtain ⟨p0, h0, -⟩ := pad_spec (ts.getD j 0) w
  obtain ⟨p1, h1, -⟩ := pad_spec (us.getD j 0) w
  unfold column columnWith
  simp only [h0, h1, Option.bind_eq_bind, Option.bind_some]
  cases Block.xorVec p0 p1 with
  | none => rfl
  | some P =>
    simp only [Option.bind_some]
    cases Block.xorVec P selBlock <;> rfl

/-- The sender holds the first column if its bit is zero, otherwise the second; the other one is renamed. -/
def shift (d : List Block) (s : Bool) (x : List Block × List Block) : List Block × List Block :=
  if s then (vxor x.1 d, x.2) else (x.1, vxor x.2 d)

/-- **C93** ALSZ, as for IKNP: the renaming keeps the expanded seed the sender holds and the column it receives. -/
theorem alsz_hides_bits (w : Nat) (r r' : List Block) (hr : r.length = w) (hr' : r'.length = w) (s : Bool) (T U : List Block)
    (hT : T.length = w) (hU : U.length = w) :
    let x' := shift (vxor r r') s (T, U)
    columnWith x'.1 x'.2 r' = columnWith T U r ∧ (if s then x'.2 = U else x'.1 = T) ∧ shift (vxor r r') s x' = (T, U) ∧
      x'.1.length = w ∧ x'.2.length = w := by
  have hx : ∀ a b : List Block, a.length = w → b.length = w → (vxor a b).length = w := fun a b ha hb => by
    rw [vxor_length _ _ (by omega), ha]
  have hd := hx r r' hr hr'
  have col : ∀ a b c : List Block, a.length = w → b.length = w → c.length = w → columnWith a b c = some (vxor (vxor a b) c) := by
    intro a b c ha hb hc
    unfold columnWith
    rw [xorVec_spec a b (by omega), Option.bind_some, xorVec_spec _ c (by rw [List.length_zipWith]; omega)]
    rfl
  have fin : ∀ a b : List Block, a.length = w → b.length = w → (∀ i < w, a.getD i 0 ^^^ b.getD i 0 = T.getD i 0 ^^^ U.getD i 0 ^^^ (vxor r r').getD i 0) →
      columnWith a b r' = columnWith T U r := by
    intro a b ha hb h
    rw [col a b r' ha hb hr', col T U r hT hU hr]
    congr 1
    refine vec_ext _ _ w (hx _ _ (hx _ _ ha hb) hr') (hx _ _ (hx _ _ hT hU) hr) fun i hi => ?_
    rw [vxor_getD _ _ w i (hx _ _ ha hb) hr' hi, vxor_getD _ _ w i (hx _ _ hT hU) hr hi, vxor_getD _ _ w i ha hb hi,
      vxor_getD _ _ w i hT hU hi, h i hi, vxor_getD _ _ w i hr hr' hi]
    rw [← BitVec.xor_assoc, xor_cancel]
  intro x'
  cases s with
  | false =>
    refine ⟨fin T _ hT (hx _ _ hU hd) fun i hi => ?_, rfl, ?_, hT, hx _ _ hU hd⟩
    · show T.getD i 0 ^^^ (vxor U (vxor r r')).getD i 0 = _
      rw [vxor_getD _ _ w i hU hd hi, BitVec.xor_assoc]
    · show (T, vxor (vxor U (vxor r r')) (vxor r r')) = _
      rw [vxor_cancel _ _ (by omega)]
  | true =>
    refine ⟨fin _ U (hx _ _ hT hd) hU fun i hi => ?_, rfl, ?_, hx _ _ hT hd, hU⟩
    · show (vxor T (vxor r r')).getD i 0 ^^^ U.getD i 0 = _
      rw [vxor_getD _ _ w i hT hd hi, BitVec.xor_assoc, BitVec.xor_assoc, BitVec.xor_comm ((vxor r r').getD i 0)]
    · show (vxor (vxor T (vxor r r')) (vxor r r'), U) = _
      rw [vxor_cancel _ _ (by omega)]

example : columnWith [1 ^^^ 3] [2] [6] = columnWith [1] [2] [5] := (alsz_hides_bits 1 [5] [6] rfl rfl true [1] [2] rfl rfl).1

end ALSZ

/-! ### C94: the messages that are not selected -/

/-- No sequence of received bytes leads to a result outside `P`. -/
def Ends {α : Type} (P : α → Prop) : Proc α → Prop
  | .done v => P v
  | .send _ k => Ends P k
  | .recv _ k => ∀ b, Ends P (k b)
  | .fail => True

theorem Ends.then {α β : Type} {P : β → Prop} (p : Proc α) {f : α → Proc β} (h : ∀ a, Ends P (f a)) : Ends P (p.bind f) := by
  induction p with
  | done v => exact h v
  | send b k ih => exact ih
  | recv n k ih => exact fun b => ih b
  | fail => trivial

theorem Ends.prog {α γ : Type} {P : α → Prop} (p : Chan.Prog γ) {k : γ → Proc α} (h : ∀ c, Ends P (k c)) : Ends P (Proc.ofProg p k) := by
  induction p with
  | done v => exact h v
  | recv n k ih => exact fun b => ih b

theorem Ends.recvBlocks {α : Type} {P : α → Prop} (net : Net G) (n : Nat) {k : List Block → Proc α}
    (h : ∀ bs, bs.length = n → Ends P (k bs)) : Ends P (Proto.recvBlocks net n k) := by
  unfold Proto.recvBlocks recvM Chan.recvMsg
  intro b
  exact h _ (by simp [rows_count])

theorem Ends.ofOption {α : Type} {P : α → Prop} (o : Option α) (h : ∀ a, o = some a → P a) : Ends P (Proc.ofOption o) := by
  cases o with
  | none => trivial
  | some a => exact h a rfl

theorem Ends.stepsL {α β : Type} {P : α → Prop} {n : Nat} {c d : Conf α β} (h : Steps n c d) (hc : Ends P c.p) : Ends P d.p := by
  induction h with
  | refl => exact hc
  | tail s _ ih =>
    apply ih
    cases s with
    | sendL => exact hc
    | recvL => exact hc _
    | sendR => exact hc
    | recvR => exact hc

theorem Ends.runs {α β : Type} {P : α → Prop} {p : Proc α} {q : Proc β} {a : α} {b : β} (hp : Ends P p) (h : Runs p q a b) : P a := by
  obtain ⟨n, hs⟩ := h
  exact Ends.stepsL hs hp

/-- `Hash::FastBlocksToBlock` as a total function (rows are never empty). -/
def rowHash (v : List Block) : Block := (Hash.fastBlocksToBlock v).getD 0

theorem rowHash_single (v : List Block) (h : v.length = 1) : rowHash v = Hash.E (v.getD 0 0) := by
  obtain ⟨b, rfl⟩ := List.length_eq_one_iff.1 h
  simp [rowHash, Hash.fastBlocksToBlock_single]

/-- The two keys of every position are encryptions, under the fixed key, of two blocks whose difference `s` is always the same. -/
def Offset (s : Block) (K : List Block × List Block) (n : Nat) : Prop :=
  ∀ i < n, ∃ q, K.1.getD i 0 = Hash.E q ∧ K.2.getD i 0 = Hash.E (q ^^^ s)

theorem senderKeys_offset (st : Nat → BitVec 8) (Q : List Block) (sel : Bytes) (rows : Nat) (hr : rows % 128 = 0)
    (hQ : Q.length = 128 * (rows / 128)) (K : List Block × List Block) (h : senderKeys rowHash st Q sel 128 rows = some K) :
    ∃ s, Offset s K rows := by
  obtain ⟨Qt, q1, q2, -⟩ := transposeBlocks_spec st Q 128 rows rfl (by decide) hr hQ
  unfold senderKeys at h
  simp only [q1, Option.bind_eq_bind, Option.bind_some, Option.bind_eq_some_iff, Option.pure_def, Option.some.injEq] at h
  obtain ⟨s, hs, K1, hK, rfl⟩ := h
  have hl : s.length = 1 := by
    unfold Block.fromSparseBytes at hs
    split at hs
    · obtain rfl := Option.some.inj hs; simp
    · cases hs
  have hrow : ∀ i < rows, (row Qt 1 i).length = 1 := fun i hi => row_length Qt 1 rows i hi (by simpa using q2)
  have e : (List.range rows).mapM (fun i => (Block.xorVec (row Qt 1 i) s).map rowHash) =
      some ((List.range rows).map fun i => rowHash (vxor (row Qt 1 i) s)) := by
    apply mapM_range_spec
    intro i hi
    rw [xorVec_spec _ _ (by rw [hrow i hi, hl])]
    rfl
  rw [show 128 / 128 = 1 from rfl] at hK
  obtain rfl := Option.some.inj (e.symm.trans hK)
  refine ⟨s.getD 0 0, fun i hi => ?_⟩
  have e1 : (((List.range rows).map fun i => rowHash (row Qt (128 / 128) i)).getD i 0) = rowHash (row Qt 1 i) := by
    simp [List.getD, hi]
  have e2 : (((List.range rows).map fun i => rowHash (vxor (row Qt 1 i) s)).getD i 0) = rowHash (vxor (row Qt 1 i) s) := by
    simp [List.getD, hi]
  refine ⟨(row Qt 1 i).getD 0 0, ?_, ?_⟩
  · simp only [e1]
    exact rowHash_single _ (hrow i hi)
  · simp only [e2]
    rw [rowHash_single _ (by rw [vxor_length _ _ (by rw [hrow i hi, hl]), hrow i hi]), vxor_getD _ _ 1 0 (hrow i hi) hl (by omega)]

theorem IKNP.recvCols_length {α : Type} {P : α → Prop} (net : Net G) (w : Nat) (K : List Block) (sel : Bytes) (k : List Block → Proc α)
    (N : Nat) (h : ∀ Q : List Block, Q.length = N * w → Ends P (k Q)) : ∀ (n j : Nat) (acc : List Block), j + n = N → acc.length = j * w →
      Ends P (IKNP.recvCols net w K sel n j acc k)
  | 0, j, acc, hn, ha => h acc (by rw [ha]; congr 1)
  | n + 1, j, acc, hn, ha => by
    unfold IKNP.recvCols
    refine Ends.recvBlocks net w fun C0 h0 => Ends.recvBlocks net w fun C1 h1 => ?_
    obtain ⟨p, hp, lp⟩ := pad_spec (K.getD j 0) w
    have hc : (if sel.getD j 0 = 0 then C0 else C1).length = w := by split <;> assumption
    rw [hp, Option.bind_some, xorVec_spec _ p (by rw [hc, lp])]
    exact IKNP.recvCols_length net w K sel k N h n (j + 1) _ (by omega) (by
      rw [List.length_append, List.length_zipWith, ha, hc, lp, Nat.min_self, Nat.succ_mul])

/-- Every result of the sender's random phase has the relation `Offset`, whatever it receives. -/
theorem IKNP.randomSend_offset (e : Env G) (hH : e.H = rowHash) (salt : Block) (sk : Nat → ℤ) (rows : Nat) (hr : rows % 128 = 0) :
    Ends (fun K => ∃ s, Offset s K rows) (IKNP.randomSend e 128 salt sk rows) := by
  unfold IKNP.randomSend
  split
  · trivial
  · refine Ends.then _ fun K => ?_
    refine IKNP.recvCols_length e.net (rows / 128) K _ _ 128 (fun Q hQ => ?_) 128 0 [] (by omega) (by simp)
    refine Ends.ofOption _ fun K' hK => ?_
    rw [hH] at hK
    exact senderKeys_offset e.stale Q _ rows hr hQ K' hK

theorem ALSZ.expand_length (w : Nat) (seeds : List Block) (cols : Nat) (Q : List Block) (h : ALSZ.expand w seeds cols = some Q) :
    Q.length = cols * w := by
  unfold ALSZ.expand at h
  choose p h1 h2 using fun j => pad_spec (seeds.getD j 0) w
  rw [mapM_range_spec _ p cols (fun i _ => h1 i)] at h
  obtain rfl := Option.some.inj h
  rw [flatten_len _ w (by
    intro x hx
    rw [List.mem_map] at hx
    obtain ⟨i, -, rfl⟩ := hx
    exact h2 i)]
  simp

theorem ALSZ.randomSend_offset (e : Env G) (hH : e.H = rowHash) (salt : Block) (sk : Nat → ℤ) (rows : Nat) (hr : rows % 128 = 0) :
    Ends (fun K => ∃ s, Offset s K rows) (ALSZ.randomSend e 128 salt sk rows) := by
  unfold ALSZ.randomSend
  split
  · trivial
  split
  · trivial
  · refine Ends.then _ fun K => ?_
    split
    · trivial
    · rename_i Q hQ
      refine Ends.recvBlocks e.net _ fun P _ => Ends.ofOption _ fun K' hK => ?_
      rw [hH] at hK
      exact senderKeys_offset e.stale _ _ rows hr (by
        rw [ALSZ.adjust, List.length_mapIdx, ALSZ.expand_length _ _ _ _ hQ]) K' hK

attribute [irreducible] Ends

/-- What a curious receiver computes at the end of `Receive` if it knows the message `m` it did not select at position `i`: the sender's
secret block, from it the other key of every position, and with both keys all messages. -/
def openAll (sel : Bytes) (i : Nat) (m : Block) (K C0 C1 : List Block) (len : Nat) : List Block × List Block :=
  let s := Hash.D ((if sel.getD i 0 = 0 then C1.getD i 0 else C0.getD i 0) ^^^ m) ^^^ Hash.D (K.getD i 0)
  let other := fun j => Hash.E (Hash.D (K.getD j 0) ^^^ s)
  ((List.range len).map fun j => C0.getD j 0 ^^^ if sel.getD j 0 = 0 then K.getD j 0 else other j,
    (List.range len).map fun j => C1.getD j 0 ^^^ if sel.getD j 0 = 0 then other j else K.getD j 0)

/-- `receive` with this end: it receives the same bytes and sends the same bytes. -/
def curiousReceive (net : Net G) (rr : Proc (List Block)) (cols : Nat) (sel : Bytes) (len i : Nat) (m : Block) :
    Proc (List Block × List Block) :=
  if !checkParameters len cols then .fail else
  rr.bind fun K => recvBlocks net len fun C0 => recvBlocks net len fun C1 => .done (openAll sel i m K C0 C1 len)

/-- The same for the one-sided transfer; a position `i` with bit 0 is not selected. -/
def curiousOnesided (net : Net G) (rr : Proc (List Block)) (cols : Nat) (sel : Bytes) (len i : Nat) (m : Block) : Proc (List Block) :=
  if !checkParameters len cols then .fail else
  rr.bind fun K => recvBlocks net len fun C => .done (openAll sel i m K C C len).2

theorem range_getD (f : Nat → Block) (n j : Nat) (hj : j < n) : ((List.range n).map f).getD j 0 = f j := by
  simp [List.getD, hj]

theorem openAll_spec (K0 K1 K : List Block) (sel : Bytes) (n : Nat) (hk : KeysMatch K0 K1 K sel n) (s : Block) (ho : Offset s (K0, K1) n)
    (C0 C1 m0 m1 : List Block) (i : Nat) (hi : i < n) (m : Block)
    (hC0 : ∀ j < n, C0.getD j 0 = m0.getD j 0 ^^^ K0.getD j 0) (hC1 : ∀ j < n, C1.getD j 0 = m1.getD j 0 ^^^ K1.getD j 0)
    (hm : m = if sel.getD i 0 = 0 then m1.getD i 0 else m0.getD i 0) (h0 : m0.length = n) (h1 : m1.length = n) :
    openAll sel i m K C0 C1 n = (m0, m1) := by
  have hx : ∀ a b : Block, a ^^^ b ^^^ a = b := fun a b => by rw [BitVec.xor_comm a b, xor_cancel]
  have hs : Hash.D ((if sel.getD i 0 = 0 then C1.getD i 0 else C0.getD i 0) ^^^ m) ^^^ Hash.D (K.getD i 0) = s := by
    obtain ⟨q, e0, e1⟩ := ho i hi
    rw [hk.key i hi, hm]
    simp only at e0 e1
    split
    · rw [hC1 i hi, hx, e1, e0, Hash.D_E, Hash.D_E, hx]
    · rw [hC0 i hi, hx, e1, e0, Hash.D_E, Hash.D_E, ← BitVec.xor_assoc, BitVec.xor_self, BitVec.zero_xor]
  have hoth : ∀ j < n, Hash.E (Hash.D (K.getD j 0) ^^^ s) = if sel.getD j 0 = 0 then K1.getD j 0 else K0.getD j 0 := by
    intro j hj
    obtain ⟨q, e0, e1⟩ := ho j hj
    rw [hk.key j hj]
    simp only at e0 e1
    split
    · rw [e0, e1, Hash.D_E]
    · rw [e0, e1, Hash.D_E, xor_cancel]
  unfold openAll
  rw [hs]
  simp only [Prod.mk.injEq]
  constructor
  · refine vec_ext _ _ n (by simp) h0 fun j hj => ?_
    rw [range_getD _ n j hj, hC0 j hj]
    by_cases hz : sel.getD j 0 = 0
    · rw [if_pos hz, hk.key j hj, if_pos hz, xor_cancel]
    · rw [if_neg hz, hoth j hj, if_neg hz, xor_cancel]
  · refine vec_ext _ _ n (by simp) h1 fun j hj => ?_
    rw [range_getD _ n j hj, hC1 j hj]
    by_cases hz : sel.getD j 0 = 0
    · rw [if_pos hz, hoth j hj, if_pos hz, xor_cancel]
    · rw [if_neg hz, hk.key j hj, if_neg hz, xor_cancel]

theorem curious_run (net : Net G) (hn : net.Ok) (rs : Proc (List Block × List Block)) (rr : Proc (List Block)) (len : Nat)
    (hl : len % 128 = 0) (m0 m1 : List Block) (sel : Bytes) (h0 : m0.length = len) (h1 : m1.length = len)
    (hk : ∃ K0 K1 K, Runs rs rr (K0, K1) K ∧ KeysMatch K0 K1 K sel len) (ho : Ends (fun K => ∃ s, Offset s K len) rs) (i : Nat) (hi : i < len) :
    Runs (send net rs 128 m0 m1 len)
      (curiousReceive net rr 128 sel len i (if sel.getD i 0 = 0 then m1.getD i 0 else m0.getD i 0)) () (m0, m1) := by
  obtain ⟨K0, K1, K, hrun, hm⟩ := hk
  obtain ⟨s, hs⟩ := ho.runs hrun
  unfold send curiousReceive
  simp only [checkParameters_ok hl (rfl : 128 % 128 = 0), Bool.false_eq_true, if_false]
  refine Runs.bind hrun _ _ ?_
  rw [if_neg (by omega)]
  refine .blocksLR net hn (by simp) (.blocksLR net hn (by simp) (done_run ?_))
  exact openAll_spec K0 K1 K sel len hm s hs _ _ m0 m1 i hi _ (fun j hj => by simp [List.getD, hj]) (fun j hj => by simp [List.getD, hj])
    rfl h0 h1

theorem curious_onesided_run (net : Net G) (hn : net.Ok) (rs : Proc (List Block × List Block)) (rr : Proc (List Block)) (len : Nat)
    (hl : len % 128 = 0) (m : List Block) (sel : Bytes) (h0 : m.length = len)
    (hk : ∃ K0 K1 K, Runs rs rr (K0, K1) K ∧ KeysMatch K0 K1 K sel len) (ho : Ends (fun K => ∃ s, Offset s K len) rs) (i : Nat) (hi : i < len)
    (hsel : sel.getD i 0 = 0) :
    Runs (onesidedSend net rs 128 m len) (curiousOnesided net rr 128 sel len i (m.getD i 0)) () m := by
  obtain ⟨K0, K1, K, hrun, hm⟩ := hk
  obtain ⟨s, hs⟩ := ho.runs hrun
  unfold onesidedSend curiousOnesided
  simp only [checkParameters_ok hl (rfl : 128 % 128 = 0), Bool.false_eq_true, if_false]
  refine Runs.bind hrun _ _ ?_
  rw [if_neg (by omega)]
  refine .blocksLR net hn (by simp) (done_run ?_)
  -- the first vector of messages is whatever the first key would turn the ciphertexts into
  have := openAll_spec K0 K1 K sel len hm s hs ((List.range len).map fun i => m.getD i 0 ^^^ K1.getD i 0)
    ((List.range len).map fun i => m.getD i 0 ^^^ K1.getD i 0) ((List.range len).map fun i => m.getD i 0 ^^^ K1.getD i 0 ^^^ K0.getD i 0) m
    i hi (m.getD i 0) (fun j hj => by simp [List.getD, hj, xor_cancel]) (fun j hj => by simp [List.getD, hj]) (by rw [if_pos hsel]) (by simp) h0
  rw [this]

/-- **C94 (violation)** IKNP with 128 base transfers. A receiver that knows one of the messages it did not select gets all messages of the
sender, with the bytes of an ordinary run. -/
theorem iknp_one_message_opens_all (e : Env G) (hn : e.net.Ok) (hH : e.H = rowHash) (len : Nat) (hl : len % 128 = 0)
    (salt salt' : Block) (sk : Nat → ℤ) (d : ℤ) (r : Nat → ℤ) (hb : BaseOk e 128 salt sk d r) (m0 m1 : List Block) (sel : Bytes)
    (h0 : m0.length = len) (h1 : m1.length = len) (hs : sel.length = len) (i : Nat) (hi : i < len) :
    Runs (send e.net (IKNP.randomSend e 128 salt sk len) 128 m0 m1 len)
      (curiousReceive e.net (IKNP.randomReceive e 128 salt' d r sel len) 128 sel len i (if sel.getD i 0 = 0 then m1.getD i 0 else m0.getD i 0))
      () (m0, m1) :=
  curious_run e.net hn _ _ len hl m0 m1 sel h0 h1 (IKNP.iknp_random e hn 128 len rfl (by decide) hl salt salt' sk d r hb sel hs)
    (IKNP.randomSend_offset e hH salt sk len hl) i hi

/-- **C94 (violation)** ALSZ with 128 base transfers. -/
theorem alsz_one_message_opens_all (e : Env G) (hn : e.net.Ok) (hH : e.H = rowHash) (len : Nat) (hl : len % 128 = 0)
    (salt salt' : Block) (sk : Nat → ℤ) (d : ℤ) (r : Nat → ℤ) (hb : BaseOk e 128 salt sk d r) (m0 m1 : List Block) (sel : Bytes)
    (h0 : m0.length = len) (h1 : m1.length = len) (hs : sel.length = len) (i : Nat) (hi : i < len) :
    Runs (send e.net (ALSZ.randomSend e 128 salt sk len) 128 m0 m1 len)
      (curiousReceive e.net (ALSZ.randomReceive e 128 salt' d r sel len) 128 sel len i (if sel.getD i 0 = 0 then m1.getD i 0 else m0.getD i 0))
      () (m0, m1) :=
  curious_run e.net hn _ _ len hl m0 m1 sel h0 h1 (ALSZ.alsz_random e hn 128 len rfl (by decide) hl salt salt' sk d r hb sel hs)
    (ALSZ.randomSend_offset e hH salt sk len hl) i hi

/-- **C94 (violation)** The one-sided transfers, on which the set operations rest: from one item that was not selected all items. -/
theorem onesided_one_item_opens_all (e : Env G) (hn : e.net.Ok) (hH : e.H = rowHash) (len : Nat) (hl : len % 128 = 0)
    (salt salt' : Block) (sk : Nat → ℤ) (d : ℤ) (r : Nat → ℤ) (hb : BaseOk e 128 salt sk d r) (m : List Block) (sel : Bytes)
    (h0 : m.length = len) (hs : sel.length = len) (i : Nat) (hi : i < len) (hsel : sel.getD i 0 = 0) :
    Runs (onesidedSend e.net (ALSZ.randomSend e 128 salt sk len) 128 m len)
      (curiousOnesided e.net (ALSZ.randomReceive e 128 salt' d r sel len) 128 sel len i (m.getD i 0)) () m ∧
    Runs (onesidedSend e.net (IKNP.randomSend e 128 salt sk len) 128 m len)
      (curiousOnesided e.net (IKNP.randomReceive e 128 salt' d r sel len) 128 sel len i (m.getD i 0)) () m :=
  ⟨curious_onesided_run e.net hn _ _ len hl m sel h0 (ALSZ.alsz_random e hn 128 len rfl (by decide) hl salt salt' sk d r hb sel hs)
    (ALSZ.randomSend_offset e hH salt sk len hl) i hi hsel,
  curious_onesided_run e.net hn _ _ len hl m sel h0 (IKNP.iknp_random e hn 128 len rfl (by decide) hl salt salt' sk d r hb sel hs)
    (IKNP.randomSend_offset e hH salt sk len hl) i hi hsel⟩

/-- **C94 (what holds).** One ciphertext alone tells nothing: for the key `E t` the receiver has and any message `m` there is exactly one
secret block of the sender with which the other ciphertext `C` contains `m`. -/
theorem ote_single_hidden_partial (t C m : Block) : ∃ s, C ^^^ Hash.E (t ^^^ s) = m ∧ ∀ s', C ^^^ Hash.E (t ^^^ s') = m → s' = s := by
  have hinj : Function.Injective Hash.E := fun a b h => Hash.E_inj h
  have : Finite Block := Finite.of_injective (fun b : Block => (⟨b.toNat, b.isLt⟩ : Fin (2 ^ 128)))
    fun a b h => BitVec.eq_of_toNat_eq (Fin.mk.inj h)
  obtain ⟨x, hx⟩ := (Finite.injective_iff_surjective.1 hinj) (C ^^^ m)
  refine ⟨t ^^^ x, ?_, fun s' h => ?_⟩
  · rw [← BitVec.xor_assoc, BitVec.xor_self, BitVec.zero_xor, hx, ← BitVec.xor_assoc, BitVec.xor_self, BitVec.zero_xor]
  · have h2 : Hash.E (t ^^^ s') = Hash.E x := by
      rw [hx, ← h, ← BitVec.xor_assoc, BitVec.xor_self, BitVec.zero_xor]
    have h3 := hinj h2
    rw [← h3, ← BitVec.xor_assoc, BitVec.xor_self, BitVec.zero_xor]

/-- An environment with the hash function of the code. -/
def aesEnv : Env (ZMod 7) := { toyEnv with H := rowHash }

theorem aesEnv_base (salt : Block) : BaseOk aesEnv 128 salt (fun _ => 2) 3 (fun _ => 5) := toyEnv_base salt

example (sel : Bytes) (hs : sel.length = 256) (h5 : sel.getD 5 0 = 0) :
    Runs (send toyNet (IKNP.randomSend aesEnv 128 77 (fun _ => 2) 256) 128 ((List.range 256).map (BitVec.ofNat 128)) (List.replicate 256 9) 256)
      (curiousReceive toyNet (IKNP.randomReceive aesEnv 128 78 3 (fun _ => 5) sel 256) 128 sel 256 5 9) ()
      ((List.range 256).map (BitVec.ofNat 128), List.replicate 256 9) := by
  have := iknp_one_message_opens_all aesEnv toyNet_ok rfl 256 rfl 77 78 (fun _ => 2) 3 (fun _ => 5) (aesEnv_base 77)
    ((List.range 256).map (BitVec.ofNat 128)) (List.replicate 256 9) sel (by rw [List.length_map, List.length_range]) List.length_replicate hs
    5 (by decide)
  rw [if_pos h5, show (List.replicate 256 (9 : Block)).getD 5 0 = 9 from by rw [List.getD, List.getElem?_replicate, if_pos (by decide)]; rfl] at this
  exact this

end Kunlun.OTE
