import Verif.Model.OkvsEncode
/-!
C55: what `encode` stores, `decode` returns.
-/

namespace Kunlun.OKVS
open Kunlun Kunlun.FastDiv

/-- What an object needs: the rows are computed without overflow (C56), and the signed vector comparisons are right. -/
structure Cfg.Ok (c : Cfg) : Prop where
  fits : Fits c.t c.w c.s
  small : c.s < 2 ^ 63

theorem new_spec {c : Cfg} {dvs : List Divider} (e : new c = some dvs) :
    2 ≤ c.w ∧ c.n < 2 ^ c.t.bits ∧ mkDividers c.w c.s = some dvs := by
  unfold new at e
  split at e
  · cases e
  split at e
  · cases e
  split at e
  · cases e
  exact ⟨by omega, by omega, e⟩

/-- `set_keys` leaves a consistent object: the rows are those of the hash values. -/
theorem setKeys_spec {c : Cfg} {dvs : List Divider} {junk : Nat → Node} {dense : List Block} {st : St} (hn : new c = some dvs)
    (hc : c.Ok) (e : setKeys c dvs junk dense = some st) :
    StOk st c.n c.s ∧ st.m.dense = dense ∧ dense.mapM (sparse1 c.t c.w c.s dvs) = some st.m.rows := by
  obtain ⟨hw, -, hd⟩ := new_spec hn
  unfold setKeys at e
  split at e
  · cases e
  rename_i hlen
  have hlen : dense.length = c.n := by simpa using hlen
  rw [okvs_rows_all c.t c.w c.s hc.fits hc.small dvs hd] at e
  cases hrows : dense.mapM (sparse1 c.t c.w c.s dvs) with
  | none => rw [hrows] at e; simp at e
  | some rows =>
    rw [hrows] at e
    simp only at e
    split at e
    · rename_i hall
      split at e
      · rename_i ws h hws hh
        simp only [Option.some.injEq] at e
        subst e
        obtain ⟨i1, i2⟩ := mapM_inv _ _ _ hrows
        have hrl : rows.length = c.n := by rw [i1, hlen]
        have hrow : ∀ r < c.n, (rows.getD r []).length = c.w ∧ (rows.getD r []).Nodup ∧ ∀ x ∈ rows.getD r [], x < c.s := by
          intro r hr
          obtain ⟨y, h1, h2⟩ := i2 r (by omega)
          obtain ⟨y', g1, g2⟩ := okvs_row_distinct c.t c.w c.s hc.fits dvs hd dense[r]
          rw [h1] at g1
          cases g1
          rw [List.getD_eq_getElem?_getD, h2]
          exact g2
        have hnd : ∀ r ∈ rows, r.Nodup := by
          intro r hr
          obtain ⟨i, hi, rfl⟩ := List.getElem_of_mem hr
          have := (hrow i (by omega)).2.1
          rwa [List.getD_eq_getElem?_getD, List.getElem?_eq_getElem hi] at this
        have hs : 0 < c.s := by have := hc.fits.hw; omega
        refine ⟨⟨⟨hrl, fun r hr => (hrow r hr).2.1, fun r hr => (hrow r hr).2.2, fun r hr h0 => ?_⟩, ?_, ?_, hlen⟩, rfl, rfl⟩
        · have := (hrow r hr).1
          have h0 : rows.getD r [] = [] := h0
          rw [h0] at this
          simp at this
          omega
        · intro x hx
          have := hcolsAll_spec (colWeights rows) rows hnd 0 hh x
          simp only [Nat.zero_add, List.nil_append, List.map_id'] at this
          rw [hrl] at this
          exact this
        · obtain ⟨hg, -⟩ := weightStatistic_spec hs hws
          refine hg.congr (by simp) (fun x hx _ => ?_)
          rw [colWeights_eq, count_flatten_range rows hnd, hrl]
          unfold U Mat.row
          simp
      · cases e
    · cases e

section grp
variable {V : Type} [AddCommGroup V]

theorem rowVal_eq {mul : V → Block → V} {b : Nat} {c : Cfg} (hb : c.binary = true → c.ds ≤ 128) {m : Mat} {x : Nat → V} {r : Nat}
    (hne : m.row r ≠ []) : rowVal (grpOps mul b) c x (m.d r) (m.row r) = some (((m.row r).map x).sum + Dn mul c m x r) := by
  cases hrow : m.row r with
  | nil => exact absurd hrow hne
  | cons a l =>
    unfold rowVal Dn
    cases h : c.binary with
    | true =>
      have := hb h
      simp only [if_true]
      rw [if_neg (by omega), binSum_eq, spSum_eq]
      simp [Db]
    | false =>
      simp only [Bool.false_eq_true, if_false]
      rw [gfSum_eq, spSum_eq]
      simp [Dg]

/-- The value of a row is additive in the stored vector. -/
theorem rowVal_add {mul : V → Block → V} (hmul : MulOk mul) {b : Nat} {c : Cfg} {x y : Nat → V} {d : Block} {row : List Nat} {a b' : V}
    (h1 : rowVal (grpOps mul b) c x d row = some a) (h2 : rowVal (grpOps mul b) c y d row = some b') :
    rowVal (grpOps mul b) c (fun i => x i + y i) d row = some (a + b') := by
  cases row with
  | nil => cases h1
  | cons c0 cs =>
    unfold rowVal at *
    cases h : c.binary with
    | true =>
      simp only [h, if_true] at h1 h2 ⊢
      split at h1
      · cases h1
      · rename_i hds
        rw [if_neg hds] at h2 ⊢
        rw [binSum_eq, spSum_eq] at h1 h2 ⊢
        simp only [Option.some.injEq] at h1 h2 ⊢
        subst h1 h2
        rw [List.sum_map_add]
        have : (fun j => if bitAt c.ds d j then x (c.s + j) + y (c.s + j) else 0)
            = fun j => (if bitAt c.ds d j then x (c.s + j) else 0) + if bitAt c.ds d j then y (c.s + j) else 0 := by
          funext j; split <;> simp
        rw [this, List.sum_map_add]
        abel
    | false =>
      simp only [h, Bool.false_eq_true, if_false] at h1 h2 ⊢
      rw [gfSum_eq, spSum_eq] at h1 h2 ⊢
      simp only [Option.some.injEq] at h1 h2 ⊢
      subst h1 h2
      rw [List.sum_map_add]
      simp only [hmul.add]
      rw [List.sum_map_add]
      abel

theorem mul_sum {mul : V → Block → V} (hmul : MulOk mul) (k : Block) (l : List V) : mul l.sum k = (l.map fun x => mul x k).sum := by
  induction l with
  | nil => simp [hmul.zero_left]
  | cons a l ih => simp [hmul.add, ih]

theorem rowVal_mul {mul : V → Block → V} (hmul : MulOk mul) {b : Nat} {c : Cfg} {x : Nat → V} {d : Block} {row : List Nat} {a : V}
    (k : Block) (h1 : rowVal (grpOps mul b) c x d row = some a) :
    rowVal (grpOps mul b) c (fun i => mul (x i) k) d row = some (mul a k) := by
  cases row with
  | nil => cases h1
  | cons c0 cs =>
    unfold rowVal at *
    cases h : c.binary with
    | true =>
      simp only [h, if_true] at h1 ⊢
      split at h1
      · cases h1
      · rename_i hds
        rw [if_neg hds]
        rw [binSum_eq, spSum_eq] at h1 ⊢
        simp only [Option.some.injEq] at h1 ⊢
        subst h1
        rw [hmul.add, hmul.add, mul_sum hmul, mul_sum hmul, List.map_map, List.map_map]
        congr 1
        · congr 1
          refine List.map_congr_left (fun j _ => ?_)
          simp only [Function.comp]
          split
          · rfl
          · rw [hmul.zero_left]
    | false =>
      simp only [h, Bool.false_eq_true, if_false] at h1 ⊢
      rw [gfSum_eq, spSum_eq] at h1 ⊢
      simp only [Option.some.injEq] at h1 ⊢
      subst h1
      rw [hmul.add, hmul.add, mul_sum hmul, mul_sum hmul, List.map_map, List.map_map]
      congr 1
      · congr 1
        refine List.map_congr_left (fun j _ => ?_)
        simp only [Function.comp]
        rw [hmul.assoc, hmul.assoc, GF.gf_mul_comm]

/-- All equations solved: `decode` gives the values. -/
theorem decode_of_rows {mul : V → Block → V} {b : Nat} {c : Cfg} {dvs : List Divider} {dense : List Block} {m : Mat} {values : List V}
    {out : Nat → V} (hn : new c = some dvs) (hc : c.Ok) (hlen : dense.length = c.n) (hv : values.length = c.n) (hm : m.dense = dense)
    (hrows : dense.mapM (sparse1 c.t c.w c.s dvs) = some m.rows) (hne : ∀ r < c.n, m.row r ≠ []) (hb : c.binary = true → c.ds ≤ 128)
    (h : ∀ r < c.n, ((m.row r).map out).sum + Dn mul c m out r = values.getD r 0) :
    decode (grpOps mul b) c dvs out dense = some values := by
  obtain ⟨-, hlt, hd⟩ := new_spec hn
  obtain ⟨i1, i2⟩ := mapM_inv _ _ _ hrows
  unfold decode
  simp only [hlen, Nat.mod_eq_of_lt hlt]
  rw [← hlen, List.take_length, okvs_rows_all c.t c.w c.s hc.fits hc.small dvs hd, hrows]
  simp only
  have : ((dense.zip m.rows).mapM fun p => rowVal (grpOps mul b) c out p.1 p.2) = some values := by
    obtain ⟨r, e, hl, hg⟩ := mapM_some_of (fun p => rowVal (grpOps mul b) c out p.1 p.2) (dense.zip m.rows) (by
      intro p hp
      obtain ⟨i, hi, rfl⟩ := List.getElem_of_mem hp
      rw [List.length_zip] at hi
      rw [List.getElem_zip]
      have e1 : m.row i = m.rows[i] := by unfold Mat.row; rw [List.getD_eq_getElem?_getD, List.getElem?_eq_getElem (by omega)]; rfl
      have e2 : m.d i = dense[i] := by unfold Mat.d; rw [hm, List.getD_eq_getElem?_getD, List.getElem?_eq_getElem (by omega)]; rfl
      have := rowVal_eq (mul := mul) (b := b) hb (x := out) (hne i (by omega))
      rw [e1, e2] at this
      exact ⟨_, this⟩)
    rw [e]
    congr 1
    rw [List.length_zip] at hl
    apply List.ext_getElem (by omega)
    intro i h1 h2
    have := hg i (by rw [List.length_zip]; omega)
    rw [List.getElem_zip, List.getElem?_eq_getElem h1] at this
    have e1 : m.row i = m.rows[i] := by unfold Mat.row; rw [List.getD_eq_getElem?_getD, List.getElem?_eq_getElem (by omega)]; rfl
    have e2 : m.d i = dense[i] := by unfold Mat.d; rw [hm, List.getD_eq_getElem?_getD, List.getElem?_eq_getElem (by omega)]; rfl
    have hr := rowVal_eq (mul := mul) (b := b) hb (x := out) (hne i (by omega))
    rw [h i (by omega), e1, e2, this] at hr
    rw [Option.some.inj hr, List.getD_eq_getElem?_getD, List.getElem?_eq_getElem h2]
    rfl
  rw [this]
  simp

theorem grp_correct (h2 : ∀ x : V, x + x = 0) {mul : V → Block → V} (hmul : MulOk mul) {b : Nat} {c : Cfg} {dvs : List Divider}
    (hn : new c = some dvs) (hc : c.Ok) {junk : Nat → Node} {dense : List Block} {st : St} {values : List V} (hv : values.length = c.n)
    (e1 : setKeys c dvs junk dense = some st) {tr : Tri} (e2 : triangulate c st = some tr)
    (hg : c.binary = true ∨ tr.gapR.length < 256) {rnd : Option (Rnd V)}
    (hrnd : rnd = none ∨ ∀ p ∈ tr.gapR.zip tr.gapF, st.m.row p.1 = st.m.row p.2) {out : Nat → V}
    (e3 : encodeTri (grpOps mul b) c st tr rnd (fun r => values.getD r 0) (fun _ => 0) = some out) :
    decode (grpOps mul b) c dvs out dense = some values := by
  obtain ⟨s1, s2, s3⟩ := setKeys_spec hn hc e1
  obtain ⟨t1, t2⟩ := triangulate_spec s1 e2
  obtain ⟨h4, h5⟩ := encodeTri_rows h2 hmul s1 t1 t2 (fun _ => rfl) hg hrnd e3
  exact decode_of_rows hn hc (by rw [← s2]; exact s1.dlen) hv s2 s3 s1.rows.ne h4 h5

end grp

/-- The laws of the value type: `^` is a commutative group operation of exponent two, `gf128_mul` is a bilinear action. -/
structure ValOps.Ok {V : Type} (o : ValOps V) : Prop where
  comm : ∀ a b, o.xor a b = o.xor b a
  assoc : ∀ a b c, o.xor (o.xor a b) c = o.xor a (o.xor b c)
  self : ∀ a, o.xor a a = o.zero
  zero : ∀ a, o.xor a o.zero = a
  mul_add : ∀ x y a, o.mul (o.xor x y) a = o.xor (o.mul x a) (o.mul y a)
  mul_xor : ∀ x a b, o.mul x (a ^^^ b) = o.xor (o.mul x a) (o.mul x b)
  mul_mul : ∀ x a b, o.mul (o.mul x a) b = o.mul x (GF.mul a b)
  mul_one : ∀ x, o.mul x MatInv.oneBlock = x

/-- The group of the values. -/
@[reducible] def ValOps.grp {V : Type} (o : ValOps V) (h : o.Ok) : AddCommGroup V where
  add := o.xor
  zero := o.zero
  neg := id
  add_assoc := h.assoc
  zero_add a := by show o.xor o.zero a = a; rw [h.comm, h.zero]
  add_zero := h.zero
  nsmul := @nsmulRec V ⟨o.zero⟩ ⟨o.xor⟩
  zsmul := @zsmulRec V ⟨o.zero⟩ ⟨o.xor⟩ ⟨id⟩ (@nsmulRec V ⟨o.zero⟩ ⟨o.xor⟩)
  neg_add_cancel a := h.self a
  add_comm := h.comm

/-- Values of one block obey the laws. -/
theorem blockOps_ok : blockOps.Ok where
  comm := BitVec.xor_comm
  assoc := BitVec.xor_assoc
  self _ := BitVec.xor_self
  zero _ := BitVec.xor_zero
  mul_add := GF.gf_xor_mul
  mul_xor := GF.gf_mul_xor
  mul_mul := GF.gf_mul_assoc
  mul_one := GF.gf_mul_one

/-- Values of nine blocks obey the laws. -/
theorem arrayOps_ok : arrayOps.Ok where
  comm a b := funext fun i => BitVec.xor_comm ..
  assoc a b c := funext fun i => BitVec.xor_assoc ..
  self a := funext fun i => BitVec.xor_self
  zero a := funext fun i => BitVec.xor_zero
  mul_add x y a := funext fun i => GF.gf_xor_mul ..
  mul_xor x a b := funext fun i => GF.gf_mul_xor ..
  mul_mul x a b := funext fun i => GF.gf_mul_assoc ..
  mul_one x := funext fun i => GF.gf_mul_one ..

theorem ValOps.Ok.mulOk {V : Type} {o : ValOps V} (h : o.Ok) : @MulOk V (o.grp h) o.mul :=
  @MulOk.mk V (o.grp h) o.mul h.mul_add h.mul_xor h.mul_mul h.mul_one

/-- `okvs_correct` for any hash values. -/
theorem okvs_correct_hash {V : Type} {o : ValOps V} (ho : o.Ok) {c : Cfg} {dvs : List Divider} (hn : new c = some dvs) (hc : c.Ok)
    {junk : Nat → Node} {dense : List Block} {st : St} (e1 : setKeys c dvs junk dense = some st)
    {values : List V} (hv : values.length = c.n) {out : Nat → V}
    (e2 : encode o c st none (fun r => values.getD r o.zero) (fun _ => o.zero) = some out)
    (hg : c.binary = true ∨ ∀ tr, triangulate c st = some tr → tr.gapR.length < 256) :
    decode o c dvs out dense = some values := by
  unfold encode at e2
  cases h : triangulate c st with
  | none => rw [h] at e2; cases e2
  | some tr =>
    rw [h] at e2
    exact @grp_correct V (o.grp ho) ho.self o.mul ho.mulOk o.blocks c dvs hn hc junk _ st values hv e1 tr h
      (hg.imp id fun g => g tr h) none (Or.inl rfl) out e2

/-- If `set_keys` and `encode` (without random filling) return, then `decode` gives every key its value: for every index type, both
dense forms, every weight, all key lists, hash keys and values. The `gf_128` form needs fewer than 256 gap rows, because their
number is kept in a byte. -/
theorem okvs_correct {V : Type} {o : ValOps V} (ho : o.Ok) {c : Cfg} {dvs : List Divider} (hn : new c = some dvs) (hc : c.Ok)
    {junk : Nat → Node} {key : AES.Key} {keys : List Block} {st : St} (e1 : setKeys c dvs junk (setDense key keys) = some st)
    {values : List V} (hv : values.length = c.n) {out : Nat → V}
    (e2 : encode o c st none (fun r => values.getD r o.zero) (fun _ => o.zero) = some out)
    (hg : c.binary = true ∨ ∀ tr, triangulate c st = some tr → tr.gapR.length < 256) :
    decode o c dvs out (setDense key keys) = some values := okvs_correct_hash ho hn hc e1 hv e2 hg

/-- With random filling the same holds if every gap row has the positions of the first row of its column (in particular if there
are no gap rows); see `okvs_randomised_wrong` for the other case. -/
theorem okvs_randomised_partial {V : Type} {o : ValOps V} (ho : o.Ok) {c : Cfg} {dvs : List Divider} (hn : new c = some dvs) (hc : c.Ok)
    {junk : Nat → Node} {key : AES.Key} {keys : List Block} {st : St} (e1 : setKeys c dvs junk (setDense key keys) = some st)
    {values : List V} (hv : values.length = c.n) {out : Nat → V} {rnd : Option (Rnd V)}
    (e2 : encode o c st rnd (fun r => values.getD r o.zero) (fun _ => o.zero) = some out)
    (hg : c.binary = true ∨ ∀ tr, triangulate c st = some tr → tr.gapR.length < 256)
    (hrnd : ∀ tr, triangulate c st = some tr → ∀ p ∈ tr.gapR.zip tr.gapF, st.m.row p.1 = st.m.row p.2) :
    decode o c dvs out (setDense key keys) = some values := by
  unfold encode at e2
  cases h : triangulate c st with
  | none => rw [h] at e2; cases e2
  | some tr =>
    rw [h] at e2
    exact @grp_correct V (o.grp ho) ho.self o.mul ho.mulOk o.blocks c dvs hn hc junk _ st values hv e1 tr h
      (hg.imp id fun g => g tr h) rnd (Or.inr (hrnd tr h)) out e2

/-- The pointwise sum of two stored vectors decodes to the sum of what they decode to. -/
theorem okvs_decode1_add {V : Type} {o : ValOps V} (ho : o.Ok) {c : Cfg} {dvs : List Divider} {x y : Nat → V} {d : Block} {a b : V}
    (h1 : decode1 o c dvs x d = some a) (h2 : decode1 o c dvs y d = some b) :
    decode1 o c dvs (fun i => o.xor (x i) (y i)) d = some (o.xor a b) := by
  unfold decode1 at *
  cases h : sparse1 c.t c.w c.s dvs d with
  | none => rw [h] at h1; cases h1
  | some row =>
    rw [h] at h1 h2
    exact @rowVal_add V (o.grp ho) o.mul ho.mulOk o.blocks c x y d row a b h1 h2

/-- Multiplying a stored vector by a field element multiplies what it decodes to. -/
theorem okvs_decode1_mul {V : Type} {o : ValOps V} (ho : o.Ok) {c : Cfg} {dvs : List Divider} {x : Nat → V} {d : Block} {a : V} (k : Block)
    (h1 : decode1 o c dvs x d = some a) : decode1 o c dvs (fun i => o.mul (x i) k) d = some (o.mul a k) := by
  unfold decode1 at *
  cases h : sparse1 c.t c.w c.s dvs d with
  | none => rw [h] at h1; cases h1
  | some row =>
    rw [h] at h1
    exact @rowVal_mul V (o.grp ho) o.mul ho.mulOk o.blocks c x d row a k h1

/-- `decode` of a list is `decode_1` of its members (as many as `idx_type` can count; the rest of the result has the default value). -/
theorem okvs_decode_list {V : Type} (o : ValOps V) {c : Cfg} {dvs : List Divider} (hd : mkDividers c.w c.s = some dvs) (hc : c.Ok)
    (out : Nat → V) (ds : List Block) :
    decode o c dvs out ds = ((ds.take (ds.length % 2 ^ c.t.bits)).mapM (decode1 o c dvs out)).map
      (· ++ List.replicate (ds.length - ds.length % 2 ^ c.t.bits) o.zero) := by
  unfold decode
  simp only [okvs_rows_all c.t c.w c.s hc.fits hc.small dvs hd]
  generalize ds.take (ds.length % 2 ^ c.t.bits) = l
  generalize (ds.length - ds.length % 2 ^ c.t.bits) = k
  have key : ∀ l : List Block, ∃ rows, l.mapM (sparse1 c.t c.w c.s dvs) = some rows ∧
      ((l.zip rows).mapM fun p => rowVal o c out p.1 p.2) = l.mapM (decode1 o c dvs out) := by
    intro l
    induction l with
    | nil => exact ⟨[], rfl, rfl⟩
    | cons d l ih =>
      obtain ⟨rows, i1, i2⟩ := ih
      obtain ⟨r, hr, -⟩ := okvs_row_distinct c.t c.w c.s hc.fits dvs hd d
      refine ⟨r :: rows, by rw [List.mapM_cons, hr, i1]; rfl, ?_⟩
      rw [List.zip_cons_cons, List.mapM_cons, List.mapM_cons, i2]
      unfold decode1
      rw [hr]
      rfl
  obtain ⟨rows, k1, k2⟩ := key l
  rw [k1]
  simp only
  rw [k2]
  cases l.mapM (decode1 o c dvs out) <;> rfl

/-! ### Witnesses -/

/-- A small object: 3 keys, 4 sparse and 2 dense columns, weight 3. -/
def smallCfg : Cfg := ⟨.u8, true, 3, 3, 4, 1, 1⟩

theorem smallCfg_ok : smallCfg.Ok := ⟨⟨by decide, by decide, by decide⟩, by decide⟩

/-- Its hash key and keys. -/
def smallDense : List Block := setDense (AES.genEncKey 0#128) [0#128, 3#128, 6#128]

/-- Its random values. -/
def smallRnd : Rnd Block := ⟨fun _ => 7#128, fun _ => 5#128, fun _ _ => 1#128, fun _ => 3#128⟩

/-- Object, encoding and decoding in one go. -/
def smallRun (rnd : Option (Rnd Block)) : Option (List Block) :=
  (new smallCfg).bind fun dvs => (setKeys smallCfg dvs (fun _ => ⟨0, none, none⟩) smallDense).bind fun st =>
    (encode blockOps smallCfg st rnd (fun r => [10#128, 11#128, 12#128].getD r 0#128) fun _ => 0#128).bind fun out =>
      decode blockOps smallCfg dvs out smallDense

/-- The number of gap rows of the small object. -/
def smallGaps : Option Nat :=
  (new smallCfg).bind fun dvs => (setKeys smallCfg dvs (fun _ => ⟨0, none, none⟩) smallDense).bind fun st =>
    (triangulate smallCfg st).map fun tr => tr.gapR.length

theorem smallRun_none : smallRun none = some [10#128, 11#128, 12#128] := by decide +kernel

theorem smallRun_rnd : smallRun (some smallRnd) = some [10#128, 12#128, 12#128] := by decide +kernel

/-- The hypotheses of `okvs_correct` are met with a gap row. -/
example : smallGaps = some 1 := by decide +kernel

/-- The randomised `encode` can return a vector that decodes to a wrong value: the random values of the free columns are left out when
the gap rows are solved. -/
theorem okvs_randomised_wrong : ∃ (c : Cfg) (dvs : List Divider) (st : St) (key : AES.Key) (keys values : List Block) (rnd : Rnd Block)
    (out : Nat → Block), new c = some dvs ∧ c.Ok ∧ setKeys c dvs (fun _ => ⟨0, none, none⟩) (setDense key keys) = some st ∧
      keys.Nodup ∧ values.length = c.n ∧
      encode blockOps c st (some rnd) (fun r => values.getD r 0#128) (fun _ => 0#128) = some out ∧
      ∃ got, decode blockOps c dvs out (setDense key keys) = some got ∧ got ≠ values := by
  have h := smallRun_rnd
  unfold smallRun at h
  obtain ⟨dvs, h1, h⟩ := Option.bind_eq_some_iff.1 h
  obtain ⟨st, h2, h⟩ := Option.bind_eq_some_iff.1 h
  obtain ⟨out, h3, h⟩ := Option.bind_eq_some_iff.1 h
  exact ⟨smallCfg, dvs, st, _, [0#128, 3#128, 6#128], [10#128, 11#128, 12#128], smallRnd, out, h1, smallCfg_ok, h2, by decide, rfl, h3,
    _, h, by decide⟩

/-- The same keys with the `gf_128` form. -/
def smallGf : Cfg := ⟨.u8, false, 3, 3, 4, 1, 1⟩

theorem smallGf_ok : smallGf.Ok := ⟨⟨by decide, by decide, by decide⟩, by decide⟩

def smallRunGf (rnd : Option (Rnd Block)) : Option (List Block) :=
  (new smallGf).bind fun dvs => (setKeys smallGf dvs (fun _ => ⟨0, none, none⟩) smallDense).bind fun st =>
    (encode blockOps smallGf st rnd (fun r => [10#128, 11#128, 12#128].getD r 0#128) fun _ => 0#128).bind fun out =>
      decode blockOps smallGf dvs out smallDense

theorem smallRunGf_none : smallRunGf none = some [10#128, 11#128, 12#128] := by decide +kernel

theorem smallRunGf_rnd : smallRunGf (some smallRnd) = some [10#128, 12#128, 12#128] := by decide +kernel

/-- The same for the `gf_128` form. -/
theorem okvs_randomised_wrong_gf : ∃ (c : Cfg) (dvs : List Divider) (st : St) (key : AES.Key) (keys values : List Block) (rnd : Rnd Block)
    (out : Nat → Block), c.binary = false ∧ new c = some dvs ∧ c.Ok ∧
      setKeys c dvs (fun _ => ⟨0, none, none⟩) (setDense key keys) = some st ∧ keys.Nodup ∧ values.length = c.n ∧
      encode blockOps c st (some rnd) (fun r => values.getD r 0#128) (fun _ => 0#128) = some out ∧
      ∃ got, decode blockOps c dvs out (setDense key keys) = some got ∧ got ≠ values := by
  have h := smallRunGf_rnd
  unfold smallRunGf at h
  obtain ⟨dvs, h1, h⟩ := Option.bind_eq_some_iff.1 h
  obtain ⟨st, h2, h⟩ := Option.bind_eq_some_iff.1 h
  obtain ⟨out, h3, h⟩ := Option.bind_eq_some_iff.1 h
  exact ⟨smallGf, dvs, st, _, [0#128, 3#128, 6#128], [10#128, 11#128, 12#128], smallRnd, out, rfl, h1, smallGf_ok, h2, by decide, rfl, h3,
    _, h, by decide⟩

/-- In the `gf_128` form the number of gap rows is kept in a byte. With a multiple of 256 of them, `encode` does not look at their
values at all. -/
theorem okvs_gap_wrap {V : Type} (o : ValOps V) (c : Cfg) (hb : c.binary = false) (st : St) (tr : Tri) (hg : tr.gapR.length % 256 = 0)
    (rnd : Option (Rnd V)) (v v' out : Nat → V) (hv : ∀ r ∈ tr.triR, v r = v' r) :
    encodeTri o c st tr rnd v out = encodeTri o c st tr rnd v' out := by
  have key : ∀ (f : V → (Nat → V) → Nat → V) (l : List (Nat × Nat)) (out : Nat → V), (∀ p ∈ l, p.1 ∈ tr.triR) →
      triSolve (fun x r => f (v r) x r) l out = triSolve (fun x r => f (v' r) x r) l out := by
    intro f l
    induction l with
    | nil => intro out _; rfl
    | cons p l ih =>
      intro out hl
      unfold triSolve
      rw [hv p.1 (hl p (List.mem_cons_self ..))]
      exact ih _ (fun q hq => hl q (List.mem_cons_of_mem _ hq))
  unfold encodeTri
  cases freeCols c tr rnd out with
  | none => rfl
  | some out1 =>
    simp only [hb, Bool.false_eq_true, if_false]
    unfold backfillGf
    simp only [hg, ne_eq, not_true_eq_false, if_false, false_or]
    split
    · rfl
    · congr 1
      exact key (fun a x r => if rnd.isSome then gfSum o c.ds (st.m.d r) (fun j => x (c.s + j)) (spSum o x a (st.m.row r))
        else spSum o x a (st.m.row r)) _ _ (fun p hp => (List.of_mem_zip (List.mem_reverse.1 hp)).1)

/-- The loop of `triangulate` ends after at most `item_num` turns: more fuel changes nothing. -/
theorem okvs_triangulate_ends {c : Cfg} {dvs : List Divider} (hn : new c = some dvs) (hc : c.Ok) {junk : Nat → Node}
    {dense : List Block} {st : St} (e : setKeys c dvs junk dense = some st) (k : Nat) :
    triLoop st (c.n + k) ⟨st.ws, fun _ => false, [], [], [], []⟩ = triangulate c st := by
  obtain ⟨s1, -, -⟩ := setKeys_spec hn hc e
  exact triLoop_fuel s1.rows s1.cols c.n k (init_inv s1) (by simp)

end Kunlun.OKVS
