import Verif.Model.OkvsUniform
/-!
C131: what the vector made by the OKVS tells about the keys. With a generator and without gap rows the vector is uniform among those
that decode to the values; if the values are random too it is uniform among all vectors, whatever the keys are. Without a generator the
columns no key hits keep what the buffer held.
-/

namespace Kunlun.OKVS
open Kunlun Kunlun.FastDiv

/-- A vector of the `total_size` entries as the model sees it. -/
def vec {V : Type} (o : ValOps V) {N : Nat} (T : Fin N → V) : Nat → V := fun a => if h : a < N then T ⟨a, h⟩ else o.zero

/-- The random values, one for each position of the vector. (`E` and `rhs` are used for gap rows only.) -/
def tape {V : Type} (o : ValOps V) (s : Nat) {N : Nat} (ρ : Fin N → V) (E : Nat → Nat → Block) (rhs : Nat → V) : Rnd V :=
  ⟨vec o ρ, fun j => vec o ρ (s + j), E, rhs⟩

open Classical in
/-- `okvs_uniform_partial` for any hash values. -/
theorem okvs_uniform_hash {V : Type} [Fintype V] {o : ValOps V} (ho : o.Ok) {c : Cfg} {dvs : List Divider} (hn : new c = some dvs)
    (hc : c.Ok) {junk : Nat → Node} {ks : List Block} {st : St} (e1 : setKeys c dvs junk ks = some st)
    {tr : Tri} (e2 : triangulate c st = some tr) (hg : tr.gapR = []) {rn0 : Rnd V} {v0 out0 : Nat → V}
    (hok : encode o c st (some rn0) v0 (fun _ => o.zero) = some out0) {values : List V} (hv : values.length = c.n)
    (E : Nat → Nat → Block) (rhs : Nat → V) (T : Fin (c.s + c.ds) → V) :
    (Finset.univ.filter fun ρ : Fin (c.s + c.ds) → V => ∃ out,
      encode o c st (some (tape o c.s ρ E rhs)) (fun r => values.getD r o.zero) (fun _ => o.zero) = some out ∧
        ∀ i : Fin (c.s + c.ds), out i = T i).card
      = if decode o c dvs (vec o T) ks = some values then Fintype.card V ^ c.n else 0 := by
  have hen : ∀ rn v, encode o c st (some rn) v (fun _ => o.zero) = encodeTri o c st tr (some rn) v (fun _ => o.zero) := by
    intro rn v; unfold encode; rw [e2]; rfl
  have hok' : encodeTri o c st tr (some rn0) v0 (fun _ => o.zero) ≠ none := by rw [← hen, hok]; simp
  obtain ⟨s1, -, -⟩ := setKeys_spec hn hc e1
  obtain ⟨t1, t2⟩ := triangulate_spec s1 e2
  have iff : ∀ ρ : Fin (c.s + c.ds) → V, (∃ out,
      encode o c st (some (tape o c.s ρ E rhs)) (fun r => values.getD r o.zero) (fun _ => o.zero) = some out ∧
        ∀ i : Fin (c.s + c.ds), out i = T i) ↔ decode o c dvs (vec o T) ks = some values ∧
        ∀ i : Fin (c.s + c.ds), (i : Nat) ∉ tr.triC → ρ i = T i := by
    intro ρ
    have := @gives_iff V (o.grp ho) ho.self o.mul ho.mulOk o.blocks c dvs hn hc junk _ st values hv e1 tr e2 hg rn0 v0 hok'
      (tape o c.s ρ E rhs) (vec o T)
    have hvec : ∀ (x : Fin (c.s + c.ds) → V) (i : Fin (c.s + c.ds)), vec o x i = x i := fun x i => by simp [vec]
    constructor
    · rintro ⟨out, w1, w2⟩
      obtain ⟨k1, k2, k3⟩ := this.1 ⟨out, by rw [hen] at w1; exact w1, fun a ha => by
        have := w2 ⟨a, ha⟩; rw [this, ← hvec T ⟨a, ha⟩]⟩
      refine ⟨k1, fun i hi => ?_⟩
      rw [← hvec ρ i, ← hvec T i]
      by_cases h : (i : Nat) < c.s
      · exact k2 i h hi
      · have := k3 (i - c.s) (by have := i.2; omega)
        simpa [tape, Nat.add_sub_cancel' (Nat.le_of_not_lt h)] using this
    · rintro ⟨k1, k2⟩
      have hall : ∀ a < c.s + c.ds, a ∉ tr.triC → vec o ρ a = vec o T a := fun a ha hP => by
        rw [hvec ρ ⟨a, ha⟩, hvec T ⟨a, ha⟩]; exact k2 ⟨a, ha⟩ hP
      obtain ⟨out, w1, w2⟩ := this.2 ⟨k1, fun a ha hP => hall a (by omega) hP, fun j hj =>
        hall (c.s + j) (by omega) (fun hm => by have := t1.clt _ hm; omega)⟩
      exact ⟨out, by rw [hen]; exact w1, fun i => by rw [w2 i i.2, hvec]⟩
  simp only [iff]
  split
  · rename_i hd
    simp only [hd, true_and]
    have hP : (Finset.univ.filter fun i : Fin (c.s + c.ds) => (i : Nat) ∈ tr.triC).card = c.n := by
      have hr : tr.triR.length = c.n := by
        rw [hg] at t2
        have hnd := t1.nodup
        rw [hg] at hnd
        have hp : (tr.triR ++ []).Perm (List.range c.n) :=
          (List.perm_ext_iff_of_nodup hnd List.nodup_range).2 (fun r => by rw [t2 r, List.mem_range])
        simpa using hp.length_eq
      rw [← hr, t1.len, ← List.toFinset_card_of_nodup (triC_nodup t1)]
      refine Finset.card_bij (fun i _ => (i : Nat)) (fun i hi => by simpa using hi) (fun i _ j _ h => Fin.ext h) (fun a ha => ?_)
      have ha' : a ∈ tr.triC := by simpa using ha
      exact ⟨⟨a, by have := t1.clt a ha'; omega⟩, by simpa using ha', rfl⟩
    rw [← hP, ← card_agree _ T]
    congr 1
    ext ρ
    simp
  · rename_i hd
    simp [hd]

open Classical in
/-- The values and the keys fixed, the generator random, no gap rows: every vector that decodes to the values comes out equally often,
every other vector never.
Missing: gap rows, with which the randomised `encode` is wrong anyway (`okvs_randomised_wrong`). -/
theorem okvs_uniform_partial {V : Type} [Fintype V] {o : ValOps V} (ho : o.Ok) {c : Cfg} {dvs : List Divider} (hn : new c = some dvs)
    (hc : c.Ok) {junk : Nat → Node} {key : AES.Key} {keys : List Block} {st : St} (e1 : setKeys c dvs junk (setDense key keys) = some st)
    {tr : Tri} (e2 : triangulate c st = some tr) (hg : tr.gapR = []) {rn0 : Rnd V} {v0 out0 : Nat → V}
    (hok : encode o c st (some rn0) v0 (fun _ => o.zero) = some out0) {values : List V} (hv : values.length = c.n)
    (E : Nat → Nat → Block) (rhs : Nat → V) (T : Fin (c.s + c.ds) → V) :
    (Finset.univ.filter fun ρ : Fin (c.s + c.ds) → V => ∃ out,
      encode o c st (some (tape o c.s ρ E rhs)) (fun r => values.getD r o.zero) (fun _ => o.zero) = some out ∧
        ∀ i : Fin (c.s + c.ds), out i = T i).card
      = if decode o c dvs (vec o T) (setDense key keys) = some values then Fintype.card V ^ c.n else 0 :=
  okvs_uniform_hash ho hn hc e1 e2 hg hok hv E rhs T

open Classical in
/-- The values and the generator random, no gap rows: all vectors come out equally often. So the vector tells nothing about the keys. -/
theorem okvs_oblivious_partial {V : Type} [Fintype V] {o : ValOps V} (ho : o.Ok) {c : Cfg} {dvs : List Divider} (hn : new c = some dvs)
    (hc : c.Ok) {junk : Nat → Node} {key : AES.Key} {keys : List Block} {st : St} (e1 : setKeys c dvs junk (setDense key keys) = some st)
    {tr : Tri} (e2 : triangulate c st = some tr) (hg : tr.gapR = []) {rn0 : Rnd V} {v0 out0 : Nat → V}
    (hok : encode o c st (some rn0) v0 (fun _ => o.zero) = some out0) (E : Nat → Nat → Block) (rhs : Nat → V)
    (T : Fin (c.s + c.ds) → V) :
    (Finset.univ.filter fun p : (Fin c.n → V) × (Fin (c.s + c.ds) → V) => ∃ out,
      encode o c st (some (tape o c.s p.2 E rhs)) (fun r => (List.ofFn p.1).getD r o.zero) (fun _ => o.zero) = some out ∧
        ∀ i : Fin (c.s + c.ds), out i = T i).card = Fintype.card V ^ c.n := by
  have hb : c.binary = true → c.ds ≤ 128 := by
    intro hb
    have : encodeTri o c st tr (some rn0) v0 (fun _ => o.zero) = some out0 := by
      unfold encode at hok; rw [e2] at hok; exact hok
    unfold encodeTri backfillBin at this
    split at this
    · cases this
    · rw [hb, if_pos rfl] at this
      simp only at this
      split at this
      · cases this
      · omega
  obtain ⟨vs, hvs, hd⟩ := @decode_some V (o.grp ho) o.mul o.blocks c dvs hn hc junk _ st e1 hb (vec o T)
  have hcount := fun v : Fin c.n → V => okvs_uniform_partial ho hn hc e1 e2 hg hok (values := List.ofFn v) (by simp) E rhs T
  have hd' : ∀ v : Fin c.n → V, decode o c dvs (vec o T) (setDense key keys) = some (List.ofFn v) ↔ v = fun i : Fin c.n => vs.getD i o.zero := by
    intro v
    have hd2 : decode o c dvs (vec o T) (setDense key keys) = some vs := hd
    rw [hd2, Option.some.injEq]
    constructor
    · rintro rfl
      funext i
      simp [List.getD_eq_getElem?_getD]
    · rintro rfl
      apply List.ext_getElem (by simp [hvs])
      intro i h1 h2
      simp [List.getD_eq_getElem?_getD, h1]
  have hsum : (Finset.univ.filter fun p : (Fin c.n → V) × (Fin (c.s + c.ds) → V) => ∃ out,
      encode o c st (some (tape o c.s p.2 E rhs)) (fun r => (List.ofFn p.1).getD r o.zero) (fun _ => o.zero) = some out ∧
        ∀ i : Fin (c.s + c.ds), out i = T i).card = ∑ v : Fin c.n → V, (Finset.univ.filter fun ρ : Fin (c.s + c.ds) → V => ∃ out,
      encode o c st (some (tape o c.s ρ E rhs)) (fun r => (List.ofFn v).getD r o.zero) (fun _ => o.zero) = some out ∧
        ∀ i : Fin (c.s + c.ds), out i = T i).card := by
    simp only [Finset.card_filter]
    exact Fintype.sum_prod_type _
  rw [hsum, Finset.sum_congr rfl (fun v _ => hcount v)]
  simp only [hd']
  rw [Finset.sum_ite_eq' Finset.univ (fun i : Fin c.n => vs.getD i o.zero)]
  simp

/-- Without a generator the columns that no key hits keep what the buffer of the caller held, whatever the values are. -/
theorem okvs_plain_untouched {V : Type} {o : ValOps V} {c : Cfg} {dvs : List Divider} (hn : new c = some dvs)
    (hc : c.Ok) {junk : Nat → Node} {dense : List Block} {st : St} (e1 : setKeys c dvs junk dense = some st) {v out out' : Nat → V}
    (e : encode o c st none v out = some out') {a : Nat} (ha : a < c.s)
    (hfree : ∀ d ∈ dense, ∀ row, sparse1 c.t c.w c.s dvs d = some row → a ∉ row) : out' a = out a := by
  obtain ⟨s1, s2, s3⟩ := setKeys_spec hn hc e1
  unfold encode at e
  obtain ⟨tr, e2, e3⟩ := Option.bind_eq_some_iff.1 e
  obtain ⟨t1, t2⟩ := triangulate_spec s1 e2
  exact encodeTri_plain e3 a ha (free_not_pivot t1 (by rw [← s2]; exact s1.dlen) s3 t2 hfree)

/-- So without a generator and without gap rows a key all of whose columns are hit by no stored key decodes to zero, whatever the values
are: who sees the vector and knows that no stored value is zero learns that the key is absent. -/
theorem okvs_plain_absent {V : Type} {o : ValOps V} (ho : o.Ok) {c : Cfg} {dvs : List Divider} (hn : new c = some dvs)
    (hc : c.Ok) {junk : Nat → Node} {dense : List Block} {st : St} (e1 : setKeys c dvs junk dense = some st) {tr : Tri}
    (e2 : triangulate c st = some tr) (hg : tr.gapR = []) {v out : Nat → V} (e : encode o c st none v (fun _ => o.zero) = some out)
    {d : Block} {pos : List Nat} (hpos : sparse1 c.t c.w c.s dvs d = some pos) (hlt : ∀ a ∈ pos, a < c.s) (hne : pos ≠ [])
    (hfree : ∀ a ∈ pos, ∀ d' ∈ dense, ∀ row, sparse1 c.t c.w c.s dvs d' = some row → a ∉ row) :
    decode1 o c dvs out d = some o.zero := by
  have hz : ∀ a ∈ pos, out a = o.zero := fun a ha => okvs_plain_untouched hn hc e1 e (hlt a ha) (hfree a ha)
  obtain ⟨s1, -, -⟩ := setKeys_spec hn hc e1
  obtain ⟨t1, -⟩ := triangulate_spec s1 e2
  have e3 : encodeTri o c st tr none v (fun _ => o.zero) = some out := by unfold encode at e; rw [e2] at e; exact e
  have hd : ∀ j, out (c.s + j) = o.zero := fun j => encodeTri_plain_dense t1 hg e3 j
  have hb : c.binary = true → c.ds ≤ 128 := by
    intro hb
    unfold encodeTri backfillBin at e3
    split at e3
    · cases e3
    · rw [hb, if_pos rfl] at e3
      simp only at e3
      split at e3
      · cases e3
      · omega
  unfold decode1
  rw [hpos, Option.bind_some]
  letI := o.grp ho
  have hr := rowVal_eq (mul := o.mul) (b := o.blocks) (c := c) hb (m := ⟨[d], [pos]⟩) (x := out) (r := 0) hne
  have hr' : rowVal o c out d pos = some ((pos.map out).sum + Dn o.mul c ⟨[d], [pos]⟩ out 0) := hr
  rw [hr']
  have z1 : (pos.map out).sum = 0 := by
    rw [List.map_congr_left (g := fun _ => (0 : V)) hz]
    simp
  have z2 : Dn o.mul c ⟨[d], [pos]⟩ out 0 = 0 := by
    rw [Dn_congr (y := fun _ => (0 : V)) (fun j _ => hd j)]
    have hm : ∀ k, o.mul 0 k = 0 := ho.mulOk.zero_left
    unfold Dn Db Dg
    split <;> simp [hm]
  rw [z1, z2, add_zero]
  rfl

/-! ### Witnesses -/

/-- Two keys, six sparse and two dense columns, weight 2. -/
def pairCfg : Cfg := ⟨.u8, true, 2, 2, 6, 1, 1⟩

theorem pairCfg_ok : pairCfg.Ok := ⟨⟨by decide, by decide, by decide⟩, by decide⟩

/-- The number of gap rows, the rows and the vector for two keys. -/
def pairRun (ks : List Block) (rnd : Option (Rnd Block)) : Option (Nat × List (List Nat) × List Block) :=
  (new pairCfg).bind fun dvs =>
    (setKeys pairCfg dvs (fun _ => ⟨0, none, none⟩) (setDense (AES.genEncKey 0#128) ks)).bind fun st =>
      (triangulate pairCfg st).bind fun tr =>
        (encode blockOps pairCfg st rnd (fun r => [10#128, 11#128].getD r 0#128) fun _ => 0#128).map fun out =>
          (tr.gapR.length, st.m.rows, (List.range (pairCfg.s + pairCfg.ds)).map out)

/-- The hypotheses of `okvs_uniform_partial` and `okvs_oblivious_partial` are met: no gap rows, and the randomised `encode` returns. -/
example : (pairRun [0#128, 3#128] (some smallRnd)).map Prod.fst = some 0 := by decide +kernel

/-- Those of `okvs_plain_absent`: key 32 has the columns 0 and 5, which the keys 0 and 3 (`pairRun_first`) do not have. -/
example : ((new pairCfg).bind fun dvs => sparse1 pairCfg.t pairCfg.w pairCfg.s dvs (AES.enc (AES.genEncKey 0#128) 32#128 ^^^ 32#128))
    = some [0, 5] := by decide +kernel

theorem pairRun_first : pairRun [0#128, 3#128] none = some (0, [[1, 4], [2, 3]], [0#128, 0#128, 0#128, 11#128, 10#128, 0#128, 0#128, 0#128]) := by
  decide +kernel

theorem pairRun_second : pairRun [8#128, 9#128] none = some (0, [[0, 4], [3, 5]], [0#128, 0#128, 0#128, 0#128, 10#128, 11#128, 0#128, 0#128]) := by
  decide +kernel

/-- Without a generator the vector tells which keys are stored, even if the values are random: two key lists of the same length and a
vector that one of them makes for some values and the other one for none. -/
theorem okvs_plain_not_oblivious : ∃ (c : Cfg) (dvs : List Divider) (key : AES.Key) (keys keys' : List Block) (st st' : St)
    (v' out' : Nat → Block), new c = some dvs ∧ c.Ok ∧ keys.length = c.n ∧ keys'.length = c.n ∧
      setKeys c dvs (fun _ => ⟨0, none, none⟩) (setDense key keys) = some st ∧
      setKeys c dvs (fun _ => ⟨0, none, none⟩) (setDense key keys') = some st' ∧
      encode blockOps c st' none v' (fun _ => 0#128) = some out' ∧
      ∀ v out, encode blockOps c st none v (fun _ => 0#128) = some out → ∃ a < c.s, out a ≠ out' a := by
  have h := pairRun_first
  have h' := pairRun_second
  unfold pairRun at h h'
  obtain ⟨dvs, h1, h⟩ := Option.bind_eq_some_iff.1 h
  obtain ⟨st, h2, h⟩ := Option.bind_eq_some_iff.1 h
  obtain ⟨tr, h3, h⟩ := Option.bind_eq_some_iff.1 h
  obtain ⟨out, h4, h⟩ := Option.map_eq_some_iff.1 h
  obtain ⟨dvs', h1', h'⟩ := Option.bind_eq_some_iff.1 h'
  obtain rfl : dvs = dvs' := Option.some.inj (h1.symm.trans h1')
  obtain ⟨st', h2', h'⟩ := Option.bind_eq_some_iff.1 h'
  obtain ⟨tr', h3', h'⟩ := Option.bind_eq_some_iff.1 h'
  obtain ⟨out', h4', h'⟩ := Option.map_eq_some_iff.1 h'
  refine ⟨pairCfg, dvs, _, [0#128, 3#128], [8#128, 9#128], st, st', _, out', h1, pairCfg_ok, rfl, rfl, h2, h2', h4', fun v o e => ?_⟩
  refine ⟨5, by decide, ?_⟩
  have hrows : st.m.rows = [[1, 4], [2, 3]] := congrArg (fun p => p.2.1) h
  have hfive : out' 5 = 11#128 := by
    have := congrArg (fun p => p.2.2.getD 5 0#128) h'
    exact this
  obtain ⟨s1, s2, s3⟩ := setKeys_spec h1 pairCfg_ok h2
  have hz : o 5 = 0#128 := okvs_plain_untouched h1 pairCfg_ok h2 e (by decide) (fun d hd row hr hm => by
    obtain ⟨i, hi, rfl⟩ := List.getElem_of_mem hd
    obtain ⟨k1, k2⟩ := mapM_inv _ _ _ s3
    obtain ⟨y, k3, k4⟩ := k2 i hi
    obtain rfl : row = y := Option.some.inj (hr.symm.trans k3)
    have : row ∈ st.m.rows := List.mem_of_getElem? k4
    rw [hrows] at this
    simp only [List.mem_cons, List.not_mem_nil, or_false] at this
    rcases this with rfl | rfl <;> simp at hm)
  rw [hz, hfive]
  decide

end Kunlun.OKVS
