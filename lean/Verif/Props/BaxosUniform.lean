import Verif.Props.OkvsUniform
import Verif.Props.BaxosSolves
import Mathlib.Data.Fintype.BigOperators
/-!
C140: what the vector made by the binned OKVS tells about the keys. With a generator and without gap rows it is uniform among the vectors
that decode to the values; if the values are random too it is uniform among all vectors, whatever the keys are.
-/

namespace Kunlun.Baxos
open Kunlun Kunlun.OKVS Kunlun.FastDiv

/-- The vector of `solve` consists of those of the bins. -/
theorem solve_inv {V : Type} {o : ValOps V} {c : BCfg} (h1 : c.bins ≠ 1) {T : Nat} {junk : Nat → Nat → Node}
    {rnd : Nat → Option (Rnd V)} {hs : List Block} {values : List V} {out0 out : Nat → V}
    (e : solve o c T junk rnd hs values out0 = some out) :
    ∀ b < c.bins, ∃ y, solveBin o c (junk b) (rnd b) (fun i => out0 (b * c.total + i)) ((hs.zip values).filter fun p => binOf c.bins p.1 = b)
      = some y ∧ ∀ i < c.total, out (b * c.total + i) = y i := by
  unfold solve at e
  split at e
  · cases e
  split at e
  · cases e
  rename_i hT
  split at e
  · cases e
  rename_i hany
  cases hdv : genDivider (BitVec.ofNat 64 c.bins) with
  | thrown => rw [hdv] at e; cases e
  | fault => rw [hdv] at e; cases e
  | ok dv =>
    rw [hdv] at e
    simp only at e
    cases htabs : (List.range T).mapM fun t => threadTable c dv (slice (hs.zip values) T t) with
    | none => rw [htabs] at e; cases e
    | some tabs =>
      rw [htabs] at e
      simp only at e
      cases houts : (List.range c.bins).mapM fun b =>
          solveBin o c (junk b) (rnd b) (fun i => out0 (b * c.total + i)) (tabs.flatMap fun tb => tb b) with
      | none => rw [houts] at e; cases e
      | some outs =>
        rw [houts] at e
        simp only [Option.some.injEq] at e
        subst e
        have hB : c.bins < 256 := by
          by_contra hn
          exact hany (List.any_eq_true.2 ⟨255, List.mem_range.2 (by omega), by simp; omega⟩)
        intro b hb
        obtain ⟨hol, ho'⟩ := mapM_inv _ _ _ houts
        obtain ⟨y, hy, hy'⟩ := ho' b (by simpa using hb)
        rw [List.getElem_range, bin_items c (by omega) (by omega) dv hdv T (by omega) _ _ htabs] at hy
        refine ⟨y, hy, fun i hi => ?_⟩
        have hs0 : 0 < c.total := by omega
        have e1 : (b * c.total + i) / c.total = b := by
          rw [Nat.mul_comm, Nat.mul_add_div hs0, Nat.div_eq_of_lt hi, Nat.add_zero]
        have e2 : (b * c.total + i) % c.total = i := by
          rw [Nat.mul_comm, Nat.mul_add_mod, Nat.mod_eq_of_lt hi]
        simp only [e1, e2]
        rw [List.getD_eq_getElem?_getD, hy']
        rfl

/-- The OKVS of the hash values `l` of a bin can be encoded and has no gap rows. -/
def NoGaps {V : Type} (o : ValOps V) (c : BCfg) (junk : Nat → Node) (l : List Block) : Prop :=
  l.length ≤ c.perBin ∧ ∃ dvs st tr rn0 v0 out0, new (c.cfg l.length) = some dvs ∧ setKeys (c.cfg l.length) dvs junk l = some st ∧
    triangulate (c.cfg l.length) st = some tr ∧ tr.gapR = [] ∧
    encode o (c.cfg l.length) st (some rn0) v0 (fun _ => o.zero) = some out0

/-- The vector of all bins as the model sees it. -/
def flat {V : Type} (o : ValOps V) {c : BCfg} (A : Fin c.bins → Fin c.total → V) : Nat → V :=
  fun a => if h : a / c.total < c.bins then vec o (A ⟨_, h⟩) (a % c.total) else o.zero

/-- The random values of the bins. -/
def tapes {V : Type} (o : ValOps V) {c : BCfg} (ρ : Fin c.bins → Fin c.total → V) (E : Nat → Nat → Block) (rhs : Nat → V) :
    Nat → Option (Rnd V) :=
  fun b => if h : b < c.bins then some (tape o c.s (ρ ⟨b, h⟩) E rhs) else none

theorem filter_fst {V : Type} (hs : List Block) (values : List V) (hlen : hs.length = values.length) (P : Block → Bool) :
    ((hs.zip values).filter fun p => P p.1).map Prod.fst = hs.filter P := by
  conv => rhs; rw [← List.map_fst_zip (l₁ := hs) (l₂ := values) (by omega)]
  rw [List.filter_map]
  rfl

theorem mapM_pairs {α β : Type} (f : α → Option β) (l : List (α × β)) (h : ∀ p ∈ l, f p.1 = some p.2) :
    (l.map Prod.fst).mapM f = some (l.map Prod.snd) := by
  induction l with
  | nil => rfl
  | cons p l ih =>
    rw [List.map_cons, List.mapM_cons, h p List.mem_cons_self, ih (fun q hq => h q (List.mem_cons_of_mem _ hq))]
    rfl

open Classical in
/-- One bin. -/
theorem bin_uniform {V : Type} [Fintype V] {o : ValOps V} (ho : o.Ok) (c : BCfg) (hc : (c.cfg 0).Ok) {junk : Nat → Node}
    {items : List (Block × V)} (hng : NoGaps o c junk (items.map Prod.fst)) {dvs : List Divider} (hd : mkDividers c.w c.s = some dvs)
    (E : Nat → Nat → Block) (rhs : Nat → V) (A : Fin c.total → V) :
    (Finset.univ.filter fun ρ : Fin c.total → V => ∃ y, solveBin o c junk (some (tape o c.s ρ E rhs)) (fun _ => o.zero) items = some y ∧
      ∀ i : Fin c.total, y i = A i).card
      = if ∀ p ∈ items, decode1 o (c.cfg 0) dvs (vec o A) p.1 = some p.2 then Fintype.card V ^ items.length else 0 := by
  obtain ⟨hp, dvs', st, tr, rn0, v0, out0, h1, h2, h3, h4, h5⟩ := hng
  rw [List.length_map] at hp h1 h2 h3 h5
  obtain ⟨-, hlt, hd'⟩ := new_spec h1
  obtain rfl : dvs = dvs' := Option.some.inj (hd.symm.trans hd')
  have hu := okvs_uniform_hash (V := V) ho h1 ⟨hc.fits, hc.small⟩ h2 h3 h4 h5 (values := items.map Prod.snd) (by simp [BCfg.cfg]) E rhs A
  have hsb : ∀ ρ : Fin c.total → V, solveBin o c junk (some (tape o c.s ρ E rhs)) (fun _ => o.zero) items =
      encode o (c.cfg items.length) st (some (tape o (c.cfg items.length).s ρ E rhs)) (fun r => (items.map Prod.snd).getD r o.zero) (fun _ => o.zero) := by
    intro ρ
    unfold solveBin
    rw [if_neg (by omega), h1, Option.bind_some, h2, Option.bind_some]
    rfl
  have hdec : decode o (c.cfg items.length) dvs (vec o A) (items.map Prod.fst) = some (items.map Prod.snd) ↔
      ∀ p ∈ items, decode1 o (c.cfg 0) dvs (vec o A) p.1 = some p.2 := by
    rw [okvs_decode_list o hd' ⟨hc.fits, hc.small⟩]
    have hl : (items.map Prod.fst).length % 2 ^ (c.cfg items.length).t.bits = items.length := by
      rw [List.length_map]; exact Nat.mod_eq_of_lt hlt
    rw [hl, List.take_of_length_le (by simp), List.length_map, Nat.sub_self, List.replicate_zero]
    constructor
    · intro h p hp
      obtain ⟨r, hr, h2⟩ := Option.map_eq_some_iff.1 h
      rw [List.append_nil] at h2
      subst h2
      obtain ⟨-, hi⟩ := mapM_inv _ _ _ hr
      obtain ⟨i, hi', rfl⟩ := List.getElem_of_mem hp
      obtain ⟨y, hy, hy'⟩ := hi i (by simpa using hi')
      rw [List.getElem_map] at hy
      rw [List.getElem?_map, List.getElem?_eq_getElem hi'] at hy'
      simp only [Option.map_some, Option.some.injEq] at hy'
      rw [hy']
      exact hy
    · intro h
      have : (items.map Prod.fst).mapM (decode1 o (c.cfg items.length) dvs (vec o A)) = some (items.map Prod.snd) := by
        have hcfg : decode1 o (c.cfg items.length) dvs (vec o A) = decode1 o (c.cfg 0) dvs (vec o A) := rfl
        rw [hcfg]
        exact mapM_pairs _ items h
      rw [this]
      simp
  simp only [hsb]
  refine hu.trans ?_
  by_cases h : ∀ p ∈ items, decode1 o (c.cfg 0) dvs (vec o A) p.1 = some p.2
  · rw [if_pos h]
    exact if_pos (hdec.2 h)
  · rw [if_neg h]
    exact if_neg (fun h' => h (hdec.1 h'))

theorem sum_countP (hs : List Block) (B : Nat) (h0 : 0 < B) :
    ∑ b : Fin B, hs.countP (fun h => binOf B h = b) = hs.length := by
  induction hs with
  | nil => simp
  | cons h l ih =>
    simp only [List.countP_cons, Finset.sum_add_distrib, ih, List.length_cons]
    congr 1
    rw [Finset.sum_eq_single ⟨binOf B h, Nat.mod_lt _ h0⟩]
    · simp
    · intro b _ hb
      rw [if_neg]
      intro he
      exact hb (Fin.ext (by simpa using (of_decide_eq_true he).symm))
    · simp

/-- `decode` of the vector `A` gives the values exactly if each value is the one of its key in its bin. -/
theorem decodeAll_iff {V : Type} (o : ValOps V) (c : BCfg) (hc : (c.cfg 0).Ok) {dvs : List Divider} (hd : mkDividers c.w c.s = some dvs)
    (h1 : c.bins ≠ 1) (h0 : 0 < c.bins) (hB : c.bins < 2 ^ 64) (T : Nat) (hT : 0 < T) (out vals : Nat → V) (hs : List Block)
    (hdec : ∀ h ∈ hs, ∃ v, decode1 o (c.cfg 0) dvs (seg c out (binOf c.bins h)) h = some v)
    (htr : ∀ b, min 512 (hs.countP fun h => binOf c.bins h = b) < 2 ^ (idxFor c.s).bits) (values : List V)
    (hlen : hs.length = values.length) :
    decodeAll o c T out vals hs = some values ↔
      ∀ p ∈ hs.zip values, decode1 o (c.cfg 0) dvs (seg c out (binOf c.bins p.1)) p.1 = some p.2 := by
  have fwd : ∀ values : List V, hs.length = values.length →
      (∀ p ∈ hs.zip values, decode1 o (c.cfg 0) dvs (seg c out (binOf c.bins p.1)) p.1 = some p.2) →
      decodeAll o c T out vals hs = some values := by
    intro values hlen h
    refine decodeAll_spec o c hc dvs hd h1 h0 hB T hT out vals hs values hlen.symm (fun k x hk => ?_) htr
    obtain ⟨hk', rfl⟩ := List.getElem?_eq_some_iff.1 hk
    have hkv : k < values.length := by omega
    rw [List.getElem?_eq_getElem hkv]
    exact h (hs[k], values[k]) (by
      rw [← List.getElem_zip (h := by rw [List.length_zip]; omega)]
      exact List.getElem_mem _)
  refine ⟨fun h => ?_, fwd values hlen⟩
  haveI : Nonempty V := ⟨o.zero⟩
  choose! g hg using hdec
  have hz : ∀ p ∈ hs.zip (hs.map g), decode1 o (c.cfg 0) dvs (seg c out (binOf c.bins p.1)) p.1 = some p.2 := by
    intro p hp
    obtain ⟨i, hi, rfl⟩ := List.getElem_of_mem hp
    rw [List.getElem_zip]
    simp only [List.getElem_map]
    exact hg _ (List.getElem_mem _)
  have := fwd (hs.map g) (by simp) hz
  rw [h, Option.some.injEq] at this
  rw [this]
  exact hz

theorem decode1_some {V : Type} (o : ValOps V) (ho : o.Ok) (c : Cfg) (hc : c.Ok) (hb : c.binary = true → c.ds ≤ 128) {dvs : List Divider}
    (hd : mkDividers c.w c.s = some dvs) (hw : 0 < c.w) (x : Nat → V) (d : Block) : ∃ v, decode1 o c dvs x d = some v := by
  obtain ⟨r, hr, hlen, -, -⟩ := okvs_row_distinct c.t c.w c.s hc.fits dvs hd d
  unfold decode1
  rw [hr, Option.bind_some]
  letI := o.grp ho
  have hne : r ≠ [] := by rintro rfl; simp at hlen; omega
  exact ⟨_, rowVal_eq (mul := o.mul) (b := o.blocks) (c := c) hb (m := ⟨[d], [r]⟩) (x := x) (r := 0) hne⟩

theorem encode_ds {V : Type} {o : ValOps V} {c : Cfg} {st : St} {rn : Option (Rnd V)} {v out0 out : Nat → V}
    (h : encode o c st rn v out0 = some out) (hb : c.binary = true) : c.ds ≤ 128 := by
  unfold encode at h
  obtain ⟨tr, -, h⟩ := Option.bind_eq_some_iff.1 h
  unfold encodeTri backfillBin at h
  split at h
  · cases h
  · rw [hb, if_pos rfl] at h
    simp only at h
    split at h
    · cases h
    · omega

theorem flat_seg {V : Type} (o : ValOps V) {c : BCfg} (A : Fin c.bins → Fin c.total → V) (b : Fin c.bins) {i : Nat} (hi : i < c.total) :
    seg c (flat o A) b i = vec o (A b) i := by
  have hs0 : 0 < c.total := by omega
  have e1 : (b * c.total + i) / c.total = (b : Nat) := by
    rw [Nat.mul_comm, Nat.mul_add_div hs0, Nat.div_eq_of_lt hi, Nat.add_zero]
  have e2 : (b * c.total + i) % c.total = i := by
    rw [Nat.mul_comm, Nat.mul_add_mod, Nat.mod_eq_of_lt hi]
  unfold seg flat
  simp only [e1, e2]
  rw [dif_pos b.2]

open Classical in
/-- The values and the keys fixed, the generator random, no gap rows in any bin: every vector that `decode` maps to the values comes out of
`solve` equally often, every other vector never, with any numbers of threads. `hs` are the hash values of the keys.
Missing: gap rows, with which the randomised `encode` is wrong anyway (`okvs_randomised_wrong`). -/
theorem baxos_uniform_partial {V : Type} [Fintype V] {o : ValOps V} (ho : o.Ok) (c : BCfg) (hc : (c.cfg 0).Ok) (h1 : c.bins ≠ 1)
    (h0 : 0 < c.bins) (T T' : Nat) (hT : 0 < T) (hT' : 0 < T') (hw : ∀ b < c.bins, b + T < 256) (junk : Nat → Nat → Node) (hs : List Block)
    (h32 : ∀ t < T, 32 ≤ (slice hs T t).length)
    (hcap : ∀ t < T, ∀ b, (slice hs T t).countP (fun h => binOf c.bins h = b) ≤ c.cap ∧
      (slice hs T t).countP (fun h => binOf c.bins h = b) < 2 ^ (idxFor c.s).bits)
    (hng : ∀ b < c.bins, NoGaps o c (junk b) (hs.filter fun h => binOf c.bins h = b))
    (htr : ∀ b, min 512 (hs.countP fun h => binOf c.bins h = b) < 2 ^ (idxFor c.s).bits)
    (values : List V) (hlen : hs.length = values.length) (vals : Nat → V) (E : Nat → Nat → Block) (rhs : Nat → V)
    (A : Fin c.bins → Fin c.total → V) :
    (Finset.univ.filter fun ρ : Fin c.bins → Fin c.total → V => ∃ out,
      solve o c T junk (tapes o ρ E rhs) hs values (fun _ => o.zero) = some out ∧
        ∀ (b : Fin c.bins) (i : Fin c.total), out (b * c.total + i) = A b i).card
      = if decodeAll o c T' (flat o A) vals hs = some values then Fintype.card V ^ hs.length else 0 := by
  have hB : c.bins < 256 := by
    by_contra hn
    have := hw 255 (by omega)
    omega
  obtain ⟨dvs, hd, hb, hw2⟩ : ∃ dvs, mkDividers c.w c.s = some dvs ∧ (c.binary = true → (c.cfg 0).ds ≤ 128) ∧ 0 < c.w := by
    obtain ⟨-, dvs, st, tr, rn0, v0, out0, k1, k2, k3, k4, k5⟩ := hng 0 h0
    obtain ⟨m1, -, m2⟩ := new_spec k1
    refine ⟨dvs, m2, fun hb => ?_, by have : 2 ≤ c.w := m1; omega⟩
    have hds := encode_ds k5
    exact hds hb
  have hit : ∀ b, ((hs.zip values).filter fun p => binOf c.bins p.1 = b).map Prod.fst = hs.filter fun h => binOf c.bins h = b :=
    fun b => filter_fst hs values hlen fun h => binOf c.bins h = b
  have iff : ∀ ρ : Fin c.bins → Fin c.total → V, (∃ out,
      solve o c T junk (tapes o ρ E rhs) hs values (fun _ => o.zero) = some out ∧
        ∀ (b : Fin c.bins) (i : Fin c.total), out (b * c.total + i) = A b i) ↔ ∀ b : Fin c.bins, ∃ y,
      solveBin o c (junk b) (some (tape o c.s (ρ b) E rhs)) (fun _ => o.zero) ((hs.zip values).filter fun p => binOf c.bins p.1 = b) = some y ∧
        ∀ i : Fin c.total, y i = A b i := by
    intro ρ
    have htp : ∀ b : Fin c.bins, tapes o ρ E rhs b = some (tape o c.s (ρ b) E rhs) := fun b => by
      unfold tapes; rw [dif_pos b.2]
    constructor
    · rintro ⟨out, e, ha⟩ b
      obtain ⟨y, hy, hy'⟩ := solve_inv h1 e b b.2
      rw [htp] at hy
      exact ⟨y, hy, fun i => by rw [← hy' i i.2, ha]⟩
    · intro h
      choose y hy hy' using h
      obtain ⟨out, e, ha⟩ := baxos_solves o c h1 h0 T hT hw junk (tapes o ρ E rhs) hs values (fun _ => o.zero) hlen h32 hcap
        (fun b => if h : b < c.bins then y ⟨b, h⟩ else fun _ => o.zero) (fun b hb => by
          rw [dif_pos hb, htp ⟨b, hb⟩]; exact hy ⟨b, hb⟩)
      refine ⟨out, e, fun b i => ?_⟩
      rw [ha b b.2 i i.2, dif_pos b.2]
      exact hy' b i
  have hcount := fun b : Fin c.bins => bin_uniform ho c hc (junk := junk b)
    (items := (hs.zip values).filter fun p => binOf c.bins p.1 = b) (by rw [hit]; exact hng b b.2) hd E rhs (A b)
  have hprod : (Finset.univ.filter fun ρ : Fin c.bins → Fin c.total → V => ∀ b : Fin c.bins, ∃ y,
      solveBin o c (junk b) (some (tape o c.s (ρ b) E rhs)) (fun _ => o.zero) ((hs.zip values).filter fun p => binOf c.bins p.1 = b) = some y ∧
        ∀ i : Fin c.total, y i = A b i).card = ∏ b : Fin c.bins, (Finset.univ.filter fun ρ : Fin c.total → V => ∃ y,
      solveBin o c (junk b) (some (tape o c.s ρ E rhs)) (fun _ => o.zero) ((hs.zip values).filter fun p => binOf c.bins p.1 = b) = some y ∧
        ∀ i : Fin c.total, y i = A b i).card := by
    rw [← Fintype.card_piFinset]
    congr 1
    ext ρ
    simp
  have hseg : ∀ h d, decode1 o (c.cfg 0) dvs (seg c (flat o A) (binOf c.bins h)) d
      = decode1 o (c.cfg 0) dvs (vec o (A ⟨binOf c.bins h, Nat.mod_lt _ h0⟩)) d := fun h d =>
    decode1_congr o (c.cfg 0) hc dvs hd _ _ d fun a ha => flat_seg o A ⟨binOf c.bins h, Nat.mod_lt _ h0⟩ ha
  have hdall := decodeAll_iff o c hc hd h1 h0 (by omega) T' hT' (flat o A) vals hs
    (fun h _ => decode1_some o ho (c.cfg 0) hc hb hd hw2 _ h) htr values hlen
  simp only [iff]
  rw [hprod]
  by_cases hall : decodeAll o c T' (flat o A) vals hs = some values
  · rw [if_pos hall]
    rw [hdall] at hall
    rw [Finset.prod_congr rfl fun b _ => (hcount b).trans (if_pos fun p hp => by
      obtain ⟨m1, m2⟩ := List.mem_filter.1 hp
      have m2 : binOf c.bins p.1 = b := by simpa using m2
      have := hall p m1
      rw [hseg] at this
      have hbb : (⟨binOf c.bins p.1, Nat.mod_lt _ h0⟩ : Fin c.bins) = b := Fin.ext m2
      rw [hbb] at this
      exact this)]
    rw [Finset.prod_pow_eq_pow_sum]
    congr 1
    conv => rhs; rw [← sum_countP hs c.bins h0]
    refine Finset.sum_congr rfl fun b _ => ?_
    rw [List.countP_eq_length_filter, ← hit b, List.length_map]
  · rw [if_neg hall]
    rw [hdall] at hall
    push_neg at hall
    obtain ⟨p, hp, hne⟩ := hall
    refine Finset.prod_eq_zero (Finset.mem_univ ⟨binOf c.bins p.1, Nat.mod_lt _ h0⟩) ((hcount _).trans (if_neg fun h => ?_))
    refine hne ?_
    rw [hseg]
    exact h p (List.mem_filter.2 ⟨hp, by simp⟩)

open Classical in
/-- The values and the generator random, no gap rows in any bin: all vectors come out equally often. So the vector tells nothing about the
keys. -/
theorem baxos_oblivious_partial {V : Type} [Fintype V] {o : ValOps V} (ho : o.Ok) (c : BCfg) (hc : (c.cfg 0).Ok) (h1 : c.bins ≠ 1)
    (h0 : 0 < c.bins) (T : Nat) (hT : 0 < T) (hw : ∀ b < c.bins, b + T < 256) (junk : Nat → Nat → Node) (hs : List Block)
    (h32 : ∀ t < T, 32 ≤ (slice hs T t).length)
    (hcap : ∀ t < T, ∀ b, (slice hs T t).countP (fun h => binOf c.bins h = b) ≤ c.cap ∧
      (slice hs T t).countP (fun h => binOf c.bins h = b) < 2 ^ (idxFor c.s).bits)
    (hng : ∀ b < c.bins, NoGaps o c (junk b) (hs.filter fun h => binOf c.bins h = b))
    (htr : ∀ b, min 512 (hs.countP fun h => binOf c.bins h = b) < 2 ^ (idxFor c.s).bits)
    (E : Nat → Nat → Block) (rhs : Nat → V) (A : Fin c.bins → Fin c.total → V) :
    (Finset.univ.filter fun p : (Fin hs.length → V) × (Fin c.bins → Fin c.total → V) => ∃ out,
      solve o c T junk (tapes o p.2 E rhs) hs (List.ofFn p.1) (fun _ => o.zero) = some out ∧
        ∀ (b : Fin c.bins) (i : Fin c.total), out (b * c.total + i) = A b i).card = Fintype.card V ^ hs.length := by
  have hcount := fun v : Fin hs.length → V => baxos_uniform_partial ho c hc h1 h0 T 1 hT Nat.one_pos hw junk hs h32 hcap hng htr
    (List.ofFn v) (by simp) (fun _ => o.zero) E rhs A
  obtain ⟨w, hw'⟩ : ∃ w : Fin hs.length → V, ∀ v : Fin hs.length → V,
      decodeAll o c 1 (flat o A) (fun _ => o.zero) hs = some (List.ofFn v) ↔ v = w := by
    have hB : c.bins < 256 := by
      by_contra hn
      have := hw 255 (by omega)
      omega
    obtain ⟨-, dvs, st, tr, rn0, v0, out0, k1, k2, k3, k4, k5⟩ := hng 0 h0
    obtain ⟨m1, -, hd⟩ := new_spec k1
    have hw2 : 0 < c.w := by have : 2 ≤ c.w := m1; omega
    have hds := encode_ds k5
    have hdec := fun h : Block => decode1_some o ho (c.cfg 0) hc (fun hb => hds hb) hd hw2 (seg c (flat o A) (binOf c.bins h)) h
    choose g hg using hdec
    refine ⟨fun i => g hs[i], fun v => ?_⟩
    rw [decodeAll_iff o c hc hd h1 h0 (by omega) 1 Nat.one_pos (flat o A) _ hs (fun h _ => ⟨_, hg h⟩) htr _ (by simp)]
    constructor
    · intro h
      funext i
      have := h (hs[i], v i) (by
        have hz : (i : Nat) < (hs.zip (List.ofFn v)).length := by simp
        have e : (hs.zip (List.ofFn v))[(i : Nat)] = (hs[i], v i) := by simp
        rw [← e]
        exact List.getElem_mem _)
      simp only [hg, Option.some.injEq] at this
      exact this.symm
    · rintro rfl p hp
      obtain ⟨i, hi, rfl⟩ := List.getElem_of_mem hp
      simp [hg]
  have hsum : (Finset.univ.filter fun p : (Fin hs.length → V) × (Fin c.bins → Fin c.total → V) => ∃ out,
      solve o c T junk (tapes o p.2 E rhs) hs (List.ofFn p.1) (fun _ => o.zero) = some out ∧
        ∀ (b : Fin c.bins) (i : Fin c.total), out (b * c.total + i) = A b i).card = ∑ v : Fin hs.length → V,
      (Finset.univ.filter fun ρ : Fin c.bins → Fin c.total → V => ∃ out,
      solve o c T junk (tapes o ρ E rhs) hs (List.ofFn v) (fun _ => o.zero) = some out ∧
        ∀ (b : Fin c.bins) (i : Fin c.total), out (b * c.total + i) = A b i).card := by
    simp only [Finset.card_filter]
    exact Fintype.sum_prod_type _
  rw [hsum, Finset.sum_congr rfl (fun v _ => hcount v)]
  simp only [hw']
  rw [Finset.sum_ite_eq' Finset.univ w]
  simp

open Classical in
/-- `baxos_uniform_partial` for a single bin. The buffer of the caller does not matter. -/
theorem baxos_uniform_one_partial {V : Type} [Fintype V] {o : ValOps V} (ho : o.Ok) (c : BCfg) (hc : (c.cfg 0).Ok) (h1 : c.bins = 1)
    (T T' : Nat) (junk : Nat → Nat → Node) (hs : List Block) (hp : hs.length = c.perBin) (hng : NoGaps o c (junk 0) hs)
    (values : List V) (hlen : hs.length = values.length) (out0 vals : Nat → V) (E : Nat → Nat → Block) (rhs : Nat → V)
    (A : Fin c.total → V) :
    (Finset.univ.filter fun ρ : Fin c.total → V => ∃ out,
      solve o c T junk (fun _ => some (tape o c.s ρ E rhs)) hs values out0 = some out ∧ ∀ i : Fin c.total, out i = A i).card
      = if decodeAll o c T' (vec o A) vals hs = some values then Fintype.card V ^ hs.length else 0 := by
  obtain ⟨-, dvs, st, tr, rn0, v0, w0, k1, k2, k3, k4, k5⟩ := hng
  obtain ⟨-, hlt, hd⟩ := new_spec k1
  have hu := okvs_uniform_hash (V := V) ho k1 ⟨hc.fits, hc.small⟩ k2 k3 k4 k5 (values := values) hlen.symm E rhs A
  have hsol : ∀ ρ : Fin c.total → V, solve o c T junk (fun _ => some (tape o c.s ρ E rhs)) hs values out0 =
      encode o (c.cfg hs.length) st (some (tape o (c.cfg hs.length).s ρ E rhs)) (fun r => values.getD r o.zero) (fun _ => o.zero) := by
    intro ρ
    unfold solve
    rw [if_neg (by omega), if_pos h1, if_neg (by omega)]
    unfold solveBin
    have hzl : (hs.zip values).length = hs.length := by rw [List.length_zip]; omega
    rw [List.map_fst_zip (by omega), List.map_snd_zip (by omega), hzl, if_neg (by omega), k1, Option.bind_some, k2, Option.bind_some]
    rfl
  have hlt' : hs.length < 2 ^ (idxFor c.s).bits := hlt
  have hdec : ∀ r : List V, decode o (c.cfg hs.length) dvs (vec o A) hs = some r → r.length = hs.length := by
    intro r h
    rw [okvs_decode_list o hd ⟨hc.fits, hc.small⟩, show hs.length % 2 ^ (c.cfg hs.length).t.bits = hs.length from Nat.mod_eq_of_lt hlt',
      List.take_length, Nat.sub_self, List.replicate_zero] at h
    obtain ⟨r', hr, h2⟩ := Option.map_eq_some_iff.1 h
    rw [List.append_nil] at h2
    subst h2
    exact (mapM_inv _ _ _ hr).1
  have hall : decodeAll o c T' (vec o A) vals hs = decode o (c.cfg hs.length) dvs (vec o A) hs := by
    unfold decodeAll
    rw [if_pos h1, ← hp, k1]
    simp only [Option.bind_some]
    cases h : decode o (c.cfg hs.length) dvs (vec o A) hs with
    | none => rfl
    | some r =>
      have hr := hdec r h
      simp only [Option.map_some, Option.some.injEq]
      rw [Nat.mod_eq_of_lt hlt']
      apply List.ext_getElem (by simp [hr])
      intro i h2 h3
      rw [List.getElem_map, List.getElem_range, if_pos (by omega), List.getD_eq_getElem?_getD, List.getElem?_eq_getElem h3]
      rfl
  simp only [hsol]
  refine hu.trans ?_
  rw [hall]
  by_cases h : decode o (c.cfg hs.length) dvs (vec o A) hs = some values
  · rw [if_pos h]
    exact if_pos h
  · rw [if_neg h]
    exact if_neg h

/-- So each vector is made from some values by some run of the generator. -/
theorem baxos_reaches {V : Type} [Fintype V] {o : ValOps V} (ho : o.Ok) (c : BCfg) (hc : (c.cfg 0).Ok) (h1 : c.bins ≠ 1)
    (h0 : 0 < c.bins) (T : Nat) (hT : 0 < T) (hw : ∀ b < c.bins, b + T < 256) (junk : Nat → Nat → Node) (hs : List Block)
    (h32 : ∀ t < T, 32 ≤ (slice hs T t).length)
    (hcap : ∀ t < T, ∀ b, (slice hs T t).countP (fun h => binOf c.bins h = b) ≤ c.cap ∧
      (slice hs T t).countP (fun h => binOf c.bins h = b) < 2 ^ (idxFor c.s).bits)
    (hng : ∀ b < c.bins, NoGaps o c (junk b) (hs.filter fun h => binOf c.bins h = b))
    (htr : ∀ b, min 512 (hs.countP fun h => binOf c.bins h = b) < 2 ^ (idxFor c.s).bits)
    (E : Nat → Nat → Block) (rhs : Nat → V) (A : Fin c.bins → Fin c.total → V) :
    ∃ (values : List V) (ρ : Fin c.bins → Fin c.total → V) (out : Nat → V),
      solve o c T junk (tapes o ρ E rhs) hs values (fun _ => o.zero) = some out ∧
        ∀ (b : Fin c.bins) (i : Fin c.total), out (b * c.total + i) = A b i := by
  classical
  have h := baxos_oblivious_partial ho c hc h1 h0 T hT hw junk hs h32 hcap hng htr E rhs A
  haveI : Nonempty V := ⟨o.zero⟩
  have hp : 0 < Fintype.card V ^ hs.length := pow_pos Fintype.card_pos _
  rw [← h, Finset.card_pos] at hp
  obtain ⟨p, hp⟩ := hp
  rw [Finset.mem_filter] at hp
  obtain ⟨out, e1, e2⟩ := hp.2
  exact ⟨_, p.2, out, e1, e2⟩

/-- Without a generator the columns that no key of the bin hits keep what the buffer of the caller held, whatever the values are. -/
theorem baxos_plain_untouched {V : Type} {o : ValOps V} (c : BCfg) (hc : (c.cfg 0).Ok) (h1 : c.bins ≠ 1) {T : Nat}
    {junk : Nat → Nat → Node} {hs : List Block} {values : List V} (hlen : hs.length = values.length) {out0 out : Nat → V}
    (e : solve o c T junk (fun _ => none) hs values out0 = some out) {dvs : List Divider} (hd : mkDividers c.w c.s = some dvs)
    {b a : Nat} (hb : b < c.bins) (ha : a < c.s)
    (hfree : ∀ d ∈ hs, binOf c.bins d = b → ∀ row, sparse1 (idxFor c.s) c.w c.s dvs d = some row → a ∉ row) :
    out (b * c.total + a) = out0 (b * c.total + a) := by
  obtain ⟨y, hy, hy'⟩ := solve_inv h1 e b hb
  rw [hy' a (by unfold BCfg.total; omega)]
  have hit := filter_fst hs values hlen fun h => binOf c.bins h = b
  unfold solveBin at hy
  split at hy
  · cases hy
  obtain ⟨dvs', k1, hy2⟩ := Option.bind_eq_some_iff.1 hy
  obtain ⟨st, k2, hy3⟩ := Option.bind_eq_some_iff.1 hy2
  obtain ⟨-, -, hd'⟩ := new_spec k1
  obtain rfl : dvs = dvs' := Option.some.inj (hd.symm.trans hd')
  refine okvs_plain_untouched k1 ⟨hc.fits, hc.small⟩ k2 hy3 ha (fun d hdm row hr => ?_)
  rw [hit] at hdm
  obtain ⟨m1, m2⟩ := List.mem_filter.1 hdm
  exact hfree d m1 (by simpa using m2) row hr

/-- Hash values of 32 keys, two for each of 16 bins. -/
def flatHash : List Block := (List.range 32).map fun i =>
  BitVec.ofNat 128 ((i + 1) * (7920 * 2 ^ 96 + 7920 * 2 ^ 70 + 7920 * 2 ^ 40 + 126720000) + i)

noncomputable instance blockFintype : Fintype Block := Fintype.ofInjective BitVec.toFin fun _ _ h => BitVec.eq_of_toFin_eq h

/-- The numbers of items and of gap rows of bin `b` of `flatHash`. -/
def binGaps (b : Nat) : Option (Nat × Nat) :=
  let l := flatHash.filter fun h => binOf binsCfg.bins h = b
  (new (binsCfg.cfg l.length)).bind fun dvs => (setKeys (binsCfg.cfg l.length) dvs (fun _ => ⟨0, none, none⟩) l).bind fun st =>
    (triangulate (binsCfg.cfg l.length) st).bind fun tr =>
      (encode blockOps (binsCfg.cfg l.length) st (some smallRnd) (fun _ => 0#128) fun _ => 0#128).map fun _ => (l.length, tr.gapR.length)

set_option maxRecDepth 100000 in
theorem binGaps_eq : ∀ b < 16, binGaps b = some (2, 0) := by decide +kernel

theorem flatHash_noGaps : ∀ b < binsCfg.bins, NoGaps blockOps binsCfg (fun _ => ⟨0, none, none⟩) (flatHash.filter fun h => binOf binsCfg.bins h = b) := by
  intro b hb
  have h := binGaps_eq b hb
  unfold binGaps at h
  obtain ⟨dvs, h1, h⟩ := Option.bind_eq_some_iff.1 h
  obtain ⟨st, h2, h⟩ := Option.bind_eq_some_iff.1 h
  obtain ⟨tr, h3, h⟩ := Option.bind_eq_some_iff.1 h
  obtain ⟨out, h4, h⟩ := Option.map_eq_some_iff.1 h
  obtain ⟨k1, k2⟩ := Prod.mk.inj h
  exact ⟨by rw [k1]; decide, dvs, st, tr, smallRnd, _, out, h1, h2, h3, List.length_eq_zero_iff.1 k2, h4⟩

set_option maxRecDepth 100000 in
theorem flatHash_counts : ∀ b < 16, flatHash.countP (fun h => binOf 16 h = b) = 2 := by decide +kernel

/-- The hypotheses of `baxos_uniform_partial` and `baxos_oblivious_partial` are met by 32 keys in 16 bins and one thread. -/
theorem flatHash_meets : (binsCfg.cfg 0).Ok ∧ binsCfg.bins ≠ 1 ∧ 0 < binsCfg.bins ∧ (∀ b < binsCfg.bins, b + 1 < 256) ∧
    (∀ t < 1, 32 ≤ (slice flatHash 1 t).length) ∧
    (∀ t < 1, ∀ b, (slice flatHash 1 t).countP (fun h => binOf binsCfg.bins h = b) ≤ binsCfg.cap ∧
      (slice flatHash 1 t).countP (fun h => binOf binsCfg.bins h = b) < 2 ^ (idxFor binsCfg.s).bits) ∧
    (∀ b < binsCfg.bins, NoGaps blockOps binsCfg (fun _ => ⟨0, none, none⟩) (flatHash.filter fun h => binOf binsCfg.bins h = b)) ∧
    ∀ b, min 512 (flatHash.countP fun h => binOf binsCfg.bins h = b) < 2 ^ (idxFor binsCfg.s).bits := by
  have hbits : 2 ^ (idxFor binsCfg.s).bits = 256 := by decide
  have hlen : flatHash.length = 32 := by rw [flatHash, List.length_map, List.length_range]
  have hsl : slice flatHash 1 0 = flatHash := by
    unfold slice cut
    rw [hlen]
    exact List.take_of_length_le (by rw [List.length_drop, hlen])
  have hcnt : ∀ b, flatHash.countP (fun h => binOf binsCfg.bins h = b) ≤ 2 := by
    intro b
    by_cases hb : b < 16
    · exact (flatHash_counts b hb).le
    · have : flatHash.countP (fun h => binOf binsCfg.bins h = b) = 0 := List.countP_eq_zero.2 fun h _ he => by
        have h1 : binOf binsCfg.bins h = b := by simpa using he
        have h2 : binOf binsCfg.bins h < 16 := Nat.mod_lt _ (by decide)
        omega
      omega
  refine ⟨⟨⟨by decide, by decide, by decide⟩, by decide⟩, by decide, by decide, fun b hb => ?_, fun t ht => ?_, fun t ht b => ?_,
    flatHash_noGaps, fun b => ?_⟩
  · have : b < 16 := hb
    omega
  · obtain rfl : t = 0 := by omega
    rw [hsl, hlen]
  · obtain rfl : t = 0 := by omega
    rw [hsl, hbits]
    have h6 : binsCfg.cap = 6 := rfl
    have := hcnt b
    omega
  · have := hcnt b
    omega

/-- `baxos_reaches` for it. -/
example (E : Nat → Nat → Block) (rhs : Nat → Block) (A : Fin binsCfg.bins → Fin binsCfg.total → Block) :
    ∃ (values : List Block) (ρ : Fin binsCfg.bins → Fin binsCfg.total → Block) (out : Nat → Block),
      solve blockOps binsCfg 1 (fun _ _ => ⟨0, none, none⟩) (tapes blockOps ρ E rhs) flatHash values (fun _ => blockOps.zero) = some out ∧
        ∀ (b : Fin binsCfg.bins) (i : Fin binsCfg.total), out (b * binsCfg.total + i) = A b i := by
  obtain ⟨k1, k2, k3, k4, k5, k6, k7, k8⟩ := flatHash_meets
  exact baxos_reaches blockOps_ok binsCfg k1 k2 k3 1 Nat.one_pos k4 (fun _ _ => ⟨0, none, none⟩) flatHash k5 k6 k7 k8 E rhs A

/-- Two keys in a single bin. -/
def oneCfg : BCfg := ⟨true, 2, 8, 1, 4, 1, 2, 2⟩

/-- The hypotheses of `baxos_uniform_one_partial` are met by the two keys of bin 0 of `flatHash`. -/
example : (oneCfg.cfg 0).Ok ∧ oneCfg.bins = 1 ∧ (flatHash.filter fun h => binOf 16 h = 0).length = oneCfg.perBin ∧
    NoGaps blockOps oneCfg (fun _ => ⟨0, none, none⟩) (flatHash.filter fun h => binOf 16 h = 0) := by
  have hl : (flatHash.filter fun h => binOf 16 h = 0).length = 2 := by
    rw [← List.countP_eq_length_filter]
    exact flatHash_counts 0 (by decide)
  obtain ⟨-, h⟩ := flatHash_noGaps 0 (by decide)
  exact ⟨⟨⟨by decide, by decide, by decide⟩, by decide⟩, rfl, hl, by rw [hl]; decide, h⟩

/-- `baxos_plain_untouched` for the run `binsRun_eq`: column 5 of bin 0 is hit by neither of its two keys. -/
example : ((mkDividers binsCfg.w binsCfg.s).map fun dvs =>
    ((binsHash.filter fun h => binOf binsCfg.bins h = 0).map (sparse1 (idxFor binsCfg.s) binsCfg.w binsCfg.s dvs)).all fun r => r.all fun l => !l.contains 5)
    = some true := by decide +kernel

end Kunlun.Baxos
