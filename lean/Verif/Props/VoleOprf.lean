import Verif.Model.VoleOprf
import Verif.Props.Vole
import Verif.Props.Baxos
import Verif.Props.OteOprf
/-!
C54, C79: the OPRF from VOLE and OKVS.
-/

namespace Kunlun.VOLEOPRF
open Kunlun Kunlun.Proto Kunlun.OKVS Kunlun.Baxos Kunlun.VOLE Kunlun.FastDiv

variable {G : Type} [AddCommGroup G]

/-! ### Loops and conversions -/

theorem steps_eq (n fuel i : Nat) (h : n < i + fuel) : steps n fuel i = List.range' i (n - i) := by
  induction fuel using Nat.strong_induction_on generalizing i with
  | _ fuel ih =>
    cases fuel with
    | zero => rw [show n - i = 0 by omega]; rfl
    | succ fuel =>
      unfold steps
      split
      · rw [ih fuel (by omega) (i + 8) (by omega)]
        obtain ⟨k, hk⟩ : ∃ k, n - i = k + 8 := ⟨n - i - 8, by omega⟩
        rw [hk, show n - (i + 8) = k by omega]
        simp only [List.range'_succ]
      · split
        · rw [ih fuel (by omega) (i + 1) (by omega)]
          obtain ⟨k, hk⟩ : ∃ k, n - i = k + 1 := ⟨n - i - 1, by omega⟩
          rw [hk, show n - (i + 1) = k by omega, List.range'_succ]
        · rw [show n - i = 0 by omega]; rfl

theorem fold_range (f : Nat → Block → Option Block) (g : Nat → Block → Block) (k i : Nat) (l : List Block) (hl : i + k ≤ l.length)
    (hf : ∀ j < l.length, ∀ x, f j x = some (g j x)) :
    ∃ l', (List.range' i k).foldlM (fun l i => (l[i]?).bind fun x => (f i x).map fun y => l.set i y) l = some l' ∧ l'.length = l.length ∧
      ∀ j : Nat, l'[j]? = if i ≤ j ∧ j < i + k then (l[j]?).map (g j) else l[j]? := by
  induction k generalizing i l with
  | zero => exact ⟨l, rfl, rfl, fun j => by rw [if_neg (by omega)]⟩
  | succ k ih =>
    obtain ⟨l', h1, h2, h3⟩ := ih (i + 1) (l.set i (g i (l.getD i 0))) (by rw [List.length_set]; omega) (by rw [List.length_set]; exact hf)
    refine ⟨l', ?_, by rw [h2, List.length_set], fun j => ?_⟩
    · rw [List.range'_succ, List.foldlM_cons, getD_get l i 0 (by omega), Option.bind_some, hf i (by omega)]
      exact h1
    · rw [h3 j]
      by_cases hj : j = i
      · subst hj
        rw [if_neg (by omega), if_pos (by omega), List.getElem?_set_self (by omega), getD_get l j 0 (by omega)]
        rfl
      · rw [List.getElem?_set_ne (by omega)]
        by_cases hr : i ≤ j ∧ j < i + (k + 1)
        · rw [if_pos hr, if_pos (by omega)]
        · rw [if_neg hr, if_neg (by omega)]

/-- The unrolled loop handles each position once. -/
theorem loop8_spec (f : Nat → Block → Option Block) (g : Nat → Block → Block) (l : List Block) (hf : ∀ j < l.length, ∀ x, f j x = some (g j x)) :
    loop8 l.length f l = some ((List.range l.length).map fun i => g i (l.getD i 0)) := by
  obtain ⟨l', h1, h2, h3⟩ := fold_range f g l.length 0 l (by omega) hf
  unfold loop8
  rw [steps_eq _ _ _ (by omega), Nat.sub_zero, h1, Option.some.injEq]
  apply List.ext_getElem?
  intro j
  rw [h3 j]
  by_cases hj : j < l.length
  · rw [if_pos (by omega), getD_get l j 0 hj, List.getElem?_map, List.getElem?_range hj]; rfl
  · rw [if_neg (by omega), List.getElem?_eq_none (by omega), List.getElem?_eq_none (by simp; omega)]

theorem mask_spec (A P : List Block) (h : A.length = P.length) :
    mask P.length A P = some ((List.range P.length).map fun i => P.getD i 0 ^^^ A.getD i 0) :=
  loop8_spec _ (fun i x => x ^^^ A.getD i 0) P fun j hj x => by rw [getD_get A j 0 (by omega)]; rfl

theorem unmask_spec (delta : Block) (A K : List Block) (h : A.length = K.length) :
    unmask K.length delta A K = some ((List.range K.length).map fun i => K.getD i 0 ^^^ GF.mul delta (A.getD i 0)) :=
  loop8_spec _ (fun i x => x ^^^ GF.mul delta (A.getD i 0)) K fun j hj x => by rw [getD_get A j 0 (by omega)]; rfl

/-- The key survives the conversion to bytes and back. -/
theorem byteToBlock_blockToByte (l : List Block) : byteToBlock (blockToByte l) = l := by
  have hb : ∀ b ∈ l.map Block.toBytes, b.length = 16 := by
    intro b h
    obtain ⟨x, -, rfl⟩ := List.mem_map.1 h
    exact Block.toBytes_length x
  have hl : (blockToByte l).length = l.length * 16 := by
    unfold blockToByte
    rw [OTEOPRF.flatten_length _ 16 hb, List.length_map]
  unfold byteToBlock
  rw [hl, Nat.mul_div_cancel _ (by omega)]
  apply List.ext_getElem (by simp)
  intro i h1 h2
  rw [List.getElem_map, List.getElem_range]
  unfold blockToByte
  have h := OTEOPRF.flatten_drop_take (l.map Block.toBytes) 16 i hb (by simpa using h2)
  rw [h]
  simp [List.getD, h2, Block.ofBytes_toBytes]

/-! ### Decoding as a function -/

/-- What a hash value decodes to in a vector. -/
def val {V : Type} (o : ValOps V) (c : BCfg) (dvs : List Divider) (out : Nat → V) (h : Block) : V :=
  (decode1 o (c.cfg 0) dvs (seg c out (binOf c.bins h)) h).getD o.zero

theorem val_spec {V : Type} (o : ValOps V) {c : BCfg} (hbin : c.binary = false) (hc : (c.cfg 0).Ok) {dvs : List Divider}
    (hd : mkDividers c.w c.s = some dvs) (hw : 0 < c.w) (out : Nat → V) (h : Block) :
    decode1 o (c.cfg 0) dvs (seg c out (binOf c.bins h)) h = some (val o c dvs out h) := by
  unfold val
  obtain ⟨r, hr, hlen, -⟩ := okvs_row_distinct (c.cfg 0).t c.w c.s hc.fits dvs hd h
  have : ∃ v, decode1 o (c.cfg 0) dvs (seg c out (binOf c.bins h)) h = some v := by
    unfold decode1
    show ∃ v, (sparse1 (c.cfg 0).t c.w c.s dvs h).bind _ = some v
    rw [hr]
    cases r with
    | nil => simp at hlen; omega
    | cons c0 cs =>
      rw [Option.bind_some, rowVal, if_neg (by show ¬ c.binary = true; rw [hbin]; simp)]
      exact ⟨_, rfl⟩
  obtain ⟨v, hv⟩ := this
  rw [hv]; rfl

/-- The number of keys decoded at a time fits the index type. -/
def Fit (c : BCfg) (hs : List Block) : Prop :=
  if c.bins = 1 then hs.length < 2 ^ (idxFor c.s).bits else ∀ b, min 512 (hs.countP fun h => binOf c.bins h = b) < 2 ^ (idxFor c.s).bits

/-- `decode` of a list, for any vector. -/
theorem decodeAll_map {V : Type} (o : ValOps V) {c : BCfg} (hbin : c.binary = false) (hc : (c.cfg 0).Ok) {dvs : List Divider}
    (hd : mkDividers c.w c.s = some dvs) (hw : 0 < c.w) (h0 : 0 < c.bins) (hB : c.bins < 2 ^ 64) (hn : c.bins = 1 → new (c.cfg c.perBin) = some dvs)
    (T : Nat) (hT : 0 < T) (out vals : Nat → V) (hs : List Block) (hf : Fit c hs) :
    decodeAll o c T out vals hs = some (hs.map (val o c dvs out)) := by
  have hv := val_spec o hbin hc hd hw out
  unfold Fit at hf
  by_cases h1 : c.bins = 1
  · rw [if_pos h1] at hf
    have hseg : ∀ h, seg c out (binOf c.bins h) = out := by
      intro h
      unfold binOf seg
      rw [h1, Nat.mod_one]
      funext i
      rw [Nat.zero_mul, Nat.zero_add]
    unfold decodeAll
    rw [if_pos h1, hn h1, Option.bind_some, okvs_decode_list o hd (c := c.cfg c.perBin) ⟨hc.fits, hc.small⟩]
    have hb : (c.cfg c.perBin).t.bits = (idxFor c.s).bits := rfl
    rw [hb, Nat.mod_eq_of_lt hf, List.take_length, mapM_eq_map _ (val o c dvs out) hs (fun h _ => by
      have := hv h
      rw [hseg] at this
      exact this)]
    simp only [Option.map_some, Option.some.injEq]
    apply List.ext_getElem (by simp)
    intro i h2 h3
    rw [List.length_map] at h3
    rw [List.getElem_map, List.getElem_range, if_pos h3, List.getD_eq_getElem?_getD, List.getElem?_append_left (by simpa using h3)]
    simp [h3]
  · rw [if_neg h1] at hf
    refine decodeAll_spec o c hc dvs hd h1 h0 hB T hT out vals hs _ (by simp) ?_ hf
    intro k h hk
    rw [hv h, List.getElem?_map, hk]
    rfl

theorem val_congr {V : Type} (o : ValOps V) {c : BCfg} (hc : (c.cfg 0).Ok) {dvs : List Divider} (hd : mkDividers c.w c.s = some dvs) (h0 : 0 < c.bins)
    (x y : Nat → V) (h : ∀ i < size c, x i = y i) (d : Block) : val o c dvs x d = val o c dvs y d := by
  unfold val
  rw [decode1_congr o (c.cfg 0) hc dvs hd _ (seg c y (binOf c.bins d))]
  intro a ha
  apply h
  have hb : binOf c.bins d < c.bins := Nat.mod_lt _ h0
  have ha' : a < c.total := ha
  have := Nat.mul_le_mul_right c.total (Nat.succ_le_of_lt hb)
  unfold size
  rw [Nat.succ_mul] at this
  omega

theorem solve_facts {V : Type} {o : ValOps V} {c : BCfg} {T : Nat} {junk : Nat → Nat → OKVS.Node} {rnd : Nat → Option (Rnd V)} {hs : List Block}
    {values : List V} {out P : Nat → V} (e : solve o c T junk rnd hs values out = some P) :
    hs.length = values.length ∧ 0 < c.bins ∧ c.bins < 2 ^ 64 ∧ 2 ≤ c.w ∧ ∃ dvs, mkDividers c.w c.s = some dvs ∧
      (c.bins = 1 → new (c.cfg c.perBin) = some dvs ∧ hs.length < 2 ^ (idxFor c.s).bits) := by
  have hbin : ∀ j r f items y, solveBin o c j r f items = some y → ∃ dvs, new (c.cfg items.length) = some dvs := by
    intro j r f items y h
    unfold solveBin at h
    split at h
    · cases h
    obtain ⟨dvs, h1, -⟩ := Option.bind_eq_some_iff.1 h
    exact ⟨dvs, h1⟩
  unfold solve at e
  split at e
  · cases e
  rename_i hlen
  rw [not_not] at hlen
  refine ⟨hlen, ?_⟩
  split at e
  · rename_i h1
    split at e
    · cases e
    rename_i hp
    rw [not_not] at hp
    obtain ⟨dvs, h2⟩ := hbin _ _ _ _ _ e
    rw [List.length_zip, ← hlen, Nat.min_self, hp] at h2
    obtain ⟨hw, hlt, hd⟩ := new_spec h2
    exact ⟨by omega, by omega, hw, dvs, hd, fun _ => ⟨h2, by rw [hp]; exact hlt⟩⟩
  · rename_i h1
    split at e
    · cases e
    split at e
    · cases e
    rename_i hany
    cases hdv : genDivider (BitVec.ofNat 64 c.bins) with
    | thrown => rw [hdv] at e; cases e
    | fault => rw [hdv] at e; cases e
    | ok dv =>
      rw [hdv] at e
      simp only at e
      have h0 : 0 < c.bins := by
        rcases Nat.eq_zero_or_pos c.bins with hz | hz
        · rw [hz] at hdv
          cases hdv
        · exact hz
      have hB : c.bins < 256 := by
        by_contra hn
        have hT : T ≠ 0 := by assumption
        exact hany (List.any_eq_true.2 ⟨255, List.mem_range.2 (by omega), by simp; omega⟩)
      split at e
      · cases e
      split at e
      · cases e
      rename_i outs houts
      obtain ⟨y, hy, -⟩ := (mapM_inv _ _ _ houts).2 0 (by simpa using h0)
      obtain ⟨dvs, h2⟩ := hbin _ _ _ _ _ hy
      obtain ⟨hw, -, hd⟩ := new_spec h2
      exact ⟨h0, by omega, hw, dvs, hd, fun h => absurd h h1⟩

/-! ### Zero values -/

section zero
variable {V : Type} {o : ValOps V} (ho : o.Ok)
include ho

theorem xor_zz : o.xor o.zero o.zero = o.zero := ho.zero _

theorem mul_z (a : Block) : o.mul o.zero a = o.zero := by
  have h := ho.mul_add o.zero o.zero a
  rw [xor_zz ho, ho.self] at h
  exact h

theorem foldl_const {α β : Type} (f : β → α → β) (z : β) (l : List α) (h : ∀ a ∈ l, f z a = z) : l.foldl f z = z := by
  induction l with
  | nil => rfl
  | cons a l ih => rw [List.foldl_cons, h a (by simp), ih fun a ha => h a (by simp [ha])]

theorem triSolve_zero (rhs : (Nat → V) → Nat → V) (h : ∀ r, rhs (fun _ => o.zero) r = o.zero) (l : List (Nat × Nat)) :
    triSolve rhs l (fun _ => o.zero) = fun _ => o.zero := by
  induction l with
  | nil => rfl
  | cons p l ih =>
    obtain ⟨r, c⟩ := p
    unfold triSolve
    rw [h, Function.update_eq_self_iff.2 rfl, ih]

theorem spSum_zero (row : List Nat) : spSum o (fun _ => o.zero) o.zero row = o.zero := foldl_const ho _ _ _ fun _ _ => xor_zz ho

theorem addAt_zero (s : Nat) (pos : Nat → Nat) (x : Nat → V) (hx : ∀ i, x i = o.zero) (g : Nat) :
    addAt o s pos x g (fun _ => o.zero) = fun _ => o.zero :=
  foldl_const ho _ _ _ fun i _ => by rw [hx, xor_zz ho, Function.update_eq_self_iff.2 rfl]

theorem getD_zero (l : List V) (h : ∀ x ∈ l, x = o.zero) (i : Nat) : l.getD i o.zero = o.zero := by
  by_cases hi : i < l.length
  · rw [List.getD_eq_getElem?_getD, List.getElem?_eq_getElem hi]
    exact h _ (List.getElem_mem hi)
  · rw [List.getD_eq_getElem?_getD, List.getElem?_eq_none (by omega)]; rfl

/-- `encode` of zeros without random filling gives zeros, in both dense forms. -/
theorem encode_zero {c : Cfg} {st : St} {out : Nat → V} (h : encode o c st none (fun _ => o.zero) (fun _ => o.zero) = some out) :
    out = fun _ => o.zero := by
  have hg : ∀ r fc, gapVal o (fun _ => o.zero) r fc = o.zero := fun r fc => foldl_const ho _ _ _ fun _ _ => xor_zz ho
  unfold encode at h
  obtain ⟨tr, -, h⟩ := Option.bind_eq_some_iff.1 h
  unfold encodeTri freeCols at h
  simp only at h
  split at h
  · unfold backfillBin at h
    simp only at h
    split at h
    · cases h
    split at h
    · cases h
    rename_i gc out1 hout
    have hz : out1 = fun _ => o.zero := by
      split at hout
      · unfold gapsBin at hout
        split at hout
        · cases hout
        split at hout
        · cases hout
        split at hout
        · cases hout
        simp only at hout
        split at hout
        · cases hout
        simp only [Option.some.injEq, Prod.mk.injEq, randFill, moveRhs] at hout
        rw [← hout.2]
        refine addAt_zero ho _ _ _ (fun i => ?_) _
        refine foldl_const ho _ _ _ fun j _ => ?_
        split
        · rw [getD_zero ho _ (by simp [hg]), xor_zz ho]
        · rfl
      · simp [randFill] at hout
        exact hout.2.symm
    rw [hz] at h
    split at h
    · cases h
    simp only [Option.some.injEq] at h
    rw [← h]
    refine triSolve_zero ho _ (fun r => ?_) _
    rw [spSum_zero ho]
    exact foldl_const ho _ _ _ fun j _ => by split <;> simp [xor_zz ho]
  · unfold backfillGf at h
    simp only at h
    split at h
    · cases h
    rename_i out1 hout
    have hz : out1 = fun _ => o.zero := by
      split at hout
      · unfold gapsGf at hout
        split at hout
        · cases hout
        split at hout
        · cases hout
        simp only at hout
        split at hout
        · simp only [Option.some.injEq] at hout
          rw [← hout]
          refine addAt_zero ho _ _ _ (fun i => ?_) _
          refine foldl_const ho _ _ _ fun j _ => ?_
          rw [getD_zero ho, mul_z ho, xor_zz ho]
          intro x hx
          obtain ⟨k, -, rfl⟩ := List.mem_map.1 hx
          unfold gfRhs
          split <;> simp [hg]
        · cases hout
      · simp [randFill] at hout
        exact hout.symm
    rw [hz] at h
    split at h
    · cases h
    simp only [Option.some.injEq] at h
    rw [← h]
    refine triSolve_zero ho _ (fun r => ?_) _
    simp only [spSum_zero ho]
    split
    · exact foldl_const ho _ _ _ fun j _ => by rw [mul_z ho, xor_zz ho]
    · rfl

theorem solveBin_zero {c : BCfg} {junk : Nat → OKVS.Node} {items : List (Block × V)} (hi : ∀ p ∈ items, p.2 = o.zero) {out : Nat → V}
    (h : solveBin o c junk none (fun _ => o.zero) items = some out) : out = fun _ => o.zero := by
  unfold solveBin at h
  split at h
  · cases h
  obtain ⟨dvs, -, h⟩ := Option.bind_eq_some_iff.1 h
  obtain ⟨st, -, h⟩ := Option.bind_eq_some_iff.1 h
  have : (fun r => (items.map Prod.snd).getD r o.zero) = fun _ => o.zero := funext fun r => getD_zero ho _ (fun x hx => by
    obtain ⟨p, hp, rfl⟩ := List.mem_map.1 hx
    exact hi p hp) r
  rw [this] at h
  exact encode_zero ho h

/-- `solve` of zeros without random filling gives zeros. -/
theorem solve_zero (c : BCfg) {T : Nat} {junk : Nat → Nat → OKVS.Node} {hs : List Block} {n : Nat} {out : Nat → V}
    (e : solve o c T junk (fun _ => none) hs (List.replicate n o.zero) (fun _ => o.zero) = some out) : out = fun _ => o.zero := by
  have hz : ∀ p ∈ hs.zip (List.replicate n o.zero), p.2 = o.zero := fun p hp => List.eq_of_mem_replicate (List.of_mem_zip hp).2
  obtain ⟨-, h0, hB, -⟩ := solve_facts e
  unfold solve at e
  split at e
  · cases e
  split at e
  · split at e
    · cases e
    exact solveBin_zero ho hz e
  · split at e
    · cases e
    rename_i hT
    split at e
    · cases e
    cases hdv : genDivider (BitVec.ofNat 64 c.bins) with
    | thrown => rw [hdv] at e; cases e
    | fault => rw [hdv] at e; cases e
    | ok dv =>
      rw [hdv] at e
      simp only at e
      split at e
      · cases e
      rename_i tabs htabs
      split at e
      · cases e
      rename_i outs houts
      obtain ⟨hl, ho'⟩ := mapM_inv _ _ _ houts
      have hall : ∀ b < outs.length, ∃ y, outs[b]? = some y ∧ y = fun _ => o.zero := by
        intro b hb
        obtain ⟨y, hy, hy'⟩ := ho' b (by omega)
        rw [List.getElem_range, bin_items c h0 hB dv hdv T (by omega) _ _ htabs] at hy
        exact ⟨y, hy', solveBin_zero ho (fun p hp => hz p (List.mem_filter.1 hp).1) hy⟩
      simp only [Option.some.injEq] at e
      rw [← e]
      funext a
      rw [List.getD_eq_getElem?_getD]
      by_cases ha : a / c.total < outs.length
      · obtain ⟨y, h1, h2⟩ := hall _ ha
        rw [h1, h2]; rfl
      · rw [List.getElem?_eq_none (by omega)]; rfl

end zero

theorem drawR_spec (salt : Block) : ∃ r, drawR salt = some r := by
  unfold drawR
  rw [PRG.genRandomBlocks_spec _ rfl, Option.bind_some]
  exact ⟨_, List.getElem?_eq_getElem (by simp [PRG.stream])⟩

theorem drawDelta_spec (salt : Block) : ∃ d, drawDelta salt = some d := by
  unfold drawDelta
  rw [PRG.genRandomBlocks_spec _ rfl, Option.bind_some]
  exact ⟨_, List.getElem?_eq_getElem (by simp [PRG.stream])⟩

/-! ### The protocol -/

/-- The lengths for which VOLE is correct (C53). -/
def Length (n : Nat) : Prop := 48 * n < 2 ^ 32 ∧
  (n < 256 ∨ (Nat.clog 2 (2 * n / 128) * (128 - 1) + Nat.clog 2 (2 * n % 128 + 2 * n / 128)) % 128 = 0)

/-- The pseudorandom function: decoding of the key. -/
def prf (c : BCfg) (dvs : List Divider) (r : Block) (K : List Block) (x : Block) : Block :=
  val blockOps c dvs (fun i => K.getD i 0) (AES.enc (PRG.setSeed r 0).key x ^^^ x)

theorem hashes_map {c : BCfg} {dvs : List Divider} (r : Block) (K X : List Block) :
    (hashes r X).map (val blockOps c dvs fun i => K.getD i 0) = X.map (prf c dvs r K) := by
  unfold hashes setDense
  rw [List.map_map]
  rfl

/-- Decoding of a vector that has all positions, once `solve` returned. -/
theorem dec_spec {c : BCfg} (hbin : c.binary = false) (hc : (c.cfg 0).Ok) {junk : Nat → Nat → OKVS.Node} {r : Block} {X P : List Block}
    (hs : encode0 c junk r X X.length = some P) : ∃ dvs, (c.bins = 1 → Fit c (hashes r X)) ∧
      ∀ (r' : Block) (K Y : List Block) (num : Nat), K.length = size c → Y.length ≤ num → Fit c (hashes r' Y) →
      dec c r' K Y num = some (Y.map (prf c dvs r' K) ++ List.replicate (num - Y.length) 0) := by
  obtain ⟨out, hs, hP⟩ := Option.map_eq_some_iff.1 hs
  obtain ⟨-, h0, hB, hw, dvs, hd, hnew⟩ := solve_facts hs
  refine ⟨dvs, fun h1 => by unfold Fit; rw [if_pos h1]; exact (hnew h1).2, fun r' K Y num hK hY hf => ?_⟩
  unfold dec
  rw [if_neg (by omega), decodeAll_map blockOps hbin hc hd (by omega) h0 hB (fun h => (hnew h).1) 1 (by omega) _ _ _ hf, hashes_map]
  rfl

/-- The vector the client computes for its items is zero: the right hand side is zero and nothing is random. -/
theorem encode0_zero {c : BCfg} {junk : Nat → Nat → OKVS.Node} {r : Block} {X P : List Block} {num : Nat} (h : encode0 c junk r X num = some P) :
    P = List.replicate (size c) 0 := by
  obtain ⟨out, hs, rfl⟩ := Option.map_eq_some_iff.1 h
  rw [solve_zero blockOps_ok _ hs]
  simp [List.map_const', blockOps]

/-- The protocol run: whatever the client does at the end, the server's key is the client's vector `C`. -/
theorem oprf_run (e : OTE.Env G) (hn : e.net.Ok) (c : BCfg) (junk : Nat → Nat → OKVS.Node) (salt salt' : Block)
    (a : ACoins) (b : BCoins) (hb : OTE.BaseOk e 128 a.ot.salt a.ot.sk b.ot.d b.ot.r) (hb2 : OTE.BaseOk e 128 b.ot2.salt b.ot2.sk a.ot2.d a.ot2.r)
    (hN : Length (size c)) (X P : List Block) (r : Block) (hr : drawR salt = some r) (hX : encode0 c junk r X X.length = some P) :
    ∃ C, C.length = size c ∧ ∀ {α : Type} (fin : Block → List Block → Option α) (y : α), fin r C = some y →
      Runs (server e c salt' b) (clientThen e c junk salt a X X.length fin) (r, blockToByte C) y := by
  obtain ⟨delta, hdel⟩ := drawDelta_spec salt'
  have hP := encode0_zero hX
  have hPl : P.length = size c := by rw [hP]; simp
  obtain ⟨A, C, B, hrun, hA, hC, hBl, hcor⟩ := vole_correct_partial e hn a b hb hb2 delta (size c) 128
    (by
      by_cases h : size c < 256
      · exact .inl h
      · have := hN.1
        exact .inr ⟨by omega, by omega, by omega, hN.2.resolve_left h⟩)
  have hm := mask_spec A P (by omega)
  have hPA : (List.range P.length).map (fun i => P.getD i 0 ^^^ A.getD i 0) = A := by
    apply List.ext_getElem (by simp; omega)
    intro i h1 h2
    rw [List.getElem_map, List.getElem_range, hP]
    simp [List.getD, h2, show i < size c by omega]
  rw [hPA, hPl] at hm
  have hu := unmask_spec delta A B (by omega)
  have hK : (List.range B.length).map (fun i => B.getD i 0 ^^^ GF.mul delta (A.getD i 0)) = C := by
    apply List.ext_getElem? 
    intro i
    by_cases hi : i < size c
    · have := hcor i _ _ _ (getD_get A i 0 (by omega)) (getD_get C i 0 (by omega)) (getD_get B i 0 (by omega))
      rw [List.getElem?_map, List.getElem?_range (by omega), getD_get C i 0 (by omega), Option.map_some, this, GF.gf_mul_comm delta, BitVec.xor_assoc,
        BitVec.xor_self, BitVec.xor_zero]
    · rw [List.getElem?_eq_none (by simp; omega), List.getElem?_eq_none (by omega)]
  rw [hK, hBl] at hu
  refine ⟨C, hC, fun {α} fin y hy => ?_⟩
  unfold server clientThen
  rw [hr, hdel]
  dsimp only
  rw [hX]
  dsimp only
  refine Runs.bind hrun.symm _ _ ?_
  refine .blocksRL e.net hn (show [r].length = 1 from rfl) ?_
  dsimp only
  rw [hm]
  dsimp only
  refine .blocksRL e.net hn hA ?_
  rw [hu, hy]
  exact .done _ _

/-- **C54** The client's output on an item equals the server's `Evaluate` of that item, for every OKVS configuration, every input set on which
`solve` returns, every list given to `Evaluate` and all coins. Missing for the full claim: lengths for which VOLE is undefined (see
`vole_oprf_undefined`), and sets that need more keys decoded at a time than the index type counts (`Fit`). -/
theorem vole_oprf_correct_partial (e : OTE.Env G) (hn : e.net.Ok) (c : BCfg) (hbin : c.binary = false) (hc : (c.cfg 0).Ok)
    (junk : Nat → Nat → OKVS.Node) (salt salt' : Block) (a : ACoins) (b : BCoins) (hb : OTE.BaseOk e 128 a.ot.salt a.ot.sk b.ot.d b.ot.r)
    (hb2 : OTE.BaseOk e 128 b.ot2.salt b.ot2.sk a.ot2.d a.ot2.r) (hN : Length (size c)) (X P : List Block) (r : Block) (hr : drawR salt = some r)
    (hX : encode0 c junk r X X.length = some P) (hfit : c.bins ≠ 1 → Fit c (hashes r X)) :
    ∃ key outX, Runs (server e c salt' b) (client e c junk salt a X X.length) (r, key) outX ∧ key.length = 16 * size c ∧ outX.length = X.length ∧
      (∀ v ∈ outX, v.length = 16) ∧
      ∀ Y num, Y.length ≤ num → Fit c (hashes r Y) → ∃ outY, evaluate c r key Y num = some outY ∧ outY.length = num ∧
        ∀ (i j : Nat) (x : Block), X[i]? = some x → Y[j]? = some x → outX[i]? = outY[j]? := by
  obtain ⟨C, hC, run⟩ := oprf_run e hn c junk salt salt' a b hb hb2 hN X P r hr hX
  obtain ⟨dvs, h1, hdec⟩ := dec_spec hbin hc hX
  have hfit' : Fit c (hashes r X) := by
    by_cases h : c.bins = 1
    · exact h1 h
    · exact hfit h
  have hkey : (blockToByte C).length = 16 * size c := by
    unfold blockToByte
    rw [OTEOPRF.flatten_length _ 16 (fun b h => by
      obtain ⟨x, -, rfl⟩ := List.mem_map.1 h
      exact Block.toBytes_length x), List.length_map, hC, Nat.mul_comm]
  refine ⟨blockToByte C, _, run _ _ (by rw [hdec r C X X.length hC (le_refl _) hfit']; rfl), hkey, by simp [blockToV8], ?_, fun Y num hY hf => ?_⟩
  · intro v hv
    obtain ⟨x, -, rfl⟩ := List.mem_map.1 hv
    exact Block.toBytes_length x
  · refine ⟨_, by unfold evaluate; rw [byteToBlock_blockToByte, hdec r C Y num hC hY hf]; rfl, by simp [blockToV8]; omega, fun i j x hi hj => ?_⟩
    have hj' : j < Y.length := by
      by_contra h
      rw [List.getElem?_eq_none (by omega)] at hj
      cases hj
    unfold blockToV8
    rw [Nat.sub_self, List.replicate_zero, List.append_nil, List.map_map, List.getElem?_map, hi, List.map_append, List.getElem?_append_left (by simpa using hj'),
      List.map_map, List.getElem?_map, hj]

/-- **C54** The same for the functions that return blocks. -/
theorem vole_oprf_blocks_partial (e : OTE.Env G) (hn : e.net.Ok) (c : BCfg) (hbin : c.binary = false) (hc : (c.cfg 0).Ok)
    (junk : Nat → Nat → OKVS.Node) (salt salt' : Block) (a : ACoins) (b : BCoins) (hb : OTE.BaseOk e 128 a.ot.salt a.ot.sk b.ot.d b.ot.r)
    (hb2 : OTE.BaseOk e 128 b.ot2.salt b.ot2.sk a.ot2.d a.ot2.r) (hN : Length (size c)) (X P : List Block) (r : Block) (hr : drawR salt = some r)
    (hX : encode0 c junk r X X.length = some P) (hfit : c.bins ≠ 1 → Fit c (hashes r X)) :
    ∃ key outX, Runs (server e c salt' b) (client1 e c junk salt a X X.length) (r, key) outX ∧ outX.length = X.length ∧
      ∀ Y num, Y.length ≤ num → Fit c (hashes r Y) → ∃ outY, evaluate1 c r key Y num = some outY ∧ outY.length = num ∧
        ∀ (i j : Nat) (x : Block), X[i]? = some x → Y[j]? = some x → outX[i]? = outY[j]? := by
  obtain ⟨C, hC, run⟩ := oprf_run e hn c junk salt salt' a b hb hb2 hN X P r hr hX
  obtain ⟨dvs, h1, hdec⟩ := dec_spec hbin hc hX
  have hfit' : Fit c (hashes r X) := by
    by_cases h : c.bins = 1
    · exact h1 h
    · exact hfit h
  refine ⟨blockToByte C, _, run _ _ (hdec r C X X.length hC (le_refl _) hfit'), by simp, fun Y num hY hf => ?_⟩
  refine ⟨_, by unfold evaluate1; rw [byteToBlock_blockToByte]; exact hdec r C Y num hC hY hf, by simp; omega, fun i j x hi hj => ?_⟩
  have hj' : j < Y.length := by
    by_contra h
    rw [List.getElem?_eq_none (by omega)] at hj
    cases hj
  rw [Nat.sub_self, List.replicate_zero, List.append_nil, List.getElem?_map, hi, List.getElem?_append_left (by simpa using hj'), List.getElem?_map, hj]

/-- This OPRF as a component of Private-ID, whose functions call `Evaluate` directly after `Server`. -/
def asOprf (e : OTE.Env G) (c : BCfg) (junk : Nat → Nat → OKVS.Node) (salt salt' : Block) (a : ACoins) (b : BCoins) : PSO.Oprf (Block × Bytes) :=
  ⟨server e c salt' b, fun k X => evaluate c k.1 k.2 X X.length, fun Y => client e c junk salt a Y Y.length⟩

/-- **C67** This OPRF meets what Private-ID needs of an OPRF. -/
theorem vole_oprf_for_private_id (e : OTE.Env G) (hn : e.net.Ok) (c : BCfg) (hbin : c.binary = false) (hc : (c.cfg 0).Ok)
    (junk : Nat → Nat → OKVS.Node) (salt salt' : Block) (a : ACoins) (b : BCoins) (hb : OTE.BaseOk e 128 a.ot.salt a.ot.sk b.ot.d b.ot.r)
    (hb2 : OTE.BaseOk e 128 b.ot2.salt b.ot2.sk a.ot2.d a.ot2.r) (hN : Length (size c)) (X Y P : List Block) (r : Block) (hr : drawR salt = some r)
    (hY : encode0 c junk r Y Y.length = some P) (hfit : c.bins ≠ 1 → Fit c (hashes r Y)) (hfitX : Fit c (hashes r X)) :
    ∃ F : Block → Bytes, PSO.OprfRuns (asOprf e c junk salt salt' a b) F Y X ∧ ∀ x, (F x).length = 16 := by
  obtain ⟨C, hC, run⟩ := oprf_run e hn c junk salt salt' a b hb hb2 hN Y P r hr hY
  obtain ⟨dvs, h1, hdec⟩ := dec_spec hbin hc hY
  have hfit' : Fit c (hashes r Y) := by
    by_cases h : c.bins = 1
    · exact h1 h
    · exact hfit h
  have hv : ∀ Z, Fit c (hashes r Z) → (dec c r C Z Z.length).map blockToV8 = some ((Z.map fun x => Block.toBytes (prf c dvs r C x)) ++ []) := by
    intro Z hZ
    rw [hdec r C Z Z.length hC (le_refl _) hZ, Option.map_some, Nat.sub_self, List.replicate_zero, List.append_nil, List.append_nil, blockToV8,
      List.map_map]
    rfl
  refine ⟨fun x => Block.toBytes (prf c dvs r C x), ⟨(r, blockToByte C), [], [], run (fun r C => (dec c r C Y Y.length).map blockToV8) _ (hv Y hfit'), ?_⟩, fun x => Block.toBytes_length _⟩
  show evaluate c r (blockToByte C) X X.length = _
  unfold evaluate
  rw [byteToBlock_blockToByte]
  exact hv X hfitX

/-- The client, keeping its vector `C` at the end instead of decoding it. Its messages are those of `client`. -/
def clientKeeps (e : OTE.Env G) (c : BCfg) (junk : Nat → Nat → OKVS.Node) (salt : Block) (a : ACoins) (X : List Block) (num : Nat) : Proc (Block × Bytes) :=
  clientThen e c junk salt a X num fun r C => some (r, blockToByte C)

/-- **C79** is violated: in every run, for every input set and all coins, the client ends with the server's whole key, and so can evaluate the
function everywhere. The reason is that the client encodes the value zero for all items without any random filling, so that its OKVS vector is
zero and the server's `Delta` cancels. -/
theorem vole_oprf_client_gets_key (e : OTE.Env G) (hn : e.net.Ok) (c : BCfg) (junk : Nat → Nat → OKVS.Node) (salt salt' : Block) (a : ACoins)
    (b : BCoins) (hb : OTE.BaseOk e 128 a.ot.salt a.ot.sk b.ot.d b.ot.r) (hb2 : OTE.BaseOk e 128 b.ot2.salt b.ot2.sk a.ot2.d a.ot2.r)
    (hN : Length (size c)) (X P : List Block) (r : Block) (hr : drawR salt = some r) (hX : encode0 c junk r X X.length = some P) :
    ∃ key, Runs (server e c salt' b) (clientKeeps e c junk salt a X X.length) (r, key) (r, key) := by
  obtain ⟨C, -, run⟩ := oprf_run e hn c junk salt salt' a b hb hb2 hN X P r hr hX
  exact ⟨blockToByte C, run _ _ rfl⟩

/-- **C54** For many sizes the protocol is undefined, because the VOLE inside is (C53): the server never finishes a run. -/
theorem vole_oprf_undefined (e : OTE.Env G) (c : BCfg) (salt' : Block) (b : BCoins) (hN : 256 ≤ size c) (h32 : 48 * size c < 2 ^ 32)
    (hl : Nat.clog 2 (2 * size c % 128 + 2 * size c / 128) ≠ Nat.clog 2 (2 * size c / 128)) {α : Type} (p : Proc α) (k : Block × Bytes) (y : α) :
    ¬ Runs p (server e c salt' b) y k := by
  apply not_runs_of_never
  unfold server
  split
  · trivial
  · exact (voleB_never e b _ (size c) 128 hN fun h => hl ((default_levels (size c) hN (by omega)).1 h)).bind _

/-! ### The hypotheses can be met -/

/-- Three items, eight sparse and two dense columns. -/
def toyCfg : BCfg := ⟨false, 3, 8, 2, 40, 1, 3, 3⟩

theorem toyCfg_ok : (toyCfg.cfg 0).Ok := ⟨⟨by decide, by decide, by decide⟩, by decide⟩

theorem toy_length : Length (size toyCfg) := ⟨by decide, .inl (by decide)⟩

set_option maxRecDepth 100000 in
theorem toy_solves : ((drawR 1).bind fun r => encode0 toyCfg (fun _ _ => ⟨0, none, none⟩) r [5, 6, 7] 3) = some (List.replicate 10 0) := by decide +kernel

example : ∃ r key outX outY, Runs (server OTE.toyEnv toyCfg 2 toyB) (client OTE.toyEnv toyCfg (fun _ _ => ⟨0, none, none⟩) 1 toyA [5, 6, 7] 3) (r, key) outX ∧
    evaluate toyCfg r key [7, 1] 2 = some outY ∧ outX[2]? = outY[0]? := by
  obtain ⟨r, hr, hX⟩ := Option.bind_eq_some_iff.1 toy_solves
  obtain ⟨key, outX, h1, -, -, -, h2⟩ := vole_oprf_correct_partial OTE.toyEnv toyNet_ok toyCfg rfl toyCfg_ok _ 1 2 toyA toyB toy_base toy_base2 toy_length
    [5, 6, 7] _ r hr hX (fun h => absurd rfl h)
  obtain ⟨outY, h3, -, h4⟩ := h2 [7, 1] 2 (by decide) (by unfold Fit; simp [hashes, setDense, idxFor, toyCfg, Idx.bits])
  exact ⟨r, key, outX, outY, h1, h3, h4 2 0 7 rfl rfl⟩

example : ∃ r key outX outY, Runs (server OTE.toyEnv toyCfg 2 toyB) (client1 OTE.toyEnv toyCfg (fun _ _ => ⟨0, none, none⟩) 1 toyA [5, 6, 7] 3) (r, key) outX ∧
    evaluate1 toyCfg r key [7, 1] 2 = some outY ∧ outX[2]? = outY[0]? := by
  obtain ⟨r, hr, hX⟩ := Option.bind_eq_some_iff.1 toy_solves
  obtain ⟨key, outX, h1, -, h2⟩ := vole_oprf_blocks_partial OTE.toyEnv toyNet_ok toyCfg rfl toyCfg_ok _ 1 2 toyA toyB toy_base toy_base2 toy_length
    [5, 6, 7] _ r hr hX (fun h => absurd rfl h)
  obtain ⟨outY, h3, -, h4⟩ := h2 [7, 1] 2 (by decide) (by unfold Fit; simp [hashes, setDense, idxFor, toyCfg, Idx.bits])
  exact ⟨r, key, outX, outY, h1, h3, h4 2 0 7 rfl rfl⟩

example : ∃ r key, Runs (server OTE.toyEnv toyCfg 2 toyB) (clientKeeps OTE.toyEnv toyCfg (fun _ _ => ⟨0, none, none⟩) 1 toyA [5, 6, 7] 3) (r, key) (r, key) := by
  obtain ⟨r, hr, hX⟩ := Option.bind_eq_some_iff.1 toy_solves
  obtain ⟨key, h⟩ := vole_oprf_client_gets_key OTE.toyEnv toyNet_ok toyCfg _ 1 2 toyA toyB toy_base toy_base2 toy_length [5, 6, 7] _ r hr hX
  exact ⟨r, key, h⟩

example : ∃ F : Block → Bytes, PSO.OprfRuns (asOprf OTE.toyEnv toyCfg (fun _ _ => ⟨0, none, none⟩) 1 2 toyA toyB) F [5, 6, 7] [7, 1] ∧
    ∀ x, (F x).length = 16 := by
  obtain ⟨r, hr, hX⟩ := Option.bind_eq_some_iff.1 toy_solves
  exact vole_oprf_for_private_id OTE.toyEnv toyNet_ok toyCfg rfl toyCfg_ok _ 1 2 toyA toyB toy_base toy_base2 toy_length [7, 1] [5, 6, 7] _ r hr hX
    (fun h => absurd rfl h) (by unfold Fit; simp [hashes, setDense, idxFor, toyCfg, Idx.bits])

/-- 255 sparse and two dense columns: undefined. -/
example {α : Type} (e : OTE.Env G) (b : BCoins) (p : Proc α) (k : Block × Bytes) (y : α) :
    ¬ Runs p (server e ⟨false, 3, 255, 2, 40, 1, 190, 190⟩ 2 b) y k :=
  vole_oprf_undefined e _ 2 b (by decide) (by decide) (by decide +kernel) p k y

end Kunlun.VOLEOPRF
