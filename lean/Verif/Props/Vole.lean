import Verif.Model.VoleLemmas
import Verif.Model.ProtoNever
/-!
VOLE (`mpc/vole/basevole.hpp`, `mpc/vole/vole.hpp`, `mpc/vole/exconvcode.hpp`): A ends with vectors `A` and `C`, B with a vector such that
every entry of B's vector is that of `C` plus `delta` times that of `A`; and the lengths for which no run finishes.
-/

namespace Kunlun.VOLE

open Kunlun Kunlun.Proto Kunlun.AES

variable {G : Type} [AddCommGroup G]

/-- The relation of the interface comment of vole.hpp: `vec_B = vec_C + vec_A*delta`, for `n` items. -/
def Correlated (delta : Block) (n : Nat) (A C B : List Block) : Prop :=
  A.length = n ∧ C.length = n ∧ B.length = n ∧
    ∀ (i : Nat) (a c b : Block), A[i]? = some a → C[i]? = some c → B[i]? = some b → b = c ^^^ GF.mul a delta

theorem correlated_zip (delta : Block) (n : Nat) (A C : List Block) (hA : A.length = n) (hC : C.length = n) :
    Correlated delta n A C ((C.zip A).map (join delta)) := by
  refine ⟨hA, hC, by simp [hA, hC], ?_⟩
  intro i a c b ha hc hb
  rw [List.getElem?_map, List.zip_eq_zipWith, List.getElem?_zipWith, ha, hc] at hb
  exact (Option.some.inj hb).symm

/-- **C53** The base protocol gives `t` correlated triples, for every `t`. -/
theorem base_vole_correct (e : OTE.Env G) (hn : e.net.Ok) (c : SCoins) (c' : RCoins) (hb : OTE.BaseOk e 128 c.salt c.sk c'.d c'.r)
    (salt delta : Block) (t : Nat) : ∃ u w v, Runs (baseA e c salt t) (baseB e c' delta t) (u, w) v ∧ Correlated delta t u w v := by
  obtain ⟨u, w, v, h1, h2, h3, h4, h5⟩ := base_correct e hn c c' hb salt delta t
  refine ⟨u, w, v, h1, h2, h3, h4, ?_⟩
  intro i a c b ha hc hb
  have hi : i < t := by
    rw [← h2]; exact (List.getElem?_eq_some_iff.1 ha).1
  have := h5 i hi
  simpa only [List.getD_eq_getElem?_getD, ha, hc, hb, Option.getD_some] using this

theorem delta1_some (salt : Block) (given : Option Block) : ∃ delta, delta1 salt given = some delta ∧ ∀ x, given = some x → delta = x := by
  cases given with
  | some x => exact ⟨x, rfl, fun _ h => Option.some.inj h⟩
  | none =>
    unfold delta1
    rw [PRG.genRandomBlocks_spec _ rfl]
    simp

/-- **C53** The protocol for one value, over Naor-Pinkas transfer: A gets `u` and `w`, B gets `delta` and `v` with `v = w + u * delta`; a `u` or
`delta` handed in is the one used. -/
theorem base_vole_single (e : OTE.Env G) (hn : e.net.Ok) (d : ℤ) (r sk : Nat → ℤ) (salt salt' : Block) (gu gd : Option Block)
    (hf : ∀ delta, NPOT.Finite e.g d r sk (deltaBits delta) 128) :
    ∃ u w delta v, Runs (base1A e d r salt gu) (base1B e sk salt' gd) (u, w) (delta, v) ∧ v = w ^^^ GF.mul u delta ∧
      (∀ x, gu = some x → u = x) ∧ (∀ x, gd = some x → delta = x) := by
  obtain ⟨delta, hdel, hgd⟩ := delta1_some salt' gd
  obtain ⟨k0, k1, us, hd, l0, l1, lu⟩ := drawA_spec salt 1
  obtain ⟨k, hrun, lk, hk⟩ := NPOT.npot_correct e.net hn e.kdf e.g d r sk k0 k1 (deltaBits delta) 128 l0 l1 (deltaBits_length delta) (by
    intro b hb
    obtain ⟨i, hi⟩ := List.mem_iff_getElem?.1 hb
    have hl : i < 128 := by
      have := (List.getElem?_eq_some_iff.1 hi).1
      rwa [deltaBits_length] at this
    rw [deltaBits_get _ _ hl] at hi
    obtain rfl := Option.some.inj hi
    cases delta.getLsbD i <;> simp) (hf delta)
  have hsel : selectBits 1 delta = deltaBits delta := by simp [selectBits]
  let u := match gu with | none => us.getD 0 0 | some u => u
  obtain ⟨x, m1, m2⟩ := base_algebra delta 1 k0 k1 [u] k l0 (by rw [hsel]; exact hk) (enc (PRG.setSeed CwPRF.fixedSeed 0).key)
  have p0 := prf_spec k0 128 l0
  have p1 := prf_spec k1 128 l1
  have p2 := prf_spec k 128 lk
  refine ⟨u, x 0, delta, x 0 ^^^ GF.mul u delta, ?_, rfl, by rintro y rfl; rfl, hgd⟩
  unfold base1A base1B
  rw [hd, hdel]
  dsimp only
  refine Runs.bind hrun _ _ ?_
  rw [p0, p1, p2]
  dsimp only
  refine .blocksLR e.net hn (by simp [gammas]) ?_
  have c1 : GF.gadget (k0.map (enc (PRG.setSeed CwPRF.fixedSeed 0).key)) = some (x 0) := by
    simp only [List.range_one, List.mapM_cons, List.mapM_nil, Option.bind_eq_bind, Option.pure_def, List.map_cons, List.map_nil] at m1
    cases hc : combine128 (k0.map (enc (PRG.setSeed CwPRF.fixedSeed 0).key)) 0 with
    | none => rw [hc] at m1; cases m1
    | some y =>
      rw [hc] at m1
      simp only [Option.bind_some, Option.some.injEq, List.cons.injEq, and_true] at m1
      rw [← m1, ← hc]
      unfold combine128
      rw [Nat.zero_mul, List.drop_zero, List.take_of_length_le (by simp; omega)]
  have c2 : GF.gadget (vRow (deltaBits delta) (k.map (enc (PRG.setSeed CwPRF.fixedSeed 0).key))
      (gammas 1 (k0.map (enc (PRG.setSeed CwPRF.fixedSeed 0).key)) (k1.map (enc (PRG.setSeed CwPRF.fixedSeed 0).key)) [u]) 0) =
      some (x 0 ^^^ GF.mul u delta) := by
    simp only [List.range_one, List.mapM_cons, List.mapM_nil, Option.bind_eq_bind, Option.pure_def, List.map_cons, List.map_nil] at m2
    generalize GF.gadget _ = o at m2 ⊢
    cases o with
    | none => cases m2
    | some y =>
      simp only [Option.bind_some, Option.some.injEq, List.cons.injEq, and_true, List.getD_cons_zero] at m2
      rw [m2]
  show Runs (Proc.ofOption ((GF.gadget _).map fun w => (u, w))) (Proc.ofOption ((GF.gadget (vRow _ _ (gammas 1 _ _ [u]) 0)).map fun v => (delta, v))) _ _
  rw [c1, c2]
  exact .done _ _

/-- The trees and the code, from correlated base triples. -/
theorem tmp_correct (e : OTE.Env G) (hn : e.net.Ok) (c : SCoins) (c' : RCoins) (hb : OTE.BaseOk e 128 c.salt c.sk c'.d c'.r)
    (salt idx1 idx2 delta : Block) (N t : Nat) (ht : 0 < t) (h2 : 2 ≤ 2 * N / t) (h24 : 24 ≤ 2 * N) (h32 : 2 * N * 24 < 2 ^ 32)
    (hsel : (Nat.clog 2 (2 * N / t) * (t - 1) + Nat.clog 2 (2 * N % t + 2 * N / t)) % 128 = 0) (u w v : List Block)
    (hu : u.length = t) (hw : w.length = t) (hv : v.length = t) (huv : ∀ j < t, v.getD j 0 = w.getD j 0 ^^^ GF.mul (u.getD j 0) delta) :
    ∃ A C B, Runs (tmpA e c' idx1 idx2 N t u w) (tmpB e c salt N t v) (A, C) B ∧ Correlated delta N A C B := by
  obtain ⟨s, hs, hg, hse⟩ := sizes_good N t ht h2
  have hsel' : s.sel t % 128 = 0 := by rw [hse]; exact hsel
  have hround : roundUp (s.sel t) = s.sel t := by rw [roundUp, if_neg (by omega)]
  obtain ⟨roots, key, hd, hr⟩ := drawB_spec salt t
  obtain ⟨idx, hi, hil, hix⟩ := drawIndex_spec hg (by omega) idx1 idx2
  have hbf := baseField_spec hg idx u hil hu hix
  have hse := selectA_spec s t ht idx hil
  have htr := OTE.mapM_range_spec (treeB s t roots v) (fullSeg s t roots v) t (fun i hi => treeB_spec hg roots v hr hv i hi)
  have dlast : s.depth t (t - 1) = s.levelLast := if_pos rfl
  have llast : s.len t (t - 1) = s.last := if_pos rfl
  have l0 : (((List.range t).map (fullSeg s t roots v)).map (·.m0)).flatten.length = s.sel t := by
    rw [List.map_map]
    exact seg_length _ t _ _ ht (fun i hi => by simp [fullSeg, Sizes.Good.depth_first i hi]) (by simp [fullSeg, dlast])
  have l1 : (((List.range t).map (fullSeg s t roots v)).map (·.m1)).flatten.length = s.sel t := by
    rw [List.map_map]
    exact seg_length _ t _ _ ht (fun i hi => by simp [fullSeg, Sizes.Good.depth_first i hi]) (by simp [fullSeg, dlast])
  have ls : ((List.range t).map (selSeg s t idx)).flatten.length = s.sel t :=
    seg_length _ t _ _ ht (fun i hi => by simp [selSeg, Sizes.Good.depth_first i hi]) (by simp [selSeg, dlast])
  obtain ⟨m, hrun, hm⟩ := OTE.alsz_correct e hn 128 (s.sel t) rfl (by decide) hsel' c.salt c'.salt c.sk c'.d c'.r hb _ _ _ l0 l1 ls
  have hmt : m.take (s.sel t) = m := List.take_of_length_le (by rw [hm.1])
  have hseg : ∀ i < t, ∃ seg, treeA s t (((List.range t).map (fullSeg s t roots v)).map (·.sum)) w m ((List.range t).map (selSeg s t idx)).flatten i = some seg ∧
      seg.length = s.len t i ∧ (seg.zip (unitSeg s t idx u i)).map (join delta) = (fullSeg s t roots v i).leaf := by
    intro i hi
    refine treeA_spec hg roots v u w idx m _ delta hw i hi (hix i hi) _ ?_ (huv i hi) (fun j hj => chosen_tree roots v idx m hm ht i hi j hj) ?_
    · rw [List.map_map, List.getElem?_map, List.getElem?_range hi]; rfl
    · intro j hj
      rw [flat_get (selSeg s t idx) s.level t i j (fun i' hi' => by simp [selSeg, Sizes.Good.depth_first i' (show i' + 1 < t by omega)]) hi
        (by simpa [selSeg] using hj), selSeg, List.getElem?_map, List.getElem?_range hj]
      rfl
  choose! seg g1 g2 g3 using hseg
  have hta := OTE.mapM_range_spec _ seg t g1
  have ul : ∀ i, (unitSeg s t idx u i).length = s.len t i := by intro i; simp [unitSeg]
  have la : ((List.range t).map (unitSeg s t idx u)).flatten.length = 2 * N := by
    rw [seg_length _ t s.sub s.last ht (fun i hi => by rw [ul, Sizes.Good.len_first i hi]) (by rw [ul, llast]), Nat.mul_comm]
    exact hg.total
  have lc : ((List.range t).map seg).flatten.length = 2 * N := by
    rw [seg_length _ t s.sub s.last ht (fun i hi => by rw [g2 i (by omega), Sizes.Good.len_first i hi]) (by rw [g2 _ (by omega), llast]), Nat.mul_comm]
    exact hg.total
  have hleaf : (((List.range t).map (fullSeg s t roots v)).map (·.leaf)).flatten =
      (((List.range t).map seg).flatten.zip ((List.range t).map (unitSeg s t idx u)).flatten).map (join delta) := by
    rw [zip_flatten t _ _ (fun i hi => by rw [ul, g2 i hi]), List.map_map]
    congr 1
    apply List.map_congr_left
    intro i hi
    rw [List.mem_range] at hi
    exact (g3 i hi).symm
  obtain ⟨C, A, c1, c2, c3, c4⟩ := encode_both (codeSeed key) ((List.range t).map seg).flatten ((List.range t).map (unitSeg s t idx u)).flatten delta
    (by rw [la, lc]) (by omega) (by omega)
  refine ⟨A, C, (C.zip A).map (join delta), ?_, correlated_zip delta N A C (by rw [c4, la]; omega) (by rw [c3, la]; omega)⟩
  unfold tmpA tmpB
  rw [hs, hd]
  dsimp only
  rw [hi]
  dsimp only
  rw [hbf, hse, htr]
  dsimp only
  refine .blocksRL e.net hn (by simp) ?_
  rw [hround]
  refine Runs.bind hrun.symm _ _ ?_
  rw [hmt, hta]
  dsimp only
  refine .blocksRL e.net hn (show [key].length = 1 from rfl) ?_
  rw [hleaf, c2]
  simp only [List.getD_cons_zero]
  rw [c1]
  exact .done _ _

/-- **C53** VOLE. For fewer than 256 items always, and from 256 items on whenever the number of tree levels is a multiple of 128, every
tree has at least two leaves and the sizes fit 32 bits, both parties finish; A gets `A` and `C`, B gets `C + A * delta`. -/
theorem vole_correct_partial (e : OTE.Env G) (hn : e.net.Ok) (a : ACoins) (b : BCoins) (hb : OTE.BaseOk e 128 a.ot.salt a.ot.sk b.ot.d b.ot.r)
    (hb2 : OTE.BaseOk e 128 b.ot2.salt b.ot2.sk a.ot2.d a.ot2.r) (delta : Block) (N t : Nat)
    (hN : N < 256 ∨ 0 < t ∧ 2 ≤ 2 * N / t ∧ 2 * N * 24 < 2 ^ 32 ∧
      (Nat.clog 2 (2 * N / t) * (t - 1) + Nat.clog 2 (2 * N % t + 2 * N / t)) % 128 = 0) :
    ∃ A C B, Runs (voleA e a N t) (voleB e b N t delta) (A, C) B ∧ Correlated delta N A C B := by
  unfold voleA voleB
  by_cases h : N < 256
  · rw [if_pos h, if_pos h]
    exact base_vole_correct e hn a.ot b.ot hb a.base delta N
  · rw [if_neg h, if_neg h]
    obtain ⟨ht, h2, h32, hsel⟩ := hN.resolve_left h
    obtain ⟨u, w, v, h1, lu, lw, lv, huv⟩ := base_correct e hn a.ot b.ot hb a.base delta t
    obtain ⟨A, C, B, hr, hc⟩ := tmp_correct e hn b.ot2 a.ot2 hb2 b.tree a.idx a.idxLast delta N t ht h2 (by omega) h32 hsel u w v lu lw lv huv
    exact ⟨A, C, B, Runs.bind h1 _ _ hr, hc⟩

theorem clog_lt (n : Nat) (h : n < 2 ^ 32) : Nat.clog 2 n < 128 := by
  have : Nat.clog 2 n ≤ 32 := Nat.clog_le_of_le_pow (by omega)
  omega

/-- With the default `t = 128` the levels add up to a multiple of 128 exactly when the last tree is as deep as the others. -/
theorem default_levels (N : Nat) (h : 256 ≤ N) (h32 : 2 * N * 24 < 2 ^ 32) :
    (Nat.clog 2 (2 * N / 128) * (128 - 1) + Nat.clog 2 (2 * N % 128 + 2 * N / 128)) % 128 = 0 ↔
      Nat.clog 2 (2 * N % 128 + 2 * N / 128) = Nat.clog 2 (2 * N / 128) := by
  have h1 := clog_lt (2 * N / 128) (by omega)
  have h2 := clog_lt (2 * N % 128 + 2 * N / 128) (by omega)
  omega

/-- **C53** With the default parameters VOLE is correct for every multiple of 64 items up to the 32-bit bound (`48 N < 2^32`). -/
theorem vole_correct_default (e : OTE.Env G) (hn : e.net.Ok) (a : ACoins) (b : BCoins) (hb : OTE.BaseOk e 128 a.ot.salt a.ot.sk b.ot.d b.ot.r)
    (hb2 : OTE.BaseOk e 128 b.ot2.salt b.ot2.sk a.ot2.d a.ot2.r) (delta : Block) (N : Nat) (hN : N < 256 ∨ N % 64 = 0) (h32 : 48 * N < 2 ^ 32) :
    ∃ A C B, Runs (voleA e a N 128) (voleB e b N 128 delta) (A, C) B ∧ Correlated delta N A C B := by
  apply vole_correct_partial e hn a b hb hb2
  by_cases h : N < 256
  · exact .inl h
  · refine .inr ⟨by omega, by omega, by omega, (default_levels N (by omega) (by omega)).2 ?_⟩
    have := hN.resolve_left h
    congr 1
    omega

/-! ### Lengths for which no run finishes -/

theorem mapM_map_sum {α β : Type} (f : α → Option β) (g : β → Nat) (k : α → Nat) (l : List α) (r : List β) (h : l.mapM f = some r)
    (hf : ∀ a b, f a = some b → g b = k a) : (r.map g).sum = (l.map k).sum := by
  induction l generalizing r with
  | nil => simp at h; subst h; rfl
  | cons a l ih =>
    rw [List.mapM_cons] at h
    cases ha : f a with
    | none => rw [ha] at h; simp at h
    | some b =>
      cases hl : l.mapM f with
      | none => rw [ha, hl] at h; simp at h
      | some r' =>
        rw [ha, hl] at h
        simp at h
        subst h
        simp [ih r' hl, hf a b ha]

theorem treeB_m0 (s : Sizes) (t : Nat) (roots v : List Block) (i : Nat) (f : Full) (h : treeB s t roots v i = some f) : f.m0.length = s.depth t i := by
  unfold treeB at h
  cases hr : roots[i]? with
  | none => rw [hr] at h; simp at h
  | some k =>
    cases hv : v[i]? with
    | none => rw [hr, hv] at h; simp at h
    | some vi =>
      rw [hr, hv] at h
      simp only [Option.bind_some] at h
      generalize s.depth t i = d at *
      cases d with
      | zero =>
        simp [fullEval] at h
        subst h; rfl
      | succ d =>
        rw [fullEval_spec] at h
        simp at h
        subst h; simp

theorem sum_depth (s : Sizes) (t : Nat) (ht : 0 < t) : ((List.range t).map (s.depth t)).sum = s.sel t := by
  obtain ⟨r, rfl⟩ : ∃ r, t = r + 1 := ⟨t - 1, by omega⟩
  rw [List.range_succ, List.map_append, List.sum_append, List.map_congr_left (g := fun _ => s.level)]
  · simp [Sizes.depth, Sizes.sel, Nat.mul_comm]
  · intro i hi
    rw [List.mem_range] at hi
    exact if_neg (by omega)

theorem voleB_never (e : OTE.Env G) (b : BCoins) (delta : Block) (N t : Nat) (hN : 256 ≤ N)
    (hsel : (Nat.clog 2 (2 * N / t) * (t - 1) + Nat.clog 2 (2 * N % t + 2 * N / t)) % 128 ≠ 0) : (voleB e b N t delta).Never := by
  unfold voleB
  rw [if_neg (by omega)]
  apply Proc.Never.then
  intro v
  unfold tmpB
  cases hs : sizes N t with
  | none => trivial
  | some s =>
    cases hd : drawB b.tree t with
    | none => trivial
    | some d =>
      dsimp only
      cases hm : (List.range t).mapM (treeB s t d.1 v) with
      | none => trivial
      | some fs =>
        dsimp only
        apply Proc.Never.sendBlocks
        apply Proc.Never.bind
        have ht : 0 < t := by
          unfold sizes at hs
          by_contra h
          rw [if_pos (by omega)] at hs
          cases hs
        have hse : s.sel t % 128 ≠ 0 := by
          unfold sizes at hs
          by_cases h : t = 0 ∨ 2 * N / t = 0
          · rw [if_pos h] at hs; cases hs
          · rw [if_neg h] at hs
            injection hs with hs
            rw [← hs]; exact hsel
        have hl : (fs.map (·.m0)).flatten.length = s.sel t := by
          rw [List.length_flatten, List.map_map, ← sum_depth s t ht]
          exact mapM_map_sum _ (fun f => f.m0.length) _ _ _ hm (fun i f h => treeB_m0 s t d.1 v i f h)
        have hlt : s.sel t < roundUp (s.sel t) := by
          rw [roundUp, if_pos hse]; omega
        unfold otSend OTE.send
        split
        · trivial
        · apply Proc.Never.then
          intro K
          rw [if_pos (.inl (by omega))]
          trivial

/-- **C53** (violated) From 256 items on, if the number of tree levels is not a multiple of 128, B hands the OT extension vectors shorter than the
length it announces, and reads past their ends: no run finishes, whatever A does. -/
theorem vole_length_undefined {α : Type} (e : OTE.Env G) (b : BCoins) (delta : Block) (N t : Nat) (hN : 256 ≤ N)
    (hsel : (Nat.clog 2 (2 * N / t) * (t - 1) + Nat.clog 2 (2 * N % t + 2 * N / t)) % 128 ≠ 0) (A : Proc α) (x : α) (y : List Block) :
    ¬ Runs A (voleB e b N t delta) x y :=
  not_runs_of_never (voleB_never e b delta N t hN hsel) x y

/-- **C53** (violated) With the default parameters this happens as soon as the last tree is deeper than the others, for example with 257 items. -/
theorem vole_default_undefined {α : Type} (e : OTE.Env G) (b : BCoins) (delta : Block) (N : Nat) (hN : 256 ≤ N) (h32 : 48 * N < 2 ^ 32)
    (hl : Nat.clog 2 (2 * N % 128 + 2 * N / 128) ≠ Nat.clog 2 (2 * N / 128)) (A : Proc α) (x : α) (y : List Block) :
    ¬ Runs A (voleB e b N 128 delta) x y :=
  vole_length_undefined e b delta N 128 hN (fun h => hl ((default_levels N hN (by omega)).1 h)) A x y

example {α : Type} (e : OTE.Env G) (b : BCoins) (delta : Block) (A : Proc α) (x : α) (y : List Block) : ¬ Runs A (voleB e b 257 128 delta) x y :=
  vole_default_undefined e b delta 257 (by decide) (by decide) (by decide +kernel) A x y

/-- Coins for the examples. -/
def toyA : ACoins := ⟨⟨1, fun _ => 2⟩, 3, ⟨4, 3, fun _ => 5⟩, 5, 6⟩

/-- Coins for the examples. -/
def toyB : BCoins := ⟨⟨7, 3, fun _ => 5⟩, ⟨8, fun _ => 2⟩, 9⟩

theorem toy_base : OTE.BaseOk OTE.toyEnv 128 toyA.ot.salt toyA.ot.sk toyB.ot.d toyB.ot.r := OTE.toyEnv_base toyA.ot.salt

theorem toy_base2 : OTE.BaseOk OTE.toyEnv 128 toyB.ot2.salt toyB.ot2.sk toyA.ot2.d toyA.ot2.r := OTE.toyEnv_base toyB.ot2.salt

/-- One value, with `delta` handed in. -/
example : ∃ u w delta v, Runs (base1A OTE.toyEnv 3 (fun _ => 5) 77 none) (base1B OTE.toyEnv (fun _ => 2) 78 (some 9)) (u, w) (delta, v) ∧
    v = w ^^^ GF.mul u delta ∧ (∀ x, (none : Option Block) = some x → u = x) ∧ (∀ x, some (9 : Block) = some x → delta = x) :=
  base_vole_single OTE.toyEnv toyNet_ok 3 (fun _ => 5) (fun _ => 2) 77 78 none (some 9) fun delta => by
    refine ⟨by decide, fun i _ => by show (5 : ℤ) • (1 : ZMod 7) ≠ 0; decide, fun i _ => ?_⟩
    unfold NPOT.pk0
    split
    · show (3 : ℤ) • (1 : ZMod 7) - (2 : ℤ) • (1 : ZMod 7) ≠ 0; decide
    · show (2 : ℤ) • (1 : ZMod 7) ≠ 0; decide

/-- 320 items with the default parameters, over the toy group. -/
example (delta : Block) : ∃ A C B, Runs (voleA OTE.toyEnv toyA 320 128) (voleB OTE.toyEnv toyB 320 128 delta) (A, C) B ∧ Correlated delta 320 A C B :=
  vole_correct_default OTE.toyEnv toyNet_ok toyA toyB toy_base toy_base2 delta 320 (.inr rfl) (by norm_num)

/-- 5 items: the base protocol alone. -/
example (delta : Block) : ∃ A C B, Runs (voleA OTE.toyEnv toyA 5 128) (voleB OTE.toyEnv toyB 5 128 delta) (A, C) B ∧ Correlated delta 5 A C B :=
  vole_correct_default OTE.toyEnv toyNet_ok toyA toyB toy_base toy_base2 delta 5 (.inl (by norm_num)) (by norm_num)

/-- C13, where VOLE relies on it: the roots of B's trees are pairwise different, and the key of the code, which B sends in the clear, is none of them. -/
theorem vole_key_is_no_root (salt : Block) (t : Nat) (ht : t < 2 ^ 64) :
    ∃ roots key, drawB salt t = some (roots, key) ∧ roots.length = t ∧ roots.Nodup ∧ key ∉ roots := by
  have h := PRG.stream_nodup (PRG.setSeed salt 0).key (by show 1 ≤ 10; omega) (PRG.setSeed salt 0).counter (t + 1) (by omega)
  rw [PRG.stream_add, List.nodup_append] at h
  obtain ⟨h1, -, h3⟩ := h
  unfold drawB
  rw [PRG.genRandomBlocks_spec _ rfl]
  simp only [Option.bind_eq_bind, Option.bind_some]
  rw [PRG.genRandomBlocks_spec _ rfl]
  refine ⟨_, _, rfl, by simp, h1, fun hm => h3 _ hm _ ?_ rfl⟩
  simp [PRG.stream]

end Kunlun.VOLE
