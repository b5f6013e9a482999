import Verif.Props.BloomRate
import Verif.Props.CwPrf
/-!
C135: how many bits of the membership test are wrong. The answers come from a Bloom filter, so items of the client that the server does not have can be reported; with perfect hash
functions in the filter this happens less than twice as often as the statistical parameter announces.
-/

namespace Kunlun.CwPRF.Rpmt

open Kunlun Proto Finset

variable {G P : Type} [AddCommGroup G]

/-- A filter filled with `xs` reports `y` exactly if the positions of `y` are covered. -/
theorem reports_covered {rnd : List UInt32} {maxElem n : Nat} {raw : UInt32} {f0 : Bloom.Filter} (hnew : Bloom.new rnd maxElem n raw = some f0)
    (hraw : 0 < raw.toNat ∧ raw.toNat ≤ 2 ^ 32 - 8) (H : UInt32 → Bytes → UInt32) (xs : List Bytes) (y : Bytes) :
    Bloom.reports H f0 xs y = true ↔ Covered H f0 xs y := by
  obtain ⟨hk, hm⟩ := Bloom.new_fields hnew
  obtain ⟨f, h1, h2⟩ := Bloom.bloom_contain_iff H hnew hraw (xs.map fun x => .insert x (List.range n))
    (by intro op hop; obtain ⟨x, _, rfl⟩ := List.mem_map.1 hop; exact List.Perm.refl _)
  obtain ⟨g0, r0⟩ := Bloom.new_good (H := H) hnew hraw.1 hraw.2
  obtain ⟨f', h1', g, e1, e2, e3, r⟩ := Bloom.run_spec (xs.map fun x => .insert x (List.range n)) g0 r0
    (by intro op hop; obtain ⟨x, _, rfl⟩ := List.mem_map.1 hop; rw [hk])
  rw [h1] at h1'
  obtain rfl := Option.some.inj h1'
  have hfn : f.hashNum = n := by rw [e1, hk]
  obtain ⟨b, hb, hbi⟩ := h2 y ((List.range n).map (·, false)) (by simp [List.map_map, Function.comp_def])
  have hrep : Bloom.reports H f0 xs y = b := by
    unfold Bloom.reports
    rw [Bloom.insertAll_run _ _ _ hk, h1, Option.bind_some]
    unfold Bloom.contain
    rw [hfn, hb]
    cases b <;> rfl
  rw [hrep, hbi, Bloom.live_inserts]
  rfl

/-- The number of bits that do not say whether the client's item is among the server's. -/
def wrongBits (X Y : List Block) (bits : Bytes) : ℕ := ((X.zip bits).filter fun p => decide (p.2 ≠ if p.1 ∈ Y then 1 else 0)).length

theorem wrongBits_eq (Q : Block → Prop) [DecidablePred Q] (Y : List Block) (hq : ∀ y ∈ Y, Q y) : ∀ (X : List Block) (bits : Bytes), Indicates Q X bits →
    wrongBits X Y bits = ((X.filter fun x => decide (x ∉ Y)).filter fun x => decide (Q x)).length
  | [], _, _ => by simp [wrongBits]
  | x :: X, [], h => by simpa using h.1
  | x :: X, b :: bits, h => by
    have h0 := h.2 0 x rfl
    have ih := wrongBits_eq Q Y hq X bits ⟨by simpa using h.1, fun i x hx => by simpa using h.2 (i + 1) x (by simpa using hx)⟩
    unfold wrongBits at ih ⊢
    simp only [List.getElem?_cons_zero, Option.some.injEq] at h0
    rw [List.zip_cons_cons]
    by_cases hy : x ∈ Y
    · have := hq x hy
      rcases h0 with ⟨rfl, -⟩ | ⟨-, h0⟩
      · simpa [hy] using ih
      · exact absurd this h0
    · rcases h0 with ⟨rfl, h0⟩ | ⟨rfl, h0⟩
      · simp only [List.filter_cons, hy, h0, if_false, not_false_eq_true, decide_true, if_true, List.length_cons]
        rw [if_pos (by decide), List.length_cons, ih]
      · simp only [List.filter_cons, hy, h0, if_false, not_false_eq_true, decide_true, if_true, ne_eq, not_true_eq_false, decide_false, Bool.false_eq_true]
        exact ih

/-- **C135** What wrong bits do in the protocols built on the test: the intersection (and its size) that `psi_correct` and `card_correct` of Props/Pso.lean speak about is too large by
the number of wrong bits, and the union of `psu_run` lacks that many items. -/
theorem rpmt_wrong_effect (Q : Block → Prop) [DecidablePred Q] (X Y : List Block) (hq : ∀ y ∈ Y, Q y) (bits : Bytes) (h : Indicates Q X bits) :
    (X.filter fun x => decide (Q x)).length = (X.filter fun x => decide (x ∈ Y)).length + wrongBits X Y bits ∧
      (Y ++ X.filter fun x => decide (¬ Q x)).length + wrongBits X Y bits = (Y ++ X.filter fun x => decide (x ∉ Y)).length := by
  rw [wrongBits_eq Q Y hq X bits h, List.length_append, List.length_append, Nat.add_assoc, Nat.add_left_cancel_iff]
  clear h
  induction X with
  | nil => simp
  | cons x X ih =>
    simp only [List.filter_cons]
    by_cases hy : x ∈ Y
    · have := hq x hy
      simp only [hy, this, decide_true, if_true, not_true_eq_false, decide_false, Bool.false_eq_true, if_false, List.length_cons]
      omega
    · by_cases hx : Q x
      · simp only [hy, hx, decide_true, if_true, not_true_eq_false, decide_false, Bool.false_eq_true, if_false, List.length_cons, not_false_eq_true, List.filter_cons]
        omega
      · simp only [hy, hx, decide_true, if_true, decide_false, Bool.false_eq_true, if_false, List.length_cons, not_false_eq_true, List.filter_cons]
        omega

theorem exact_of_no_wrong (X Y : List Block) (bits : Bytes) (Q : Block → Prop) (h : Indicates Q X bits) (hw : wrongBits X Y bits = 0) : Indicates (· ∈ Y) X bits := by
  refine ⟨h.1, fun i x hx => ?_⟩
  unfold wrongBits at hw
  rw [List.length_eq_zero_iff, List.filter_eq_nil_iff] at hw
  have hb : ∃ b, bits[i]? = some b := by
    rcases h.2 i x hx with h | h
    · exact ⟨_, h.1⟩
    · exact ⟨_, h.1⟩
  obtain ⟨b, hb⟩ := hb
  have hm : (x, b) ∈ X.zip bits := by
    apply List.mem_of_getElem? (i := i)
    rw [List.getElem?_zip_eq_some]
    exact ⟨hx, hb⟩
  have := hw _ hm
  simp only [ne_eq, decide_not, Bool.not_eq_true', decide_eq_false_iff_not, not_not] at this
  by_cases hy : x ∈ Y
  · left
    rw [if_pos hy] at this
    exact ⟨by rw [hb, this], hy⟩
  · right
    rw [if_neg hy] at this
    exact ⟨by rw [hb, this], hy⟩

/-- Average over the positions perfect hash functions give to `nx` inserted and `ny` queried keys. -/
noncomputable def mean (f0 : Bloom.Filter) (nx ny : ℕ) (g : (Fin f0.hashNum × Fin nx → Fin f0.tableSize) → (Fin ny → Fin f0.hashNum → Fin f0.tableSize) → ℝ) : ℝ :=
  (∑ B, ∑ Q, g B Q) / (Fintype.card (Fin f0.hashNum × Fin nx → Fin f0.tableSize) * Fintype.card (Fin ny → Fin f0.hashNum → Fin f0.tableSize))

/-- The server's items, masked by both. -/
def stored (pt : Pts G P) (H : Block → P) (F1 F2 : P → P) (Y : List Block) : List Bytes := Y.map fun y => pt.key (F1 (F2 (H y)))

/-- The client's items that the server does not have, masked by both. -/
def foreign (pt : Pts G P) (H : Block → P) (F1 F2 : P → P) (X Y : List Block) : List Bytes :=
  (X.filter fun x => decide (x ∉ Y)).map fun x => pt.key (F1 (F2 (H x)))

open Classical in
/-- **C135** Run the membership test with perfect hash functions in the filter: on average at most `2 n / 2^stat` bits are wrong (but more than `n / 2^stat`), and all bits are right except with
probability `2 n / 2^stat`, where `n` is the number of the client's items that the server does not have. -/
theorem rpmt_wrong_bits (net : Net G) (hn : net.Ok) (b : BloomEnv) (pt : Pts G P) (good : P → Prop) (hp : pt.Ok net good) (H : Block → P) (F1 F2 : P → P)
    (pp : PP) (X Y : List Block) (hX : X.length = pp.clientLen) (hY : Y.length = pp.serverLen) (nX : X.Nodup) (nY : Y.Nodup)
    (h1 : ∀ y ∈ Y, good (F1 (H y))) (h2 : ∀ x ∈ X, good (F2 (H x))) (hst : 4 ≤ pp.stat ∧ pp.stat ≤ 128) (hlen : 1024 ≤ Y.length ∧ Y.length < 2 ^ 64)
    (hc : ∀ y ∈ Y, F2 (F1 (H y)) = F1 (F2 (H y)))
    (hinj : ∀ x ∈ X ++ Y, ∀ y ∈ X ++ Y, pt.key (F1 (F2 (H x))) = pt.key (F1 (F2 (H y))) → x = y)
    (f0 : Bloom.Filter) (hnew : Bloom.new b.rnd Y.length pp.stat (b.raw Y.length pp.stat) = some f0)
    (hraw : 0 < (b.raw Y.length pp.stat).toNat ∧ (b.raw Y.length pp.stat).toNat ≤ 2 ^ 32 - 8) (hr : Bloom.RawOk (b.raw Y.length pp.stat) pp.stat Y.length) :
    ∃ bits : (Fin f0.hashNum × Fin (stored pt H F1 F2 Y).length → Fin f0.tableSize) →
        (Fin (foreign pt H F1 F2 X Y).length → Fin f0.hashNum → Fin f0.tableSize) → Bytes,
      (∀ B Q, let b' := { b with h := Bloom.idealHash f0.vecSalt (stored pt H F1 F2 Y) (foreign pt H F1 F2 X Y) B Q }
        Runs (client net b' pt H F2 pp X) (server net b' pt H F1 pp Y) () (bits B Q)) ∧
      mean f0 _ _ (fun B Q => (wrongBits X Y (bits B Q) : ℝ)) ≤ 2 * ((X.filter fun x => decide (x ∉ Y)).length / 2 ^ pp.stat) ∧
      (X.filter (fun x => decide (x ∉ Y)) ≠ [] → (X.filter fun x => decide (x ∉ Y)).length / 2 ^ pp.stat < mean f0 _ _ (fun B Q => (wrongBits X Y (bits B Q) : ℝ))) ∧
      mean f0 _ _ (fun B Q => if Indicates (· ∈ Y) X (bits B Q) then 0 else 1) ≤ 2 * ((X.filter fun x => decide (x ∉ Y)).length / 2 ^ pp.stat) := by
  have hs : (Y.map fun y => pt.key (F2 (F1 (H y)))) = stored pt H F1 F2 Y := List.map_congr_left fun y hy => by rw [hc y hy]
  have run := fun (B : Fin f0.hashNum × Fin (stored pt H F1 F2 Y).length → Fin f0.tableSize)
      (Q : Fin (foreign pt H F1 F2 X Y).length → Fin f0.hashNum → Fin f0.tableSize) => rpmt_run net hn { b with h := Bloom.idealHash f0.vecSalt (stored pt H F1 F2 Y) (foreign pt H F1 F2 X Y) B Q } pt good hp H F1 F2 pp X Y hX hY
    h1 h2 (by omega) hlen.2 f0 hnew hraw
  choose bits hrun hind using run
  have hq : ∀ (B : Fin f0.hashNum × Fin (stored pt H F1 F2 Y).length → Fin f0.tableSize)
      (Q : Fin (foreign pt H F1 F2 X Y).length → Fin f0.hashNum → Fin f0.tableSize), ∀ y ∈ Y, Covered (Bloom.idealHash f0.vecSalt (stored pt H F1 F2 Y) (foreign pt H F1 F2 X Y) B Q) f0 (Y.map fun y => pt.key (F2 (F1 (H y))))
      (pt.key (F1 (F2 (H y)))) := fun B Q y hy => covered_of_mem _ _ _ _ (List.mem_map.2 ⟨y, hy, by rw [hc y hy]⟩)
  have hw : ∀ (B : Fin f0.hashNum × Fin (stored pt H F1 F2 Y).length → Fin f0.tableSize)
      (Q : Fin (foreign pt H F1 F2 X Y).length → Fin f0.hashNum → Fin f0.tableSize), wrongBits X Y (bits B Q) =
      ((foreign pt H F1 F2 X Y).filter (Bloom.reports (Bloom.idealHash f0.vecSalt (stored pt H F1 F2 Y) (foreign pt H F1 F2 X Y) B Q) f0 (stored pt H F1 F2 Y))).length := by
    intro B Q
    have hf : ∀ R : Bytes → Bool, ((foreign pt H F1 F2 X Y).filter R).length = ((X.filter fun x => decide (x ∉ Y)).filter fun x => R (pt.key (F1 (F2 (H x))))).length := by
      intro R
      rw [foreign, List.filter_map, List.length_map]
      rfl
    rw [wrongBits_eq _ Y (hq B Q) X _ (hind B Q), hf]
    congr 1
    refine List.filter_congr fun x _ => ?_
    rw [Bool.eq_iff_iff, decide_eq_true_iff, reports_covered hnew hraw, hs]
  have hxs : (stored pt H F1 F2 Y).Nodup := nY.map_on fun x hx y hy h => hinj x (List.mem_append_right _ hx) y (List.mem_append_right _ hy) h
  have hys : (foreign pt H F1 F2 X Y).Nodup := (nX.filter _).map_on fun x hx y hy h =>
    hinj x (List.mem_append_left _ (List.mem_of_mem_filter hx)) y (List.mem_append_left _ (List.mem_of_mem_filter hy)) h
  have hd : ∀ y ∈ foreign pt H F1 F2 X Y, y ∉ stored pt H F1 F2 Y := by
    intro k hk hk'
    obtain ⟨x, hx, rfl⟩ := List.mem_map.1 hk
    obtain ⟨y, hy, e⟩ := List.mem_map.1 hk'
    obtain ⟨hx1, hx2⟩ := List.mem_filter.1 hx
    have := hinj y (List.mem_append_right _ hy) x (List.mem_append_left _ hx1) e
    subst this
    simp [hy] at hx2
  have hb := Bloom.bloom_rate_twice hnew hraw hr hlen.1 hst (stored pt H F1 F2 Y) (foreign pt H F1 F2 X Y) (by simp [stored]) hxs hys hd
  have hfl : (foreign pt H F1 F2 X Y).length = (X.filter fun x => decide (x ∉ Y)).length := by simp [foreign]
  rw [hfl] at hb
  have heq : mean f0 _ _ (fun B Q => (wrongBits X Y (bits B Q) : ℝ)) = Bloom.falseReports f0 (stored pt H F1 F2 Y) (foreign pt H F1 F2 X Y) := by
    unfold mean Bloom.falseReports
    simp only [hw]
  have hmean := heq.le.trans hb
  refine ⟨bits, hrun, hmean, fun hne => ?_, le_trans ?_ hmean⟩
  · rw [heq, ← hfl]
    exact Bloom.bloom_rate_exceeds hnew hraw hr (by nlinarith) (stored pt H F1 F2 Y) (foreign pt H F1 F2 X Y) (by simp [stored]) hxs hys hd (by
      intro h
      rw [h] at hfl
      exact hne (List.length_eq_zero_iff.1 hfl.symm))
  unfold mean
  refine div_le_div_of_nonneg_right (sum_le_sum fun B _ => sum_le_sum fun Q _ => ?_) (by positivity)
  by_cases h : Indicates (· ∈ Y) X (bits B Q)
  · simp only [h, if_true]
    positivity
  · simp only [h, if_false]
    have : wrongBits X Y (bits B Q) ≠ 0 := fun h0 => h (exact_of_no_wrong X Y _ _ (hind B Q) h0)
    exact_mod_cast Nat.one_le_iff_ne_zero.2 this

/-! ### The hypotheses can be met -/

/-- The environment of the examples with the table size the constructor computes for 1024 items and 40 functions. -/
def bigBloom : BloomEnv := { toyBloom with raw := fun _ _ => 58982 }

theorem range_nodup (c n : ℕ) (h : c + n ≤ 2 ^ 128) : ((List.range n).map fun i => (BitVec.ofNat 128 (c + i) : Block)).Nodup := by
  refine List.nodup_range.map_on fun i hi j hj e => ?_
  rw [List.mem_range] at hi hj
  have := congrArg BitVec.toNat e
  rw [BitVec.toNat_ofNat, BitVec.toNat_ofNat, Nat.mod_eq_of_lt (by omega), Nat.mod_eq_of_lt (by omega)] at this
  omega

theorem toyMul_nil (p : Bytes) (h : p.length = 32) : toyMul [] p = p := by
  apply List.ext_getElem (by simp [toyMul, h])
  intro i h1 h2
  simp [toyMul, h2]

/-- One wrong bit among two. -/
example : wrongBits [1, 2] [2] [1, 1] = 1 ∧ Indicates (fun _ => True) [1, 2] [1, 1] := by
  refine ⟨by decide, rfl, fun i x hx => ?_⟩
  rcases i with _ | _ | i <;> simp at hx ⊢

/-- 1024 items each, 512 in common: the keys of the items differ and a filter exists, so the bits are all right except with probability `2 * 512 / 2^40`. -/
example : ∃ f0, Bloom.new bigBloom.rnd 1024 40 58982 = some f0 ∧
    ∃ bits : (Fin f0.hashNum × Fin (stored (G := ZMod 7) x25519Pts hash (toyMul []) (toyMul []) ((List.range 1024).map fun i => BitVec.ofNat 128 (0 + i))).length →
        Fin f0.tableSize) → (Fin (foreign (G := ZMod 7) x25519Pts hash (toyMul []) (toyMul []) ((List.range 1024).map fun i => BitVec.ofNat 128 (512 + i))
          ((List.range 1024).map fun i => BitVec.ofNat 128 (0 + i))).length → Fin f0.hashNum → Fin f0.tableSize) → Bytes,
      mean f0 _ _ (fun B Q => (wrongBits ((List.range 1024).map fun i => BitVec.ofNat 128 (512 + i)) ((List.range 1024).map fun i => BitVec.ofNat 128 (0 + i)) (bits B Q) : ℝ)) ≤
        2 * ((((List.range 1024).map fun i => (BitVec.ofNat 128 (512 + i) : Block)).filter fun x => decide (x ∉ (List.range 1024).map fun i => BitVec.ofNat 128 (0 + i))).length /
          2 ^ 40) := by
  obtain ⟨f0, hf⟩ := Option.isSome_iff_exists.1 (Bloom.new_isSome bigBloom.rnd 1024 40 58982 (by decide))
  have hl : ∀ x, (hash x).length = 32 := fun x => by
    obtain ⟨b, hb, h⟩ := Hash.blockToBytes_length x
    unfold hash
    rw [hb]
    exact h
  obtain ⟨bits, -, h, -⟩ := rpmt_wrong_bits toyNet toyNet_ok bigBloom x25519Pts _ (x25519Pts_ok toyNet) hash (toyMul []) (toyMul []) ⟨40, 1024, 1024⟩
    ((List.range 1024).map fun i => BitVec.ofNat 128 (512 + i)) ((List.range 1024).map fun i => BitVec.ofNat 128 (0 + i)) (by simp) (by simp)
    (range_nodup 512 1024 (by norm_num)) (range_nodup 0 1024 (by norm_num)) (fun _ _ => toyMul_length _ _) (fun _ _ => toyMul_length _ _) (by decide) (by simp)
    (fun _ _ => rfl) (fun x _ y _ e => by
      rw [toyMul_nil _ (hl x), toyMul_nil _ (hl x), toyMul_nil _ (hl y), toyMul_nil _ (hl y)] at e
      exact hash_inj e) f0 (by simpa [bigBloom] using hf) (by decide) (by simp only [List.length_map, List.length_range]; exact ⟨by decide, by decide⟩)
  exact ⟨f0, hf, bits, h⟩

end Kunlun.CwPRF.Rpmt
