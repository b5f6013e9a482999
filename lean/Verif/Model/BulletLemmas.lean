import Verif.Model.Bullet
import Verif.Props.InnerProduct
/-!
Helper lemmas about the bulletproof model: every vector of the code, reduced modulo the group order, as a function of its index.
-/

namespace Kunlun

section range
variable {F M : Type} [Field F] [AddCommGroup M] [Module F M]

theorem list_eq_range {α : Type} (l : List α) (n : Nat) (h : l.length = n) (d : α) :
    l = (List.range n).map fun i => (l[i]?).getD d := by
  apply List.ext_getElem (by simp [h])
  intro i h1 h2
  simp [h1]

theorem dot_range (n : Nat) (P : Nat → M) (f : Nat → F) :
    dot ((List.range n).map P) ((List.range n).map f) = ∑ i ∈ Finset.range n, f i • P i := by
  induction n with
  | zero => simp
  | succ n ih =>
    rw [List.range_succ, List.map_append, List.map_append, dot_append _ _ _ _ (by simp), ih, Finset.sum_range_succ]
    simp

theorem dot_list_range (g : List M) (n : Nat) (h : g.length = n) (f : Nat → F) :
    dot g ((List.range n).map f) = ∑ i ∈ Finset.range n, f i • (g[i]?).getD 0 := by
  conv_lhs => rw [list_eq_range g n h 0]
  rw [dot_range]

theorem zipWith_range {α β γ : Type} (op : α → β → γ) (n : Nat) (f : Nat → α) (g : Nat → β) :
    List.zipWith op ((List.range n).map f) ((List.range n).map g) = (List.range n).map fun i => op (f i) (g i) := by
  rw [List.zipWith_map, List.zipWith_self]

theorem map_range_congr {α : Type} {n : Nat} {f g : Nat → α} (h : ∀ i < n, f i = g i) :
    (List.range n).map f = (List.range n).map g :=
  List.map_congr_left fun i hi => h i (List.mem_range.1 hi)

theorem replicate_range {α : Type} (n : Nat) (a : α) : List.replicate n a = (List.range n).map fun _ => a := by
  apply List.ext_getElem <;> simp

/-- A sum over `R * n` consecutive positions, block by block. -/
theorem sum_blocks {A : Type} [AddCommMonoid A] (R n : Nat) (hR : 0 < R) (f : Nat → Nat → A) :
    ∑ k ∈ Finset.range (R * n), f (k / R) (k % R) = ∑ j ∈ Finset.range n, ∑ i ∈ Finset.range R, f j i := by
  induction n with
  | zero => simp
  | succ n ih =>
    rw [Nat.mul_succ, Finset.sum_range_add, ih, Finset.sum_range_succ]
    congr 1
    apply Finset.sum_congr rfl
    intro i hi
    have hi' := Finset.mem_range.1 hi
    rw [Nat.mul_add_div hR, Nat.div_eq_of_lt hi', Nat.add_zero, Nat.mul_add_mod, Nat.mod_eq_of_lt hi']

end range

theorem residues_range {q : ℕ} {l : List ℤ} {n : Nat} (h : l.length = n) :
    residues q l = (List.range n).map fun i => (((l[i]?).getD 0 : ℤ) : ZMod q) := by
  conv_lhs => rw [list_eq_range l n h 0]
  unfold residues
  rw [List.map_map]
  rfl

theorem residues_replicate (q n : ℕ) (a : ℤ) : residues q (List.replicate n a) = (List.range n).map fun _ => (a : ZMod q) := by
  rw [replicate_range]; unfold residues; rw [List.map_map]; rfl

theorem residues_get {q : ℕ} {l : List ℤ} {n : Nat} {f : Nat → ZMod q} (h : residues q l = (List.range n).map f) (i : Nat) (hi : i < n) :
    (((l[i]?).getD 0 : ℤ) : ZMod q) = f i := by
  have := congrArg (fun t => t[i]?) h
  unfold residues at this
  simp only [List.getElem?_map, List.getElem?_range hi, Option.map_some] at this
  cases hl : l[i]? with
  | none => rw [hl] at this; simp at this
  | some a => rw [hl] at this; simpa using this

theorem length_of_residues {q : ℕ} {l : List ℤ} {n : Nat} {f : Nat → ZMod q} (h : residues q l = (List.range n).map f) : l.length = n := by
  have := congrArg List.length h
  simpa [residues] using this

theorem modAdd_range {G : Type} [AddCommGroup G] (cv : Curve G) {a b : List ℤ} {n : Nat} {f g : Nat → ZMod cv.order}
    (ha : residues cv.order a = (List.range n).map f) (hb : residues cv.order b = (List.range n).map g) :
    ∃ c, BigInt.vecModAdd a b cv.order = some c ∧ residues cv.order c = (List.range n).map fun i => f i + g i := by
  obtain ⟨c, h1, -, h3⟩ := residues_modAdd cv a b (by rw [length_of_residues ha, length_of_residues hb])
  exact ⟨c, h1, by rw [h3, ha, hb, zipWith_range]⟩

theorem modSub_range {G : Type} [AddCommGroup G] (cv : Curve G) {a b : List ℤ} {n : Nat} {f g : Nat → ZMod cv.order}
    (ha : residues cv.order a = (List.range n).map f) (hb : residues cv.order b = (List.range n).map g) :
    ∃ c, BigInt.vecModSub a b cv.order = some c ∧ residues cv.order c = (List.range n).map fun i => f i - g i := by
  obtain ⟨c, h1, -, h3⟩ := residues_modSub cv a b (by rw [length_of_residues ha, length_of_residues hb])
  exact ⟨c, h1, by rw [h3, ha, hb, zipWith_range]⟩

theorem modProduct_range {G : Type} [AddCommGroup G] (cv : Curve G) {a b : List ℤ} {n : Nat} {f g : Nat → ZMod cv.order}
    (ha : residues cv.order a = (List.range n).map f) (hb : residues cv.order b = (List.range n).map g) :
    ∃ c, BigInt.vecModProduct a b cv.order = some c ∧ residues cv.order c = (List.range n).map fun i => f i * g i := by
  obtain ⟨c, h1, -, h3⟩ := residues_modProduct cv a b (by rw [length_of_residues ha, length_of_residues hb])
  exact ⟨c, h1, by rw [h3, ha, hb, zipWith_range]⟩

theorem modScalar_range {G : Type} [AddCommGroup G] (cv : Curve G) {a : List ℤ} {n : Nat} {f : Nat → ZMod cv.order} (c : ℤ)
    (ha : residues cv.order a = (List.range n).map f) :
    residues cv.order (BigInt.vecModScalar a c cv.order) = (List.range n).map fun i => (c : ZMod cv.order) * f i := by
  rw [residues_modScalar, ha, List.map_map]; rfl

theorem inner_range {G : Type} [AddCommGroup G] (cv : Curve G) {a b : List ℤ} {n : Nat} {f g : Nat → ZMod cv.order}
    (ha : residues cv.order a = (List.range n).map f) (hb : residues cv.order b = (List.range n).map g) :
    ∃ c, BigInt.vecModInnerProduct a b cv.order = some c ∧ (c : ZMod cv.order) = ∑ i ∈ Finset.range n, f i * g i := by
  haveI := cv.fact
  obtain ⟨c, h1, h2⟩ := inner_cast cv a b (by rw [length_of_residues ha, length_of_residues hb])
  refine ⟨c, h1, ?_⟩
  rw [h2, ha, hb, dot_range]
  apply Finset.sum_congr rfl
  intro i _
  rw [smul_eq_mul, mul_comm]

namespace Bullet

variable {G : Type} [AddCommGroup G] (cv : Curve G)

theorem powEntry_cast (a : ℤ) (i : Nat) : ((powEntry cv.order a i : ℤ) : ZMod cv.order) = (a : ZMod cv.order) ^ i := by
  induction i with
  | zero => simp [powEntry]
  | succ i ih => rw [powEntry, cv.cast_mod]; push_cast; rw [ih, pow_succ]

theorem powerVec_spec (len : Nat) (h : len ≠ 0) (a : ℤ) :
    ∃ l, powerVec cv.order len a = some l ∧ residues cv.order l = (List.range len).map fun i => (a : ZMod cv.order) ^ i := by
  refine ⟨_, by unfold powerVec; rw [if_neg h], ?_⟩
  unfold residues
  rw [List.map_map]
  exact List.map_congr_left fun i _ => powEntry_cast cv a i

theorem adjustZ_cast (z : ℤ) (j : Nat) : ((adjustZ cv.order z j : ℤ) : ZMod cv.order) = (z : ZMod cv.order) ^ (j + 1) := by
  induction j with
  | zero => simp [adjustZ]
  | succ j ih => rw [adjustZ, cv.cast_mod]; push_cast; rw [ih, pow_succ' _ (j + 1)]

theorem bits_spec (R n : Nat) (v : List ℕ) :
    residues cv.order (bits R n (v.map (Nat.cast : ℕ → ℤ))) =
      (List.range (R * n)).map fun k => (((v[k / R]?).getD 0 / 2 ^ (k % R) % 2 : ℕ) : ZMod cv.order) := by
  unfold residues bits
  rw [List.map_map]
  apply List.map_congr_left
  intro k _
  have e : ((v.map (Nat.cast : ℕ → ℤ))[k / R]?).getD 0 = (((v[k / R]?).getD 0 : ℕ) : ℤ) := by
    rw [List.getElem?_map]; cases v[k / R]? <;> rfl
  simp only [Function.comp]
  rw [e, BigInt.nthBit_spec]
  rcases Nat.mod_two_eq_zero_or_one ((v[k / R]?).getD 0 / 2 ^ (k % R)) with h | h <;> simp [h]

theorem blockPowers_spec (R n j : Nat) (hR : 0 < R) (pow2 : List ℤ)
    (h : residues cv.order pow2 = (List.range R).map fun i => (2 : ZMod cv.order) ^ i) :
    residues cv.order (blockPowers R n (j + 1) pow2) =
      (List.range (R * n)).map fun k => if k / R = j then (2 : ZMod cv.order) ^ (k % R) else 0 := by
  unfold residues blockPowers
  rw [List.map_map]
  apply List.map_congr_left
  intro k _
  have hiff : (j + 1 - 1) * R ≤ k ∧ k < (j + 1) * R ↔ k / R = j := by
    rw [Nat.add_sub_cancel, Nat.div_eq_iff hR]
    constructor
    · rintro ⟨h1, h2⟩
      rw [Nat.succ_mul] at h2
      omega
    · rintro ⟨h1, h2⟩
      rw [Nat.succ_mul]
      omega
  simp only [Function.comp]
  by_cases hk : k / R = j
  · rw [if_pos (hiff.2 hk), if_pos hk]
    have e : k - (j + 1 - 1) * R = k % R := by
      have := Nat.div_add_mod k R
      rw [hk, mul_comm] at this
      rw [Nat.add_sub_cancel]
      omega
    rw [e]
    exact residues_get h _ (Nat.mod_lt _ hR)
  · rw [if_neg (fun h => hk (hiff.1 h)), if_neg hk]
    simp

theorem rrLoop_spec (R n : Nat) (hR : 0 < R) (z : ℤ) (pow2 rr0 : List ℤ) (f : Nat → ZMod cv.order)
    (h2 : residues cv.order pow2 = (List.range R).map fun i => (2 : ZMod cv.order) ^ i)
    (h0 : residues cv.order rr0 = (List.range (R * n)).map f) (m : Nat) :
    ∃ l, rrLoop cv.order R n z pow2 rr0 m = some l ∧ residues cv.order l = (List.range (R * n)).map fun k =>
      f k + if k / R < m then (z : ZMod cv.order) ^ (k / R + 2) * 2 ^ (k % R) else 0 := by
  induction m with
  | zero => exact ⟨rr0, rfl, by rw [h0]; exact map_range_congr (by intro i _; simp)⟩
  | succ m ih =>
    obtain ⟨l, hl, hr⟩ := ih
    obtain ⟨c, hc, hrc⟩ := modAdd_range cv hr (modScalar_range cv (adjustZ cv.order z (m + 1)) (blockPowers_spec cv R n m hR pow2 h2))
    refine ⟨c, by rw [rrLoop, hl]; exact hc, ?_⟩
    rw [hrc]
    apply map_range_congr
    intro k _
    rw [adjustZ_cast]
    rcases Nat.lt_trichotomy (k / R) m with h | h | h
    · rw [if_pos h, if_neg (by omega), if_pos (by omega)]; ring
    · rw [if_neg (by omega), if_pos h, if_pos (by omega), h]; ring
    · rw [if_neg (by omega), if_neg (by omega), if_neg (by omega)]; ring

theorem vecRR_length (q R : Nat) (z : ℤ) (pow2 rr : List ℤ) (m : Nat) : (vecRR q R z pow2 rr m).length = rr.length := by
  induction m with
  | zero => rfl
  | succ m ih => simp [vecRR, ih]

theorem vecRR_spec (R n : Nat) (hR : 0 < R) (hn : 0 < n) (z : ℤ) (pow2 rr : List ℤ) (f : Nat → ZMod cv.order)
    (h2 : residues cv.order pow2 = (List.range (R * n)).map fun i => (2 : ZMod cv.order) ^ i)
    (h0 : residues cv.order rr = (List.range (R * n)).map f) (m : Nat) :
    residues cv.order (vecRR cv.order R z pow2 rr m) = (List.range (R * n)).map fun k =>
      f k + if k / R < m then (z : ZMod cv.order) ^ (k / R + 2) * 2 ^ (k % R) else 0 := by
  have hRn : R ≤ R * n := Nat.le_mul_of_pos_right R hn
  induction m with
  | zero => rw [vecRR, h0]; exact map_range_congr (by intro i _; simp)
  | succ m ih =>
    have hlen : (vecRR cv.order R z pow2 rr m).length = R * n := by rw [vecRR_length]; exact length_of_residues h0
    rw [residues_range (n := R * n) (by rw [vecRR_length]; exact length_of_residues h0)]
    apply map_range_congr
    intro k hk
    have hget := residues_get ih k hk
    rw [vecRR, List.getElem?_mapIdx]
    have hsome : (vecRR cv.order R z pow2 rr m)[k]? = some ((vecRR cv.order R z pow2 rr m)[k]?.getD 0) := by
      rw [List.getElem?_eq_getElem (by omega)]; rfl
    rw [hsome, Option.map_some, Option.getD_some]
    generalize (vecRR cv.order R z pow2 rr m)[k]?.getD 0 = w at hget
    have hiff : m * R ≤ k ∧ k < (m + 1) * R ↔ k / R = m := by
      rw [Nat.div_eq_iff hR]
      constructor
      · rintro ⟨h1, h2⟩
        rw [Nat.succ_mul] at h2
        omega
      · rintro ⟨h1, h2⟩
        rw [Nat.succ_mul]
        omega
    by_cases hkm : k / R = m
    · rw [if_pos (hiff.2 hkm), cv.cast_mod]
      have e : k - m * R = k % R := by
        have := Nat.div_add_mod k R
        rw [hkm, mul_comm] at this
        omega
      have hmod : k % R < R * n := lt_of_lt_of_le (Nat.mod_lt _ hR) hRn
      rw [e]
      push_cast
      rw [residues_get (modScalar_range cv (adjustZ cv.order z (m + 1)) h2) _ hmod, hget, adjustZ_cast, if_neg (by omega), if_pos (by omega),
        hkm]
      ring
    · rw [if_neg (fun h => hkm (hiff.1 h)), hget]
      by_cases h : k / R < m
      · rw [if_pos h, if_pos (by omega)]
      · rw [if_neg h, if_neg (by omega)]

theorem tauLoop_cast (z : ℤ) (r : List ℤ) (t : ℤ) (m : Nat) :
    ((tauLoop cv.order z r t m : ℤ) : ZMod cv.order) =
      t + ∑ j ∈ Finset.range m, (z : ZMod cv.order) ^ (j + 2) * (((r[j]?).getD 0 : ℤ) : ZMod cv.order) := by
  induction m with
  | zero => simp [tauLoop]
  | succ m ih => rw [tauLoop, cv.cast_mod]; push_cast; rw [ih, adjustZ_cast, Finset.sum_range_succ]; ring

theorem sumZ_cast (z : ℤ) (n : Nat) :
    ((sumZ cv.order z n : ℤ) : ZMod cv.order) = ∑ j ∈ Finset.range n, (z : ZMod cv.order) ^ (j + 3) := by
  unfold sumZ
  have : ∀ m, (((List.range m).foldl (fun s j => s + adjustZ cv.order z (j + 1)) 0 : ℤ) : ZMod cv.order) =
      ∑ j ∈ Finset.range m, (z : ZMod cv.order) ^ (j + 2) := by
    intro m
    induction m with
    | zero => simp
    | succ m ih =>
      rw [List.range_succ, List.foldl_append, List.foldl_cons, List.foldl_nil, Finset.sum_range_succ]
      push_cast
      rw [ih, adjustZ_cast]
  rw [cv.cast_mod]
  push_cast
  rw [this, Finset.sum_mul]
  apply Finset.sum_congr rfl
  intro j _
  ring

theorem cast_modSub (a b : ℤ) : ((BigInt.modSub a b cv.order : ℤ) : ZMod cv.order) = (a : ZMod cv.order) - b := by
  have := cv.cast_mod (a - b)
  push_cast at this
  exact this

theorem cast_modNegate (a : ℤ) : ((BigInt.modNegate a cv.order : ℤ) : ZMod cv.order) = -(a : ZMod cv.order) := by
  unfold BigInt.modNegate
  split
  · next h => simp [h]
  · push_cast; rw [cv.cast_mod]; simp

/-- `delta(y, z)` of the paper. -/
def delta {F : Type} [Field F] (R n : Nat) (y z : F) : F :=
  (z - z ^ 2) * ∑ i ∈ Finset.range (R * n), y ^ i - (∑ j ∈ Finset.range n, z ^ (j + 3)) * ∑ i ∈ Finset.range R, 2 ^ i

theorem deltaYZ_spec (R n : Nat) (y z : ℤ) (yPow pow2 : List ℤ)
    (hy : residues cv.order yPow = (List.range (R * n)).map fun i => (y : ZMod cv.order) ^ i)
    (h2 : residues cv.order pow2 = (List.range R).map fun i => (2 : ZMod cv.order) ^ i) :
    haveI := cv.fact
    ∃ d, deltaYZ cv.order R n z yPow pow2 = some d ∧ (d : ZMod cv.order) = delta R n (y : ZMod cv.order) z := by
  haveI := cv.fact
  obtain ⟨s1, e1, v1⟩ := inner_range cv (residues_replicate cv.order (R * n) 1) hy
  obtain ⟨s2, e2, v2⟩ := inner_range cv (residues_replicate cv.order R 1) h2
  unfold deltaYZ
  simp only [e1, e2, Option.bind_eq_bind, Option.bind_some, Option.pure_def]
  refine ⟨_, rfl, ?_⟩
  rw [cast_modSub]
  push_cast
  rw [cast_modSub, cast_modSquare, sumZ_cast, v1, v2]
  simp only [Int.cast_one, one_mul]
  unfold delta
  ring

theorem zPowers_spec (z : ℤ) (n : Nat) :
    residues cv.order (zPowers cv.order z n) = (List.range n).map fun j => (z : ZMod cv.order) ^ (j + 2) := by
  unfold residues zPowers
  rw [List.map_map]
  exact List.map_congr_left fun j _ => adjustZ_cast cv z (j + 1)

end Bullet

end Kunlun
