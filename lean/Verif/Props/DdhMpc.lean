import Verif.Model.DdhMpc
import Verif.Props.Proto
import Verif.Props.BigInt
/-! Properties C51 and C60: the DDH-based OPRF and the permuted equality test. -/

namespace Kunlun

open Kunlun.Proto

/-- A permutation given as the list of its values. -/
def IsPerm (map : List Nat) (n : Nat) : Prop := map.Perm (List.range n)

theorem IsPerm.length {map : List Nat} {n : Nat} (h : IsPerm map n) : map.length = n := by simpa using h.length_eq

theorem IsPerm.lt {map : List Nat} {n i t : Nat} (h : IsPerm map n) (hi : map[i]? = some t) : t < n :=
  List.mem_range.1 (h.mem_iff.1 (List.mem_of_getElem? hi))

theorem IsPerm.inj {map : List Nat} {n i j t : Nat} (h : IsPerm map n) (hi : map[i]? = some t) (hj : map[j]? = some t) : i = j := by
  have hn : map.Nodup := h.nodup_iff.2 List.nodup_range
  obtain ⟨a, ha⟩ := List.getElem?_eq_some_iff.1 hi
  obtain ⟨b, hb⟩ := List.getElem?_eq_some_iff.1 hj
  exact (List.Nodup.getElem_inj_iff hn).1 (ha.trans hb.symm)

theorem IsPerm.surj {map : List Nat} {n t : Nat} (h : IsPerm map n) (ht : t < n) : ∃ i < n, map[i]? = some t := by
  obtain ⟨i, hi⟩ := List.mem_iff_getElem?.1 (h.mem_iff.2 (List.mem_range.2 ht))
  refine ⟨i, ?_, hi⟩
  obtain ⟨a, -⟩ := List.getElem?_eq_some_iff.1 hi
  rw [h.length] at a
  exact a

/-- The scatter loop over a permutation: every order of the iterations gives the permuted vector. -/
theorem scatter_spec {α : Type} (map : List Nat) (f : Nat → α) (n : Nat) (hm : IsPerm map n) (sched : List Nat) (hs : IsPerm sched n) (z : α) :
    ∃ out, scatter map f sched (List.replicate n z) = some out ∧ out.length = n ∧
      ∀ i t, map[i]? = some t → out[t]? = some (f i) := by
  have key : ∀ (sched : List Nat) (v : List α), (∀ i ∈ sched, i < n) → v.length = n →
      ∃ out, scatter map f sched v = some out ∧ out.length = n ∧
        ∀ i t, map[i]? = some t → (i ∈ sched ∨ v[t]? = some (f i)) → out[t]? = some (f i) := by
    intro sched
    induction sched with
    | nil => intro v _ hv; exact ⟨v, rfl, hv, fun i t _ h => h.resolve_left (by simp)⟩
    | cons a s ih =>
      intro v hlt hv
      have ha := hlt a (by simp)
      obtain ⟨t0, ht0⟩ : ∃ t0, map[a]? = some t0 := ⟨map[a]'(by rw [hm.length]; exact ha), List.getElem?_eq_getElem _⟩
      have hlt0 := hm.lt ht0
      obtain ⟨out, h1, h2, h3⟩ := ih (v.set t0 (f a)) (fun i hi => hlt i (by simp [hi])) (by simpa using hv)
      refine ⟨out, ?_, h2, ?_⟩
      · unfold scatter at h1 ⊢
        rw [List.foldlM_cons, ht0, Option.bind_some, if_pos (by omega)]
        exact h1
      · intro i t hi h
        apply h3 i t hi
        by_cases e : i ∈ s
        · exact .inl e
        · right
          by_cases e2 : i = a
          · subst e2
            rw [ht0] at hi
            cases hi
            rw [List.getElem?_set_self (by omega)]
          · have : t0 ≠ t := by
              rintro rfl
              exact e2 (hm.inj hi ht0)
            rw [List.getElem?_set_ne this]
            rcases h with h | h
            · rcases List.mem_cons.1 h with h | h
              · exact absurd h e2
              · exact absurd h e
            · exact h
  obtain ⟨out, h1, h2, h3⟩ := key sched (List.replicate n z) (fun i hi => List.mem_range.1 (hs.mem_iff.1 hi)) (by simp)
  refine ⟨out, h1, h2, fun i t hi => h3 i t hi (.inl ?_)⟩
  have : i < n := by
    obtain ⟨a, -⟩ := List.getElem?_eq_some_iff.1 hi
    rw [hm.length] at a
    exact a
  exact hs.mem_iff.2 (List.mem_range.2 this)

theorem scatter_mem {α : Type} (map : List Nat) (f : Nat → α) (n : Nat) (hm : IsPerm map n) (out : List α) (hl : out.length = n)
    (h : ∀ i t, map[i]? = some t → out[t]? = some (f i)) (x : α) (hx : x ∈ out) : ∃ i < n, x = f i := by
  obtain ⟨t, ht⟩ := List.mem_iff_getElem?.1 hx
  have htl : t < n := by
    obtain ⟨a, -⟩ := List.getElem?_eq_some_iff.1 ht
    omega
  obtain ⟨i, hi, him⟩ := hm.surj htl
  refine ⟨i, hi, ?_⟩
  have := h i t him
  rw [ht] at this
  simpa using this

section
variable {G : Type} [AddCommGroup G]

/-- A scalar drawn from the non-zero residues does not send a finite point to infinity. -/
theorem Curve.smul_ne_zero (cv : Curve G) {x : ℤ} (h0 : 0 < x) (h1 : x < cv.order) {P : G} (hP : P ≠ 0) : x • P ≠ 0 := by
  rw [Ne, cv.smul_eq_zero_iff x P hP]
  intro h
  exact absurd (Int.le_of_dvd h0 h) (by omega)

/-- Blinding is undone by the inverse. -/
theorem Curve.unblind (cv : Curve G) {r : ℤ} (h0 : 0 < r) (h1 : r < cv.order) (P : G) : BigInt.modInverse r cv.order • r • P = P := by
  letI := cv.toModule
  haveI := cv.fact
  have hr : (r : ZMod cv.order) ≠ 0 := cv.cast_ne_zero (fun h => absurd (Int.le_of_dvd h0 h) (by omega))
  rw [cv.cast_smul (BigInt.modInverse r cv.order), cv.cast_smul r, cv.cast_modInverse, smul_smul, inv_mul_cancel₀ hr, one_smul]

theorem getD_of_getElem? {α : Type} {l : List α} {i : Nat} {x y : α} (h : l[i]? = some x) : l.getD i y = x := by
  simp [List.getD, h]

namespace DDHOPRF

/-- **C51** For every permutation, key, blinding, input vector and hash, and every order of the parallel loop, both parties finish; the
client's output at position `permutation_map[i]` is what `Evaluate` computes, from the key the server returned, for input `i`. -/
theorem ddh_oprf_correct (cv : Curve G) (net : Net G) (hn : net.Ok) (H : Block → G) (kdf : G → Bytes) (k r : ℤ) (bnLen : Nat)
    (map sched : List Nat) (X : List Block) (n : Nat) (hX : X.length = n) (hm : IsPerm map n) (hs : IsPerm sched n)
    (hk : 0 < k ∧ k < cv.order) (hr : 0 < r ∧ r < cv.order) (hb : cv.order ≤ 256 ^ bnLen) (hH : ∀ x ∈ X, H x ≠ 0) :
    ∃ key out vals, Runs (server net k bnLen map sched n) (client net cv.order H kdf r X n) key out ∧
      evaluate H kdf key X n = some vals ∧ vals.length = n ∧ out.length = n ∧ (∀ (i t : Nat), map[i]? = some t → out[t]? = vals[i]?) ∧
      ∀ (i : Nat) x, X[i]? = some x → vals[i]? = some (kdf (k • H x)) := by
  have hget : ∀ i < n, X[i]? = some (X.getD i 0) := fun i hi => by simp [List.getD, hX, hi]
  have hHn : ∀ i < n, H (X.getD i 0) ≠ 0 := fun i hi => hH _ (List.mem_of_getElem? (hget i hi))
  have hkey : BigInt.fromByteVector (BigInt.toByteVector bnLen k) = k := by
    obtain ⟨kn, rfl⟩ := Int.eq_ofNat_of_zero_le hk.1.le
    exact BigInt.bigint_byteVector_round_trip kn bnLen (lt_of_lt_of_le (by exact_mod_cast hk.2) hb)
  set mask := (List.range n).map fun i => r • H (X.getD i 0) with hmask
  have hmg : ∀ i < n, mask.getD i 0 = r • H (X.getD i 0) := fun i hi => by simp [hmask, List.getD, hi]
  obtain ⟨F, f1, f2, f3⟩ := scatter_spec map (fun i => k • mask.getD i 0) n hm sched hs 0
  have hval : evaluate H kdf (BigInt.toByteVector bnLen k) X n = some ((List.range n).map fun i => kdf (k • H (X.getD i 0))) := by
    unfold evaluate
    rw [hkey]
    have : ∀ l : List Nat, (∀ i ∈ l, i < n) →
        l.mapM (fun i => X[i]?.map fun x => kdf (k • H x)) = some (l.map fun i => kdf (k • H (X.getD i 0))) := by
      intro l
      induction l with
      | nil => intro _; rfl
      | cons a l ih =>
        intro h
        rw [List.mapM_cons, hget a (h a (by simp)), ih (fun i hi => h i (by simp [hi]))]
        rfl
    exact this _ (fun i hi => List.mem_range.1 hi)
  refine ⟨BigInt.toByteVector bnLen k, (List.range n).map fun t => kdf (BigInt.modInverse r cv.order • F.getD t 0), _, ?_, hval,
    by simp, by simp, ?_, ?_⟩
  · unfold server client
    rw [if_neg (by omega)]
    refine .pointsRL net hn (by simp) ?_ ?_
    · intro p hp
      rw [List.mem_map] at hp
      obtain ⟨i, hi, rfl⟩ := hp
      exact cv.smul_ne_zero hr.1 hr.2 (hHn i (List.mem_range.1 hi))
    · rw [← hmask, f1]
      refine .pointsLR net hn f2 ?_ (.done _ _)
      intro p hp
      obtain ⟨i, hi, rfl⟩ := scatter_mem map _ n hm F f2 f3 p hp
      rw [hmg i hi]
      exact cv.smul_ne_zero hk.1 hk.2 (cv.smul_ne_zero hr.1 hr.2 (hHn i hi))
  · intro i t hi
    have ht := hm.lt hi
    have hin : i < n := by
      obtain ⟨a, -⟩ := List.getElem?_eq_some_iff.1 hi
      rw [hm.length] at a
      exact a
    simp only [List.getElem?_map, List.getElem?_range ht, List.getElem?_range hin, Option.map_some]
    rw [getD_of_getElem? (f3 i t hi), hmg i hin, smul_comm k r, cv.unblind hr.1 hr.2]
  · intro i x hx
    have hin : i < n := by
      obtain ⟨a, -⟩ := List.getElem?_eq_some_iff.1 hx
      omega
    rw [List.getElem?_map, List.getElem?_range hin, Option.map_some, getD_of_getElem? hx]

/-- Three inputs, a cyclic shift, in the toy group. -/
example : ∃ key out vals, Runs (server toyNet 3 1 [1, 2, 0] [2, 0, 1] 3)
    (client toyNet (toyCurve.order : ℤ) (fun b => if b = 5 then 1 else 2) (fun p => [UInt8.ofNat p.val]) 4 [5, 6, 7] 3) key out ∧
      evaluate (fun b => if b = 5 then (1 : ZMod 7) else 2) (fun p => [UInt8.ofNat p.val]) key [5, 6, 7] 3 = some vals ∧ vals.length = 3 ∧
      out.length = 3 ∧ (∀ (i t : Nat), [1, 2, 0][i]? = some t → out[t]? = vals[i]?) ∧
      ∀ (i : Nat) x, ([5, 6, 7] : List Block)[i]? = some x → vals[i]? = some [UInt8.ofNat (ZMod.val ((3 : ℤ) • (if x = 5 then (1 : ZMod 7) else 2)))] :=
  ddh_oprf_correct toyCurve toyNet toyNet_ok _ _ 3 4 1 [1, 2, 0] [2, 0, 1] [5, 6, 7] 3 rfl (by unfold IsPerm; decide) (by unfold IsPerm; decide)
    (by decide) (by decide) (by decide) (by intro x _; split <;> decide)

end DDHOPRF

namespace DDHPEQT

theorem pos_inj {cols i j i' j' : Nat} (hj : j < cols) (hj' : j' < cols) (h : i * cols + j = i' * cols + j') : i = i' ∧ j = j' := by
  have h1 : (i * cols + j) / cols = i := by
    rw [Nat.mul_comm, Nat.mul_add_div (by omega), Nat.div_eq_of_lt hj, Nat.add_zero]
  have h2 : (i' * cols + j') / cols = i' := by
    rw [Nat.mul_comm, Nat.mul_add_div (by omega), Nat.div_eq_of_lt hj', Nat.add_zero]
  have : i = i' := by rw [← h1, ← h2, h]
  subst this
  exact ⟨rfl, by omega⟩

theorem pos_lt {rows cols i j : Nat} (hi : i < rows) (hj : j < cols) : i * cols + j < rows * cols :=
  calc i * cols + j < i * cols + cols := by omega
    _ = (i + 1) * cols := by ring
    _ ≤ rows * cols := Nat.mul_le_mul_right _ hi

/-- The permutation moves whole rows and, inside every row, columns in the same way; it is a bijection of the positions. -/
theorem permutationMap_spec (rowMap colMap : List Nat) (rows cols : Nat) (hr : IsPerm rowMap rows) (hc : IsPerm colMap cols) :
    ∃ map, permutationMap rowMap colMap rows cols (rows * cols) = some map ∧ IsPerm map (rows * cols) ∧
      ∀ i j a b, rowMap[i]? = some a → colMap[j]? = some b → map[i * cols + j]? = some (a * cols + b) := by
  have key : ∀ (ps : List (Nat × Nat)) (v : List Nat), (∀ p ∈ ps, p.1 < rows ∧ p.2 < cols) → v.length = rows * cols →
      ∃ map, ps.foldlM (fun v p => rowMap[p.1]?.bind fun a => colMap[p.2]?.bind fun b =>
          if p.1 * cols + p.2 < v.length then some (v.set (p.1 * cols + p.2) (a * cols + b)) else none) v = some map ∧ map.length = rows * cols ∧
        ∀ i j a b, rowMap[i]? = some a → colMap[j]? = some b → ((i, j) ∈ ps ∨ v[i * cols + j]? = some (a * cols + b)) →
          map[i * cols + j]? = some (a * cols + b) := by
    intro ps
    induction ps with
    | nil => intro v _ hv; exact ⟨v, rfl, hv, fun i j a b _ _ h => h.resolve_left (by simp)⟩
    | cons p ps ih =>
      intro v hlt hv
      obtain ⟨h1, h2⟩ := hlt p (by simp)
      obtain ⟨a0, ha0⟩ : ∃ a, rowMap[p.1]? = some a := ⟨_, List.getElem?_eq_getElem (by rw [hr.length]; exact h1)⟩
      obtain ⟨b0, hb0⟩ : ∃ b, colMap[p.2]? = some b := ⟨_, List.getElem?_eq_getElem (by rw [hc.length]; exact h2)⟩
      have hpos := pos_lt h1 h2
      obtain ⟨map, m1, m2, m3⟩ := ih (v.set (p.1 * cols + p.2) (a0 * cols + b0)) (fun q hq => hlt q (by simp [hq])) (by simpa using hv)
      refine ⟨map, ?_, m2, ?_⟩
      · rw [List.foldlM_cons, ha0, hb0]
        simp only [Option.bind_some]
        rw [if_pos (by omega)]
        exact m1
      · intro i j a b ha hb h
        apply m3 i j a b ha hb
        have hj : j < cols := by
          obtain ⟨x, -⟩ := List.getElem?_eq_some_iff.1 hb
          rw [hc.length] at x
          exact x
        by_cases e : (i, j) ∈ ps
        · exact .inl e
        · right
          by_cases e2 : (i, j) = p
          · subst e2
            rw [List.getElem?_set_self (by omega)]
            rw [ha] at ha0
            rw [hb] at hb0
            cases ha0; cases hb0; rfl
          · have hne : p.1 * cols + p.2 ≠ i * cols + j := by
              intro h'
              obtain ⟨x, y⟩ := pos_inj h2 hj h'
              exact e2 (by rw [← x, ← y])
            rw [List.getElem?_set_ne hne]
            rcases h with h | h
            · rcases List.mem_cons.1 h with h | h
              · exact absurd h e2
              · exact absurd h e
            · exact h
  obtain ⟨map, m1, m2, m3⟩ := key ((List.range rows).flatMap fun i => (List.range cols).map fun j => (i, j)) (List.replicate (rows * cols) 0) (by
    intro p hp
    simp only [List.mem_flatMap, List.mem_map, List.mem_range] at hp
    obtain ⟨i, hi, j, hj, rfl⟩ := hp
    exact ⟨hi, hj⟩) (by simp)
  have hval : ∀ i j a b, rowMap[i]? = some a → colMap[j]? = some b → map[i * cols + j]? = some (a * cols + b) := by
    intro i j a b ha hb
    apply m3 i j a b ha hb
    left
    have hi : i < rows := by
      obtain ⟨x, -⟩ := List.getElem?_eq_some_iff.1 ha
      rw [hr.length] at x
      exact x
    have hj : j < cols := by
      obtain ⟨x, -⟩ := List.getElem?_eq_some_iff.1 hb
      rw [hc.length] at x
      exact x
    simp [hi, hj]
  have hdec : ∀ t < rows * cols, ∃ i j, i < rows ∧ j < cols ∧ t = i * cols + j := by
    intro t ht
    have hc0 : 0 < cols := by
      rcases Nat.eq_zero_or_pos cols with h | h
      · subst h; simp at ht
      · exact h
    exact ⟨t / cols, t % cols, (Nat.div_lt_iff_lt_mul hc0).2 ht, Nat.mod_lt _ hc0, by rw [Nat.mul_comm]; exact (Nat.div_add_mod _ _).symm⟩
  refine ⟨map, m1, ?_, hval⟩
  have hsub : List.range (rows * cols) ⊆ map := by
    intro t ht
    obtain ⟨a, b, ha, hb, rfl⟩ := hdec t (List.mem_range.1 ht)
    obtain ⟨i, -, hi⟩ := hr.surj ha
    obtain ⟨j, -, hj⟩ := hc.surj hb
    exact List.mem_of_getElem? (hval i j a b hi hj)
  exact ((List.subperm_of_subset List.nodup_range hsub).perm_of_length_le (by simp [m2])).symm

/-- **C60** For all matrices, keys, shuffles and loop orders both parties finish. The sender knows a bijection `map` of the positions that
moves rows as wholes; the receiver's byte at position `map(i)` is 1 if the two points of entry `i` are equal and 0 if they are not. -/
theorem peqt_correct [DecidableEq G] (cv : Curve G) (net : Net G) (hn : net.Ok) (H : Block → G) (k r : ℤ) (rowMap colMap s1 s2 : List Nat)
    (rows cols : Nat) (Y X : List Block) (hY : Y.length = rows * cols) (hX : X.length = rows * cols) (hrow : IsPerm rowMap rows)
    (hcol : IsPerm colMap cols) (h1 : IsPerm s1 (rows * cols)) (h2 : IsPerm s2 (rows * cols)) (hk : 0 < k ∧ k < cv.order)
    (hr : 0 < r ∧ r < cv.order) (hH : ∀ x, x ∈ X ∨ x ∈ Y → H x ≠ 0) :
    ∃ map out, Runs (send net H k rowMap colMap s1 s2 Y rows cols) (receive net cv.order H r X) map out ∧ IsPerm map (rows * cols) ∧
      out.length = rows * cols ∧
      (∀ i j a b, rowMap[i]? = some a → colMap[j]? = some b → map[i * cols + j]? = some (a * cols + b)) ∧
      ∀ (i t : Nat) x y, map[i]? = some t → X[i]? = some x → Y[i]? = some y → out[t]? = some (if H x = H y then 1 else 0) := by
  obtain ⟨map, m1, m2, m3⟩ := permutationMap_spec rowMap colMap rows cols hrow hcol
  obtain ⟨FY, y1, y2, y3⟩ := scatter_spec map (fun i => k • H (Y.getD i 0)) _ m2 s1 h1 (0 : G)
  obtain ⟨FX, x1, x2, x3⟩ := scatter_spec map (fun i => k • (X.map fun x => r • H x).getD i 0) _ m2 s2 h2 (0 : G)
  have hXg : ∀ i < rows * cols, X[i]? = some (X.getD i 0) := fun i hi => by simp [List.getD, hX, hi]
  have hYg : ∀ i < rows * cols, Y[i]? = some (Y.getD i 0) := fun i hi => by simp [List.getD, hY, hi]
  have hmg : ∀ i < rows * cols, (X.map fun x => r • H x).getD i 0 = r • H (X.getD i 0) := fun i hi =>
    getD_of_getElem? (by rw [List.getElem?_map, hXg i hi]; rfl)
  refine ⟨map, (List.range X.length).map fun i => if FY.getD i 0 = BigInt.modInverse r cv.order • FX.getD i 0 then 1 else 0, ?_, m2,
    by simp [hX], m3, ?_⟩
  · unfold send receive
    rw [hY, m1]
    simp only [y1]
    refine .pointsRL net hn (by simp [hX]) ?_ (.pointsLR net hn (by omega) ?_ ?_)
    · intro p hp
      rw [List.mem_map] at hp
      obtain ⟨x, hx, rfl⟩ := hp
      exact cv.smul_ne_zero hr.1 hr.2 (hH x (.inl hx))
    · intro p hp
      obtain ⟨i, hi, rfl⟩ := scatter_mem map _ _ m2 FY y2 y3 p hp
      exact cv.smul_ne_zero hk.1 hk.2 (hH _ (.inr (List.mem_of_getElem? (hYg i hi))))
    · rw [x1]
      refine .pointsLR net hn (by omega) ?_ (.done _ _)
      intro p hp
      obtain ⟨i, hi, rfl⟩ := scatter_mem map _ _ m2 FX x2 x3 p hp
      rw [hmg i hi]
      exact cv.smul_ne_zero hk.1 hk.2 (cv.smul_ne_zero hr.1 hr.2 (hH _ (.inl (List.mem_of_getElem? (hXg i hi)))))
  · intro i t x y hi hx hy
    have ht := m2.lt hi
    have hin : i < rows * cols := by
      obtain ⟨a, -⟩ := List.getElem?_eq_some_iff.1 hi
      rw [m2.length] at a
      exact a
    rw [List.getElem?_map, hX, List.getElem?_range ht, Option.map_some, getD_of_getElem? (y3 i t hi), getD_of_getElem? (x3 i t hi), hmg i hin,
      smul_comm k r, cv.unblind hr.1 hr.2, getD_of_getElem? hx, getD_of_getElem? hy]
    congr 1
    have : k • H y = k • H x ↔ H x = H y := by
      constructor
      · intro h
        have h' := congrArg (fun P => BigInt.modInverse k cv.order • P) h
        simp only [cv.unblind hk.1 hk.2] at h'
        exact h'.symm
      · intro h; rw [h]
    by_cases e : H x = H y
    · rw [if_pos e, if_pos (this.2 e)]
    · rw [if_neg e, if_neg (fun h => e (this.1 h))]

/-- **C60** With a hash that does not collide on the inputs, the byte is 1 exactly for equal blocks. -/
theorem peqt_exact [DecidableEq G] (cv : Curve G) (net : Net G) (hn : net.Ok) (H : Block → G) (k r : ℤ) (rowMap colMap s1 s2 : List Nat)
    (rows cols : Nat) (Y X : List Block) (hY : Y.length = rows * cols) (hX : X.length = rows * cols) (hrow : IsPerm rowMap rows)
    (hcol : IsPerm colMap cols) (h1 : IsPerm s1 (rows * cols)) (h2 : IsPerm s2 (rows * cols)) (hk : 0 < k ∧ k < cv.order)
    (hr : 0 < r ∧ r < cv.order) (hH : ∀ x, x ∈ X ∨ x ∈ Y → H x ≠ 0) (hinj : ∀ x ∈ X, ∀ y ∈ Y, H x = H y → x = y)
    (map : List Nat) (out : Bytes) (hrun : Runs (send net H k rowMap colMap s1 s2 Y rows cols) (receive net cv.order H r X) map out)
    (i t : Nat) (x y : Block) (hi : map[i]? = some t) (hx : X[i]? = some x) (hy : Y[i]? = some y) : out[t]? = some 1 ↔ x = y := by
  obtain ⟨map', out', r1, -, -, -, r5⟩ := peqt_correct cv net hn H k r rowMap colMap s1 s2 rows cols Y X hY hX hrow hcol h1 h2 hk hr hH
  obtain ⟨rfl, rfl⟩ := proto_result_unique _ _ _ _ _ _ hrun r1
  rw [r5 i t x y hi hx hy]
  by_cases e : x = y
  · subst e; simp
  · have : H x ≠ H y := fun h => e (hinj x (List.mem_of_getElem? hx) y (List.mem_of_getElem? hy) h)
    simp [this, e]

/-- A 2 x 2 matrix in the toy group. -/
example : ∃ map out, Runs (send toyNet (fun b => if b = 5 then 1 else 2) 3 [1, 0] [1, 0] [3, 1, 0, 2] [0, 1, 2, 3] [5, 6, 6, 5] 2 2)
    (receive toyNet (toyCurve.order : ℤ) (fun b => if b = 5 then 1 else 2) 4 [5, 5, 6, 6]) map out ∧ IsPerm map 4 ∧ out.length = 4 ∧
      (∀ i j a b, [1, 0][i]? = some a → [1, 0][j]? = some b → map[i * 2 + j]? = some (a * 2 + b)) ∧
      ∀ (i t : Nat) x y, map[i]? = some t → ([5, 5, 6, 6] : List Block)[i]? = some x → ([5, 6, 6, 5] : List Block)[i]? = some y →
        out[t]? = some (if (if x = 5 then (1 : ZMod 7) else 2) = (if y = 5 then 1 else 2) then 1 else 0) :=
  peqt_correct toyCurve toyNet toyNet_ok _ 3 4 [1, 0] [1, 0] [3, 1, 0, 2] [0, 1, 2, 3] 2 2 [5, 6, 6, 5] [5, 5, 6, 6] rfl rfl
    (by unfold IsPerm; decide) (by unfold IsPerm; decide) (by unfold IsPerm; decide) (by unfold IsPerm; decide) (by decide) (by decide)
    (by intro x _; split <;> decide)

end DDHPEQT

end
end Kunlun
