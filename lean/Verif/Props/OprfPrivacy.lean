import Verif.Props.DdhPrf
import Verif.Props.PeqtPrivacy
import Verif.Props.RpmtPrivacy
/-!
Property C115: what the two parties of the Diffie-Hellman based OPRF (`mpc/oprf/ddh_oprf.hpp`) see, and what the parties of the equality test see, when the hash to
the curve is a random function and Diffie-Hellman values look random.
-/

namespace Kunlun.Hiding

open Kunlun Finset

/-- There are finitely many blocks. -/
noncomputable instance blockFintype : Fintype Block :=
  Fintype.ofInjective (fun b : Block => (⟨b.toNat, b.isLt⟩ : Fin (2 ^ 128))) fun _ _ h => BitVec.eq_of_toNat_eq (Fin.mk.inj h)

/-- The same positions hold equal items in both lists. -/
def SamePattern {α : Type} (L L' : List α) : Prop := L'.length = L.length ∧ ∀ i < L.length, ∀ j < L.length, (L[i]? = L[j]? ↔ L'[i]? = L'[j]?)

theorem SamePattern.of_nodup {α : Type} {L L' : List α} (hl : L'.length = L.length) (h : L.Nodup) (h' : L'.Nodup) : SamePattern L L' := by
  refine ⟨hl, fun i hi j hj => ?_⟩
  rw [List.getElem?_eq_getElem hi, List.getElem?_eq_getElem hj, List.getElem?_eq_getElem (by omega), List.getElem?_eq_getElem (by omega), Option.some.injEq,
    Option.some.injEq, h.getElem_inj_iff, h'.getElem_inj_iff]

/-- Lists with the same pattern are renamings of each other. -/
theorem SamePattern.rename {α : Type} [Finite α] {L L' : List α} (h : SamePattern L L') : ∃ ρ : Equiv.Perm α, L.map ρ = L' := by
  classical
  obtain ⟨hl, hp⟩ := h
  have lt : ∀ x : {x // x ∈ L}, L.idxOf x.1 < L.length := fun x => List.idxOf_lt_length_of_mem x.2
  have at' : ∀ x : {x // x ∈ L}, L[L.idxOf x.1]? = some x.1 := fun x => by rw [List.getElem?_eq_getElem (lt x), List.getElem_idxOf]
  have get' : ∀ x : {x // x ∈ L}, L'[L.idxOf x.1]? = some (L'[L.idxOf x.1]'(by have := lt x; omega)) := fun x => List.getElem?_eq_getElem _
  obtain ⟨ρ, hρ⟩ := Equiv.Perm.exists_extending_pair (α := {x // x ∈ L}) (β := α) (fun x => x.1) (fun x => L'[L.idxOf x.1]'(by have := lt x; omega))
    (fun _ _ e => Subtype.ext e) (fun x y e => by
      have : L'[L.idxOf x.1]? = L'[L.idxOf y.1]? := by rw [get', get']; exact congrArg some e
      rw [← hp _ (lt x) _ (lt y), at', at'] at this
      exact Subtype.ext (Option.some.inj this))
  refine ⟨ρ, List.ext_getElem (by simp [hl]) fun i h1 h2 => ?_⟩
  rw [List.length_map] at h1
  rw [List.getElem_map, hρ ⟨L[i], List.getElem_mem h1⟩]
  have : L'[L.idxOf L[i]]? = L'[i]? := by
    rw [← hp _ (lt ⟨L[i], List.getElem_mem h1⟩) _ h1, at' ⟨L[i], List.getElem_mem h1⟩, List.getElem?_eq_getElem h1]
  rw [get' ⟨L[i], List.getElem_mem h1⟩, List.getElem?_eq_getElem h2] at this
  exact Option.some.inj this

variable {G ι : Type} [AddCommGroup G] [Fintype G] [Fintype ι] [DecidableEq ι]

theorem ideal_lists (L L' : List ι) (h : SamePattern L L') (D : (ι → G) → List G → ℝ) :
    prfIdeal (fun H F => D H (L.map F)) = prfIdeal (fun H F => D H (L'.map F)) := by
  obtain ⟨ρ, rfl⟩ := h.rename
  rw [← prfIdeal_rename ρ fun H F => D H (L.map F)]
  simp only [List.map_map]

theorem sum_update (z : ι) (f : (ι → G) → ℝ) : ∑ F : ι → G, ∑ Q : G, f (Function.update F z Q) = Fintype.card G * ∑ F : ι → G, f F := by
  have h : ∑ F : ι → G, ∑ Q : G, f (Function.update F z Q) = ∑ F : ι → G, ∑ _Q : G, f F := by
    rw [← sum_product', ← sum_product']
    refine sum_nbij' (fun p => (Function.update p.1 z p.2, p.1 z)) (fun p => (Function.update p.1 z p.2, p.1 z)) (fun _ _ => by simp) (fun _ _ => by simp)
      ?_ ?_ (fun _ _ => rfl)
    · intro p _
      simp
    · intro p _
      simp
  rw [h]
  simp only [sum_const, card_univ, nsmul_eq_mul, mul_sum]

end Kunlun.Hiding

namespace Kunlun.DDHOPRF

open Kunlun Kunlun.Proto Finset Hiding

variable {G : Type} [AddCommGroup G]

/-- The server (`server`) that ends with what it received. -/
def viewServer (net : Net G) (k : ℤ) (map sched : List Nat) (n : Nat) : Proc (List G) :=
  recvPoints net n fun mask =>
  match scatter map (fun i => k • mask.getD i 0) sched (List.replicate n 0) with
  | none => .fail
  | some out => sendPoints net out <| .done mask

/-- The client (`client`) that ends with what it received. -/
def viewClient (net : Net G) (H : Block → G) (r : ℤ) (X : List Block) (n : Nat) : Proc (List G) :=
  if X.length < n then .fail else
  sendPoints net ((List.range n).map fun i => r • H (X.getD i 0)) <| recvPoints net n fun F => .done F

/-- **C115** The messages of a run: the server gets the masked hashes of the client's inputs in their order, the client gets the masked values in the server's order
`L`. -/
theorem ddh_oprf_views (cv : Curve G) (net : Net G) (hn : net.Ok) (H : Block → G) (k r : ℤ) (map sched : List Nat) (X : List Block) (n : Nat) (hX : X.length = n)
    (hm : IsPerm map n) (hs : IsPerm sched n) (hk : 0 < k ∧ k < cv.order) (hr : 0 < r ∧ r < cv.order) (hH : ∀ x ∈ X, H x ≠ 0) :
    ∃ L : List Block, L.length = n ∧ (∀ i t : Nat, map[i]? = some t → L[t]? = X[i]?) ∧
      Runs (viewServer net k map sched n) (viewClient net H r X n) (X.map fun x => r • H x) (L.map fun x => r • k • H x) := by
  have hget : ∀ i < n, X[i]? = some (X.getD i 0) := fun i hi => by simp [List.getD, hX, hi]
  have hHn : ∀ i < n, H (X.getD i 0) ≠ 0 := fun i hi => hH _ (List.mem_of_getElem? (hget i hi))
  have hmask : ((List.range n).map fun i => r • H (X.getD i 0)) = X.map fun x => r • H x := by
    refine List.ext_getElem (by simp [hX]) fun i h1 h2 => ?_
    simp only [List.length_map, List.length_range] at h1
    have := hget i h1
    rw [List.getElem?_eq_getElem (by omega), Option.some.injEq] at this
    simp [this]
  have hmg : ∀ i < n, (X.map fun x => r • H x).getD i 0 = r • H (X.getD i 0) := fun i hi =>
    getD_of_getElem? (by rw [List.getElem?_map, hget i hi]; rfl)
  obtain ⟨F, f1, f2, f3⟩ := scatter_spec map (fun i => k • (X.map fun x => r • H x).getD i 0) n hm sched hs 0
  obtain ⟨L, -, l2, l3⟩ := scatter_spec map (fun i => X.getD i 0) n hm sched hs (0 : Block)
  have hin : ∀ i t : Nat, map[i]? = some t → i < n := fun i t h => by
    obtain ⟨a, -⟩ := List.getElem?_eq_some_iff.1 h
    rw [hm.length] at a
    exact a
  have hF : F = L.map fun x => r • k • H x := by
    refine List.ext_getElem? fun t => ?_
    by_cases ht : t < n
    · obtain ⟨i, hi, hit⟩ := hm.surj ht
      rw [f3 i t hit, List.getElem?_map, l3 i t hit, hmg i hi, smul_comm k r]
      rfl
    · rw [List.getElem?_eq_none (by omega), List.getElem?_eq_none (by simp; omega)]
  refine ⟨L, l2, fun i t hi => by rw [l3 i t hi, hget i (hin i t hi)], ?_⟩
  unfold viewServer viewClient
  rw [if_neg (by omega), hmask]
  refine .pointsRL net hn (by simp [hX]) ?_ ?_
  · intro p hp
    rw [List.mem_map] at hp
    obtain ⟨x, hx, rfl⟩ := hp
    exact cv.smul_ne_zero hr.1 hr.2 (hH x hx)
  · rw [f1]
    refine .pointsLR net hn f2 ?_ (hF ▸ .done _ _)
    intro p hp
    obtain ⟨i, hi, rfl⟩ := scatter_mem map _ n hm F f2 f3 p hp
    rw [hmg i hi]
    exact cv.smul_ne_zero hk.1 hk.2 (cv.smul_ne_zero hr.1 hr.2 (hHn i hi))

/-- The results of both parties are computed from what they received. -/
theorem oprf_from_views (net : Net G) (order : ℤ) (H : Block → G) (kdf : G → Bytes) (k r : ℤ) (bnLen : Nat) (map sched : List Nat) (X : List Block) (n : Nat) :
    server net k bnLen map sched n = (viewServer net k map sched n).bind (fun _ => .done (BigInt.toByteVector bnLen k)) ∧
    client net order H kdf r X n = (viewClient net H r X n).bind (fun F => .done ((List.range n).map fun i => kdf (BigInt.modInverse r order • F.getD i 0))) := by
  unfold server viewServer client viewClient recvPoints sendPoints
  constructor
  · rw [CwPRF.Rpmt.recvM_bind]
    congr 1
    funext m
    cases m with
    | points mask =>
      dsimp only
      generalize scatter map (fun i => k • mask.getD i 0) sched (List.replicate n 0) = o
      cases o with
      | none => rfl
      | some out =>
        dsimp only
        rw [CwPRF.Rpmt.sendM_bind]
        rfl
    | _ => rfl
  · split
    · rfl
    · rw [CwPRF.Rpmt.sendM_bind, CwPRF.Rpmt.recvM_bind]
      congr 2
      funext m
      cases m <;> rfl

/-- **C115** The message of a client with a single input is distributed like a random point, whatever the input: no test, however powerful, learns about it. -/
theorem ddh_oprf_one_input [Fintype G] (cv : Curve G) (g : G) (hg : Generates g) (H : Block → G) (x : Block) (hx : H x ≠ 0) (f : List G → ℝ) :
    ∑ r ∈ range cv.order, f ([x].map fun x => (r : ℤ) • H x) = ∑ Q : G, f [Q] :=
  masked_uniform cv g hg (H x) hx fun Q => f [Q]

/-- **C115** Whatever test the server makes of the client's message and the hash, two input vectors with repetitions at the same places are told apart only as far as
Diffie-Hellman values are told from random points. Missing: that repetitions do not show, which is false (`ddh_oprf_repeats_show`). -/
theorem ddh_oprf_server_view_hides_partial [Fintype G] (cv : Curve G) (g : G) (hg : Generates g) (X X' : List Block) (hp : SamePattern X X')
    (D : (Block → G) → List G → ℝ) :
    (1 - 1 / (cv.order : ℝ)) * |prfReal cv (fun H F => D H (X.map F)) - prfReal cv (fun H F => D H (X'.map F))| ≤
      ddhAdv cv g (prfTest cv g fun H F => D H (X.map F)) + ddhAdv cv g (prfTest cv g fun H F => D H (X'.map F)) :=
  ddh_views cv g hg _ _ (ideal_lists X X' hp D)

/-- **C115** Whatever test the client makes of the server's message, two orders `L`, `L'` of its different inputs are told apart only as far as Diffie-Hellman values are told
from random points; the blinding `r` is known to it. -/
theorem ddh_oprf_client_view_hides [Fintype G] (cv : Curve G) (g : G) (hg : Generates g) (L L' : List Block) (hl : L'.length = L.length) (hL : L.Nodup) (hL' : L'.Nodup)
    (r : ℤ) (D : (Block → G) → List G → ℝ) :
    (1 - 1 / (cv.order : ℝ)) * |prfReal cv (fun H F => D H (L.map fun x => r • F x)) - prfReal cv (fun H F => D H (L'.map fun x => r • F x))| ≤
      ddhAdv cv g (prfTest cv g fun H F => D H (L.map fun x => r • F x)) + ddhAdv cv g (prfTest cv g fun H F => D H (L'.map fun x => r • F x)) := by
  have h := ideal_lists L L' (.of_nodup hl hL hL') (fun (H : Block → G) l => D H (l.map fun P => r • P))
  simp only [List.map_map] at h
  exact ddh_views cv g hg _ _ h

/-- **C115** The value at an item the client did not ask for: told from a random point, by a client that knows its own values, only as far as Diffie-Hellman values are told from
random points. -/
theorem ddh_oprf_other_values [Fintype G] (cv : Curve G) (g : G) (hg : Generates g) (L : List Block) (z : Block) (hz : z ∉ L) (D : (Block → G) → List G → G → ℝ) :
    (1 - 1 / (cv.order : ℝ)) * |prfReal cv (fun H F => D H (L.map F) (F z)) - prfReal cv (fun H F => (∑ Q : G, D H (L.map F) Q) / Fintype.card G)| ≤
      ddhAdv cv g (prfTest cv g fun H F => D H (L.map F) (F z)) +
      ddhAdv cv g (prfTest cv g fun H F => (∑ Q : G, D H (L.map F) Q) / Fintype.card G) := by
  refine ddh_views cv g hg _ _ ?_
  unfold prfIdeal
  congr 1
  refine sum_congr rfl fun H _ => ?_
  have c0 : (Fintype.card G : ℝ) ≠ 0 := Nat.cast_ne_zero.2 Fintype.card_ne_zero
  rw [← sum_div, eq_div_iff c0, mul_comm, ← sum_update z fun F => D H (L.map F) (F z)]
  refine sum_congr rfl fun F _ => sum_congr rfl fun Q _ => ?_
  rw [Function.update_self]
  congr 1
  apply List.map_congr_left
  intro x hx
  exact Function.update_of_ne (fun e : x = z => hz (e ▸ hx)) Q F

/-- **C115 (violation)** The server sees which inputs of the client are equal, and the client sees which values in the server's order are. -/
theorem ddh_oprf_repeats_show (cv : Curve G) (H : Block → G) (r : ℤ) (hr : 0 < r ∧ r < cv.order) (X : List Block)
    (hinj : ∀ x ∈ X, ∀ y ∈ X, H x = H y → x = y) (i j : Nat) (hi : i < X.length) (hj : j < X.length) :
    (X.map fun x => r • H x)[i]? = (X.map fun x => r • H x)[j]? ↔ X[i]? = X[j]? := by
  rw [List.getElem?_map, List.getElem?_map, List.getElem?_eq_getElem hi, List.getElem?_eq_getElem hj, Option.map_some, Option.map_some, Option.some.injEq,
    Option.some.injEq, DDHPEQT.smul_inj cv hr.1 hr.2]
  exact ⟨hinj _ (List.getElem_mem hi) _ (List.getElem_mem hj), fun e => by rw [e]⟩

/-- A run in the toy group with three inputs, two of them equal. -/
example : ∃ L : List Block, L.length = 3 ∧ (∀ i t : Nat, [1, 2, 0][i]? = some t → L[t]? = ([5, 6, 5] : List Block)[i]?) ∧
    Runs (viewServer toyNet 3 [1, 2, 0] [2, 0, 1] 3) (viewClient toyNet (fun b => if b = 5 then 1 else 2) 4 [5, 6, 5] 3)
      (([5, 6, 5] : List Block).map fun x => (4 : ℤ) • if x = 5 then (1 : ZMod 7) else 2) (L.map fun x => (4 : ℤ) • (3 : ℤ) • if x = 5 then (1 : ZMod 7) else 2) :=
  ddh_oprf_views toyCurve toyNet toyNet_ok _ 3 4 [1, 2, 0] [2, 0, 1] [5, 6, 5] 3 rfl (by unfold IsPerm; decide) (by unfold IsPerm; decide) (by decide) (by decide)
    (by intro x _; split <;> decide)

/-- Two input vectors with a repetition at the same place; two that differ in this. -/
example : SamePattern ([5, 6, 5] : List Block) [1, 2, 1] ∧ ¬ SamePattern ([5, 6, 5] : List Block) [1, 2, 3] :=
  ⟨⟨rfl, by decide⟩, fun h => absurd ((h.2 0 (by decide) 2 (by decide)).1 rfl) (by decide)⟩

/-- A curve, a generator and an item that was not asked for. -/
example : toyCurve.order = 7 ∧ Generates toyCurve.gen ∧ (9 : Block) ∉ ([5, 6] : List Block) := ⟨rfl, toy_generates, by decide⟩

end Kunlun.DDHOPRF

namespace Kunlun.DDHPEQT

open Kunlun Kunlun.Proto Finset Hiding

variable {G : Type} [AddCommGroup G] [Fintype G]

/-- **C113** The sender of the equality test sees the masked hashes of the receiver's items: two item vectors with repetitions at the same places are told apart only as far as
Diffie-Hellman values are told from random points. -/
theorem peqt_sender_view_ddh (cv : Curve G) (g : G) (hg : Generates g) (X X' : List Block) (hp : SamePattern X X') (D : (Block → G) → List G → ℝ) :
    (1 - 1 / (cv.order : ℝ)) * |prfReal cv (fun H F => D H (X.map F)) - prfReal cv (fun H F => D H (X'.map F))| ≤
      ddhAdv cv g (prfTest cv g fun H F => D H (X.map F)) + ddhAdv cv g (prfTest cv g fun H F => D H (X'.map F)) :=
  ddh_views cv g hg _ _ (ideal_lists X X' hp D)

/-- The average outcome of a receiver's test of the hash and the two matrices it gets, over the sender's permutations. -/
noncomputable def matrixTest {rows cols : Nat} (X Y : Fin rows × Fin cols → Block) (D : (Block → G) → (Fin rows × Fin cols → G) → (Fin rows × Fin cols → G) → ℝ)
    (H F : Block → G) : ℝ :=
  (∑ α : Equiv.Perm (Fin rows), ∑ β : Equiv.Perm (Fin cols), D H (fun p => F (Y (α.symm p.1, β.symm p.2))) (fun p => F (X (α.symm p.1, β.symm p.2)))) /
    (Fintype.card (Equiv.Perm (Fin rows)) * Fintype.card (Equiv.Perm (Fin cols)))

/-- **C113** The receiver of the equality test tells two item matrices of the sender with the same matches, up to permutations of rows and columns, apart only as far as
Diffie-Hellman values are told from random points. -/
theorem peqt_receiver_view_ddh (cv : Curve G) (g : G) (hg : Generates g) {rows cols : Nat} (X Y Y' : Fin rows × Fin cols → Block) (σ : Equiv.Perm (Fin rows))
    (κ : Equiv.Perm (Fin cols)) (hX : Function.Injective X) (hY : Function.Injective Y) (hY' : Function.Injective Y')
    (hb : ∀ p q : Fin rows × Fin cols, Y p = X q ↔ Y' (σ p.1, κ p.2) = X (σ q.1, κ q.2))
    (D : (Block → G) → (Fin rows × Fin cols → G) → (Fin rows × Fin cols → G) → ℝ) :
    (1 - 1 / (cv.order : ℝ)) * |prfReal cv (matrixTest X Y D) - prfReal cv (matrixTest X Y' D)| ≤
      ddhAdv cv g (prfTest cv g (matrixTest X Y D)) + ddhAdv cv g (prfTest cv g (matrixTest X Y' D)) := by
  refine ddh_views cv g hg _ _ ?_
  obtain ⟨ρ, hρ⟩ := peqt_view_hides_partial (G := G) X Y Y' σ κ hX hY hY' hb
  rw [← prfIdeal_rename ρ.symm (matrixTest X Y' D)]
  congr 1
  funext H F
  unfold matrixTest
  congr 1
  refine Eq.trans (sum_congr rfl fun α _ => ?_) (Equiv.sum_comp (Equiv.mulRight σ⁻¹) _)
  refine Eq.trans (sum_congr rfl fun β _ => ?_) (Equiv.sum_comp (Equiv.mulRight κ⁻¹) _)
  have h := hρ F α β
  congr 1
  · funext p
    exact (h p).1.symm
  · funext p
    exact (h p).2.symm

end Kunlun.DDHPEQT
