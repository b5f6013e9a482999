import Verif.Props.Baxos
import Verif.Model.OkvsNat
/-!
C57: when the binned OKVS returns a vector.
-/

namespace Kunlun.Baxos
open Kunlun Kunlun.OKVS Kunlun.FastDiv

theorem assign_some {V : Type} (c : BCfg) (l : List (Nat × Block × V)) (tb : Nat → List (Block × V))
    (h : ∀ b, (tb b).length + l.countP (fun p => p.1 = b) ≤ c.cap ∧ (tb b).length + l.countP (fun p => p.1 = b) < 2 ^ (idxFor c.s).bits) :
    ∃ tb', assign c l tb = some tb' := by
  induction l generalizing tb with
  | nil => exact ⟨tb, rfl⟩
  | cons p l ih =>
    obtain ⟨b0, x⟩ := p
    unfold assign
    have h0 := h b0
    rw [List.countP_cons_of_pos (by simp)] at h0
    rw [if_pos (by omega)]
    apply ih
    intro b
    have hb := h b
    by_cases e : b0 = b
    · subst e
      rw [Function.update_self, List.length_append, List.length_singleton]
      omega
    · rw [Function.update_of_ne (Ne.symm e)]
      rw [List.countP_cons_of_neg (by simpa using e)] at hb
      exact hb

theorem countP_zip_map {α β : Type} (f : α → Nat) (l : List (α × β)) (b : Nat) :
    (((l.map Prod.fst).map f).zip l).countP (fun p => p.1 = b) = (l.map Prod.fst).countP fun x => f x = b := by
  induction l with
  | nil => rfl
  | cons p l ih =>
    simp only [List.map_cons, List.zip_cons_cons, List.countP_cons, ih]

/-- `solve` returns if every thread has at least 32 keys and no more than `bin_size_per_thread` of a bin, and the OKVS of every bin, made from
all items of that bin in their order, can be encoded. The vector then consists of those of the bins. -/
theorem baxos_solves {V : Type} (o : ValOps V) (c : BCfg) (h1 : c.bins ≠ 1) (h0 : 0 < c.bins) (T : Nat) (hT : 0 < T)
    (hw : ∀ b < c.bins, b + T < 256) (junk : Nat → Nat → Node) (rnd : Nat → Option (Rnd V)) (hs : List Block) (values : List V) (out0 : Nat → V)
    (hlen : hs.length = values.length) (h32 : ∀ t < T, 32 ≤ (slice hs T t).length)
    (hcap : ∀ t < T, ∀ b, (slice hs T t).countP (fun h => binOf c.bins h = b) ≤ c.cap ∧
      (slice hs T t).countP (fun h => binOf c.bins h = b) < 2 ^ (idxFor c.s).bits)
    (y : Nat → Nat → V)
    (hy : ∀ b < c.bins, solveBin o c (junk b) (rnd b) (fun i => out0 (b * c.total + i)) ((hs.zip values).filter fun p => binOf c.bins p.1 = b)
      = some (y b)) :
    ∃ out, solve o c T junk rnd hs values out0 = some out ∧ ∀ b < c.bins, ∀ i < c.total, out (b * c.total + i) = y b i := by
  have hB : c.bins < 256 := by
    by_contra hn
    have := hw 255 (by omega)
    omega
  obtain ⟨dv, hdv, -⟩ := genDivider_good _ (ofNat_ne_zero c.bins h0 (by omega))
  have hzf : (hs.zip values).map Prod.fst = hs := List.map_fst_zip (by omega)
  obtain ⟨tabs, htabs, -⟩ := mapM_some_of (fun t => threadTable c dv (slice (hs.zip values) T t)) (List.range T) (by
    intro t ht
    rw [List.mem_range] at ht
    have hsl : (slice (hs.zip values) T t).map Prod.fst = slice hs T t := by rw [← slice_map, hzf]
    unfold threadTable
    rw [if_neg (by
      have := h32 t ht
      rw [← hsl, List.length_map] at this
      omega), binAll_eq c.bins h0 (by omega) dv hdv]
    apply assign_some
    intro b
    rw [countP_zip_map, hsl]
    simpa using hcap t ht b)
  have hbins : ((List.range c.bins).mapM fun b =>
      solveBin o c (junk b) (rnd b) (fun i => out0 (b * c.total + i)) (tabs.flatMap fun tb => tb b)) = some ((List.range c.bins).map y) := by
    apply mapM_eq_map
    intro b hb
    rw [bin_items c h0 (by omega) dv hdv T hT _ _ htabs]
    exact hy b (List.mem_range.1 hb)
  refine ⟨fun a => (((List.range c.bins).map y).getD (a / c.total) fun _ => out0 a) (a % c.total), ?_, fun b hb i hi => ?_⟩
  · unfold solve
    rw [if_neg (by omega), if_neg h1, if_neg (by omega), if_neg (by
      intro h
      obtain ⟨b, hb, hb'⟩ := List.any_eq_true.1 h
      have := hw b (List.mem_range.1 hb)
      simp only [decide_eq_true_eq] at hb'
      omega), hdv]
    simp only
    rw [htabs]
    simp only
    rw [hbins]
  · have ht : 0 < c.total := by omega
    have e1 : (b * c.total + i) / c.total = b := by
      rw [Nat.mul_comm, Nat.mul_add_div ht, Nat.div_eq_of_lt hi, Nat.add_zero]
    have e2 : (b * c.total + i) % c.total = i := by
      rw [Nat.mul_comm, Nat.mul_add_mod, Nat.mod_eq_of_lt hi]
    simp only [e1, e2]
    rw [List.getD_eq_getElem?_getD, List.getElem?_map, List.getElem?_range hb]
    rfl

/-- A bin with fewer than 256 items has fewer than 256 gap rows. -/
theorem fewGaps_short {V : Type} (c : BCfg) (hc : (c.cfg 0).Ok) (junk : Nat → Node) (items : List (Block × V)) (h : items.length < 256) :
    FewGaps c junk items := by
  right
  intro dvs st tr h1 h2 h3
  obtain ⟨s1, -, -⟩ := setKeys_spec h1 ⟨hc.fits, hc.small⟩ h2
  obtain ⟨hinv, hall⟩ := triangulate_spec s1 h3
  have hp : (tr.triR ++ tr.gapR).Perm (List.range items.length) :=
    (List.perm_ext_iff_of_nodup hinv.nodup List.nodup_range).2 (fun r => by rw [hall r, List.mem_range]; rfl)
  have := hp.length_eq
  rw [List.length_append, List.length_range] at this
  omega

end Kunlun.Baxos
