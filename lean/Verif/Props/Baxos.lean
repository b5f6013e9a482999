import Verif.Model.Baxos
import Verif.Model.BaxosSizes
/-!
C57: the binned OKVS gives each key the value it was stored with.
-/

namespace Kunlun.Baxos
open Kunlun Kunlun.OKVS Kunlun.FastDiv

theorem cut_mono (K T t : Nat) : cut K T t ≤ cut K T (t + 1) := Nat.div_le_div_right (Nat.mul_le_mul_left _ (by omega))

theorem cut_all (K T : Nat) (hT : 0 < T) : cut K T T = K := Nat.mul_div_cancel _ hT

theorem slices_take {α : Type} (l : List α) (T m : Nat) : (List.range m).flatMap (slice l T) = l.take (cut l.length T m) := by
  induction m with
  | zero => simp [cut]
  | succ m ih =>
    rw [List.range_succ, List.flatMap_append, ih]
    simp only [List.flatMap_cons, List.flatMap_nil, List.append_nil, slice]
    rw [← List.take_add]
    congr 1
    have := cut_mono l.length T m
    omega

/-- The threads together handle everything, in order. -/
theorem slices_all {α : Type} (l : List α) (T : Nat) (hT : 0 < T) : (List.range T).flatMap (slice l T) = l := by
  rw [slices_take, cut_all _ _ hT, List.take_length]

theorem binAll_eq (B : Nat) (h0 : 0 < B) (hB : B < 2 ^ 64) (dv : Divider) (h : genDivider (BitVec.ofNat 64 B) = .ok dv) (fuel : Nat)
    (ds : List Block) : binAll B dv fuel ds = some (ds.map (binOf B)) := by
  induction fuel generalizing ds with
  | zero => rfl
  | succ fuel ih =>
    unfold binAll
    split
    · rename_i hl
      rw [doMod32_exact _ (ofNat_ne_zero _ h0 hB) dv h _ (by simp; omega), ih]
      simp only [Option.some.injEq]
      rw [List.take_of_length_le (by simp), List.drop_eq_nil_of_le (by simp), List.append_nil, List.map_map, List.map_map]
      rw [← List.take_append_drop 32 (ds.map (binOf B)), ← List.map_take, ← List.map_drop]
      congr 1
      refine List.map_congr_left (fun d _ => ?_)
      simp only [Function.comp, BitVec.toNat_umod, BitVec.toNat_ofNat, Nat.mod_eq_of_lt hB]
      rfl
    · rfl

theorem assign_eq {V : Type} (c : BCfg) (l : List (Nat × Block × V)) (tb tb' : Nat → List (Block × V)) (h : assign c l tb = some tb')
    (b : Nat) : tb' b = tb b ++ (l.filter fun p => p.1 = b).map Prod.snd := by
  induction l generalizing tb with
  | nil => cases h; simp
  | cons p l ih =>
    obtain ⟨b0, x⟩ := p
    unfold assign at h
    split at h
    · rw [ih _ h]
      by_cases hb : b0 = b
      · subst hb; simp
      · rw [Function.update_of_ne (Ne.symm hb)]; simp [hb]
    · cases h

theorem mapM_map_eq {α β γ : Type} (f : α → Option β) (P : β → γ) (Q : α → γ) (l : List α) (r : List β) (e : l.mapM f = some r)
    (h : ∀ x ∈ l, ∀ y, f x = some y → P y = Q x) : r.map P = l.map Q := by
  induction l generalizing r with
  | nil => cases e; rfl
  | cons a l ih =>
    rw [List.mapM_cons] at e
    cases h1 : f a with
    | none => rw [h1] at e; simp at e
    | some y =>
      rw [h1] at e
      cases h2 : l.mapM f with
      | none => rw [h2] at e; simp at e
      | some r1 =>
        rw [h2] at e
        have : r = y :: r1 := by simpa using e.symm
        subst this
        rw [List.map_cons, List.map_cons, h a (List.mem_cons_self ..) y h1, ih r1 h2 (fun x hx => h x (List.mem_cons_of_mem _ hx))]

theorem filter_zip_map {α β : Type} (f : α → Nat) (l : List (α × β)) (b : Nat) :
    (((l.map Prod.fst).map f).zip l |>.filter fun p => p.1 = b).map Prod.snd = l.filter fun p => f p.1 = b := by
  induction l with
  | nil => rfl
  | cons p l ih =>
    simp only [List.map_cons, List.zip_cons_cons, List.filter_cons]
    split <;> rename_i h <;> simp_all

/-- What is collected for a bin: exactly the items of that bin, in order, whatever the number of threads. -/
theorem bin_items {V : Type} (c : BCfg) (h0 : 0 < c.bins) (hB : c.bins < 2 ^ 64) (dv : Divider)
    (hdv : genDivider (BitVec.ofNat 64 c.bins) = .ok dv) (T : Nat) (hT : 0 < T) (items : List (Block × V))
    (tabs : List (Nat → List (Block × V))) (e : ((List.range T).mapM fun t => threadTable c dv (slice items T t)) = some tabs) (b : Nat) :
    (tabs.flatMap fun tb => tb b) = items.filter fun p => binOf c.bins p.1 = b := by
  have h := mapM_map_eq _ (fun tb => tb b) (fun t => (slice items T t).filter fun p => binOf c.bins p.1 = b) _ _ e (by
    intro t _ y hy
    unfold threadTable at hy
    split at hy
    · cases hy
    rw [binAll_eq c.bins h0 hB dv hdv] at hy
    simp only at hy
    rw [assign_eq c _ _ _ hy b, List.nil_append, filter_zip_map])
  rw [List.flatMap_def, h, ← List.flatMap_def]
  conv_rhs => rw [← slices_all items T hT]
  rw [List.filter_flatMap]

/-! ### decode -/

theorem rowVal_congr {V : Type} (o : ValOps V) (c : Cfg) (x y : Nat → V) (d : Block) (row : List Nat) (h1 : ∀ a ∈ row, x a = y a)
    (h2 : ∀ j < c.ds, x (c.s + j) = y (c.s + j)) : rowVal o c x d row = rowVal o c y d row := by
  cases row with
  | nil => rfl
  | cons c0 cs =>
    unfold rowVal
    have e1 : spSum o x (x c0) cs = spSum o y (y c0) cs := by
      rw [h1 c0 (List.mem_cons_self ..)]
      exact List.foldl_ext _ _ _ (fun a b hb => by rw [h1 b (List.mem_cons_of_mem _ hb)])
    simp only [e1]
    split
    · split
      · rfl
      · congr 1
        exact List.foldl_ext _ _ _ (fun a j hj => by simp only [h2 j (List.mem_range.1 hj)])
    · congr 1
      exact List.foldl_ext _ _ _ (fun a j hj => by simp only [h2 j (List.mem_range.1 hj)])

/-- Decoding reads only the `total_size` positions of the vector. -/
theorem decode1_congr {V : Type} (o : ValOps V) (c : Cfg) (hc : c.Ok) (dvs : List Divider) (hd : mkDividers c.w c.s = some dvs)
    (x y : Nat → V) (d : Block) (h : ∀ a < c.s + c.ds, x a = y a) : decode1 o c dvs x d = decode1 o c dvs y d := by
  unfold decode1
  obtain ⟨r, hr, -, -, hlt⟩ := okvs_row_distinct c.t c.w c.s hc.fits dvs hd d
  rw [hr]
  exact rowVal_congr o c x y d r (fun a ha => h a (by have := hlt a ha; omega)) (fun j hj => h _ (by omega))

theorem foldl_writes {V : Type} (tv buf : Nat → V) (l : List (Block × Nat)) (n : Nat) (vals : Nat → V)
    (h : ∀ k (hk : k < l.length), buf (n + k) = tv l[k].2) (i : Nat) :
    (l.zipIdx n).foldl (fun f p => Function.update f p.1.2 (buf p.2)) vals i = if i ∈ l.map Prod.snd then tv i else vals i := by
  induction l generalizing n vals with
  | nil => simp
  | cons p l ih =>
    rw [List.zipIdx_cons, List.foldl_cons, ih (n + 1) _ (fun k hk => by
      have := h (k + 1) (by simpa using hk)
      rw [List.getElem_cons_succ] at this
      rw [← this]; congr 1; omega)]
    have h0 := h 0 (by simp)
    simp only [Nat.add_zero, List.getElem_cons_zero] at h0
    by_cases hi : i = p.2
    · subst hi
      simp [h0]
    · rw [Function.update_of_ne hi]
      simp [hi]

section dec
variable {V : Type} (o : ValOps V) (c : BCfg) (hc : (c.cfg 0).Ok) (dvs : List Divider) (hd : mkDividers c.w c.s = some dvs)
  (out : Nat → V) (tv : Nat → V)
include hc hd

theorem flush_spec (b : Nat) (st : Dec V) (hlen : (st.batch b).length < 2 ^ (idxFor c.s).bits)
    (h : ∀ p ∈ st.batch b, decode1 o (c.cfg 0) dvs (seg c out b) p.1 = some (tv p.2)) :
    ∃ st', flush o c dvs out b st = some st' ∧ st'.batch = Function.update st.batch b [] ∧
      ∀ i, st'.vals i = if i ∈ (st.batch b).map Prod.snd then tv i else st.vals i := by
  unfold flush
  rw [okvs_decode_list o hd hc]
  simp only [List.length_map]
  have hb : (c.cfg 0).t.bits = (idxFor c.s).bits := rfl
  rw [hb, Nat.mod_eq_of_lt hlen, List.take_of_length_le (by simp)]
  have e : ((st.batch b).map Prod.fst).mapM (decode1 o (c.cfg 0) dvs (seg c out b)) = some ((st.batch b).map fun p => tv p.2) := by
    generalize st.batch b = l at h
    clear hlen
    induction l with
    | nil => rfl
    | cons p l ih =>
      rw [List.map_cons, List.mapM_cons, h p (List.mem_cons_self ..), ih (fun q hq => h q (List.mem_cons_of_mem _ hq))]
      rfl
  rw [e]
  refine ⟨_, rfl, rfl, fun i => ?_⟩
  exact foldl_writes tv (fun j => if j < (st.batch b).length then
    (((st.batch b).map fun p => tv p.2) ++ List.replicate ((st.batch b).length - (st.batch b).length) o.zero).getD j o.zero
    else st.buf j) (st.batch b) 0 st.vals (fun k hk => by simp [hk]) i

/-- Between two keys: batches hold keys of their bin, every key seen is either in a batch or has its value. -/
structure Inv (hs : List Block) (i size : Nat) (st : Dec V) : Prop where
  cons : ∀ b, ∀ p ∈ st.batch b, hs[p.2]? = some p.1 ∧ binOf c.bins p.1 = b
  done : ∀ k < i, st.vals k = tv k ∨ ∃ b, ∃ p ∈ st.batch b, p.2 = k
  count : ∀ b, (st.batch b).length ≤ (hs.take i).countP fun h => binOf c.bins h = b
  size : ∀ b, (st.batch b).length < size

variable (hs : List Block) (hval : ∀ k h, hs[k]? = some h → decode1 o (c.cfg 0) dvs (seg c out (binOf c.bins h)) h = some (tv k))
  (htr : ∀ b, min 512 (hs.countP fun h => binOf c.bins h = b) < 2 ^ (idxFor c.s).bits)
include hval htr

theorem step_spec (i : Nat) (hi : i < hs.length) (st : Dec V) (hinv : Inv c tv hs i (min 512 hs.length) st) :
    ∃ st', step o c dvs out (min 512 hs.length) (binOf c.bins hs[i]) (hs[i], i) st = some st' ∧
      Inv c tv hs (i + 1) (min 512 hs.length) st' := by
  set b := binOf c.bins hs[i] with hb
  have hcount : ∀ b', (hs.take (i + 1)).countP (fun h => binOf c.bins h = b')
      = (hs.take i).countP (fun h => binOf c.bins h = b') + if b = b' then 1 else 0 := by
    intro b'
    rw [List.take_succ_eq_append_getElem hi, List.countP_append]
    simp [hb]
  have hle : ∀ b', (hs.take (i + 1)).countP (fun h => binOf c.bins h = b') ≤ hs.countP fun h => binOf c.bins h = b' :=
    fun b' => (List.take_sublist _ _).countP_le
  have hcons : ∀ b', ∀ p ∈ Function.update st.batch b (st.batch b ++ [(hs[i], i)]) b', hs[p.2]? = some p.1 ∧ binOf c.bins p.1 = b' := by
    intro b' p hp
    by_cases hbb : b' = b
    · subst hbb
      rw [Function.update_self] at hp
      rcases List.mem_append.1 hp with hp | hp
      · exact hinv.cons _ p hp
      · rw [List.mem_singleton] at hp
        subst hp
        exact ⟨List.getElem?_eq_getElem hi, rfl⟩
    · rw [Function.update_of_ne hbb] at hp
      exact hinv.cons b' p hp
  have hlen := hinv.size b
  have hcnt := hinv.count b
  unfold step
  simp only
  split
  · rename_i hfull
    obtain ⟨st', e, e1, e2⟩ := flush_spec o c hc dvs hd out tv b
      ⟨Function.update st.batch b (st.batch b ++ [(hs[i], i)]), st.vals, st.buf⟩ (by
        simp only [Function.update_self, List.length_append, List.length_singleton]
        have h1 := htr b
        have h2 := hle b
        rw [hcount b, if_pos rfl] at h2
        omega) (by
        intro p hp
        obtain ⟨h1, h2⟩ := hcons b p hp
        have := hval _ _ h1
        rwa [h2] at this)
    refine ⟨st', e, ?_, ?_, ?_, ?_⟩
    · intro b' p hp
      rw [e1] at hp
      by_cases hbb : b' = b
      · subst hbb; simp at hp
      · rw [Function.update_of_ne hbb] at hp
        exact hcons b' p hp
    · intro k hk
      rw [e2]
      simp only [Function.update_self]
      split
      · exact Or.inl rfl
      · rename_i hnot
        have hki : k ≠ i := by
          rintro rfl
          exact hnot (by simp)
        rcases hinv.done k (by omega) with h | ⟨b', p, hp, hpk⟩
        · exact Or.inl h
        · right
          refine ⟨b', p, ?_, hpk⟩
          rw [e1]
          have hbb : b' ≠ b := by
            rintro rfl
            exact hnot (List.mem_map.2 ⟨p, List.mem_append_left _ hp, hpk⟩)
          rw [Function.update_of_ne hbb]
          simp only
          rw [Function.update_of_ne hbb]
          exact hp
    · intro b'
      rw [e1, hcount]
      by_cases hbb : b' = b
      · subst hbb; simp
      · rw [Function.update_of_ne hbb]
        simp only
        rw [Function.update_of_ne hbb]
        have := hinv.count b'
        omega
    · intro b'
      rw [e1]
      by_cases hbb : b' = b
      · subst hbb; simp; omega
      · rw [Function.update_of_ne hbb]
        simp only
        rw [Function.update_of_ne hbb]
        exact hinv.size b'
  · rename_i hfull
    refine ⟨_, rfl, hcons, ?_, ?_, ?_⟩
    · intro k hk
      by_cases hki : k = i
      · subst hki
        exact Or.inr ⟨b, (hs[k], k), by simp, rfl⟩
      · rcases hinv.done k (by omega) with h | ⟨b', p, hp, hpk⟩
        · exact Or.inl h
        · right
          refine ⟨b', p, ?_, hpk⟩
          simp only
          by_cases hbb : b' = b
          · subst hbb
            rw [Function.update_self]
            exact List.mem_append_left _ hp
          · rw [Function.update_of_ne hbb]; exact hp
    · intro b'
      rw [hcount]
      simp only
      by_cases hbb : b' = b
      · subst hbb
        rw [Function.update_self, if_pos rfl]
        simp only [List.length_append, List.length_singleton]
        omega
      · rw [Function.update_of_ne hbb]
        have := hinv.count b'
        omega
    · intro b'
      simp only
      by_cases hbb : b' = b
      · subst hbb
        rw [Function.update_self]
        simp only [List.length_append, List.length_singleton]
        omega
      · rw [Function.update_of_ne hbb]
        exact hinv.size b'

theorem loop_spec (r : List Block) (i : Nat) (hr : hs.drop i = r) (hi : i ≤ hs.length) (st : Dec V)
    (hinv : Inv c tv hs i (min 512 hs.length) st) :
    ∃ st', batchLoop o c dvs out (min 512 hs.length) ((r.zipIdx i).map fun p => (binOf c.bins p.1, p)) st = some st' ∧
      Inv c tv hs hs.length (min 512 hs.length) st' := by
  induction r generalizing i st with
  | nil =>
    have : hs.length ≤ i := List.drop_eq_nil_iff.1 hr
    have : i = hs.length := by omega
    subst this
    exact ⟨st, rfl, hinv⟩
  | cons h r ih =>
    have hlt : i < hs.length := by
      by_contra hn
      rw [List.drop_eq_nil_of_le (by omega)] at hr
      cases hr
    rw [List.drop_eq_getElem_cons hlt] at hr
    injection hr with h1 h2
    obtain ⟨st1, e1, inv1⟩ := step_spec o c hc dvs hd out tv hs hval htr i hlt st hinv
    obtain ⟨st2, e2, inv2⟩ := ih (i + 1) h2 (by omega) st1 inv1
    refine ⟨st2, ?_, inv2⟩
    rw [List.zipIdx_cons, List.map_cons]
    unfold batchLoop
    rw [← h1, e1]
    exact e2

theorem finish_spec (bs : List Nat) (st : Dec V) (hinv : Inv c tv hs hs.length (min 512 hs.length) st) :
    ∃ st', finish o c dvs out bs st = some st' ∧ Inv c tv hs hs.length (min 512 hs.length) st' ∧
      (∀ b ∈ bs, st'.batch b = []) ∧ ∀ b, st.batch b = [] → st'.batch b = [] := by
  induction bs generalizing st with
  | nil => exact ⟨st, rfl, hinv, by simp, fun _ h => h⟩
  | cons b bs ih =>
    unfold finish
    split
    · rename_i he
      obtain ⟨st', e, i1, i2, i3⟩ := ih st hinv
      exact ⟨st', e, i1, fun b' hb' => by
        rcases List.mem_cons.1 hb' with rfl | hb'
        · exact i3 _ he
        · exact i2 b' hb', i3⟩
    · rename_i hne
      have hpos : 0 < hs.length := by have := hinv.size b; omega
      obtain ⟨st1, e, e1, e2⟩ := flush_spec o c hc dvs hd out tv b st (by
          have h1 := htr b
          have h2 := hinv.count b
          have h3 := hinv.size b
          rw [List.take_length] at h2
          omega) (by
          intro p hp
          obtain ⟨h1, h2⟩ := hinv.cons b p hp
          have := hval _ _ h1
          rwa [h2] at this)
      have inv1 : Inv c tv hs hs.length (min 512 hs.length) st1 := by
        refine ⟨?_, ?_, ?_, ?_⟩
        · intro b' p hp
          rw [e1] at hp
          by_cases hbb : b' = b
          · subst hbb; simp at hp
          · rw [Function.update_of_ne hbb] at hp
            exact hinv.cons b' p hp
        · intro k hk
          rw [e2]
          split
          · exact Or.inl rfl
          · rename_i hnot
            rcases hinv.done k hk with h | ⟨b', p, hp, hpk⟩
            · exact Or.inl h
            · right
              refine ⟨b', p, ?_, hpk⟩
              have hbb : b' ≠ b := by
                rintro rfl
                exact hnot (List.mem_map.2 ⟨p, hp, hpk⟩)
              rw [e1, Function.update_of_ne hbb]
              exact hp
        · intro b'
          rw [e1]
          by_cases hbb : b' = b
          · subst hbb; simp
          · rw [Function.update_of_ne hbb]; exact hinv.count b'
        · intro b'
          rw [e1]
          by_cases hbb : b' = b
          · subst hbb; simp; omega
          · rw [Function.update_of_ne hbb]; exact hinv.size b'
      obtain ⟨st', e', i1, i2, i3⟩ := ih st1 inv1
      have hempty : st1.batch b = [] := by rw [e1, Function.update_self]
      refine ⟨st', by rw [e]; exact e', i1, fun b' hb' => ?_, fun b' hb' => i3 b' ?_⟩
      · rcases List.mem_cons.1 hb' with rfl | hb'
        · exact i3 _ hempty
        · exact i2 b' hb'
      · rw [e1]
        by_cases hbb : b' = b
        · subst hbb; simp
        · rw [Function.update_of_ne hbb]; exact hb'

theorem decodeBatch_spec (h0 : 0 < c.bins) (hB : c.bins < 2 ^ 64) (vals : Nat → V) :
    decodeBatch o c dvs out vals hs = some ((List.range hs.length).map tv) := by
  obtain ⟨dv, hdv, -⟩ := fast_division_exact (BitVec.ofNat 64 c.bins) (ofNat_ne_zero _ h0 hB)
  unfold decodeBatch
  rw [hdv]
  simp only
  rw [binAll_eq c.bins h0 hB dv hdv]
  simp only
  have hz : (hs.map (binOf c.bins)).zip hs.zipIdx = (hs.zipIdx 0).map fun p => (binOf c.bins p.1, p) := by
    apply List.ext_getElem (by simp)
    intro i h1 h2
    simp
  rw [hz]
  by_cases hne : hs = []
  · subst hne
    simp only [List.zipIdx_nil, List.map_nil, batchLoop]
    have : ∀ bs : List Nat, ∀ st : Dec V, (∀ b, st.batch b = []) → finish o c dvs out bs st = some st := by
      intro bs
      induction bs with
      | nil => intro st _; rfl
      | cons b bs ih => intro st h; unfold finish; rw [if_pos (h b)]; exact ih st h
    rw [this _ _ (fun _ => rfl)]
    rfl
  · have hpos : 0 < hs.length := List.length_pos_of_ne_nil hne
    have inv0 : Inv c tv hs 0 (min 512 hs.length) ⟨fun _ => [], vals, fun _ => o.zero⟩ :=
      ⟨by simp, by simp, by simp, by simp; omega⟩
    obtain ⟨st1, e1, inv1⟩ := loop_spec o c hc dvs hd out tv hs hval htr hs 0 rfl (by omega) _ inv0
    obtain ⟨st2, e2, inv2, hemp, -⟩ := finish_spec o c hc dvs hd out tv hs hval htr (List.range c.bins) st1 inv1
    rw [e1]
    simp only
    rw [e2]
    simp only [Option.some.injEq]
    refine List.map_congr_left (fun k hk => ?_)
    rcases inv2.done k (List.mem_range.1 hk) with h | ⟨b, p, hp, -⟩
    · exact h
    · exfalso
      have hb : b < c.bins := by
        rw [← (inv2.cons b p hp).2]
        exact Nat.mod_lt _ h0
      rw [hemp b (List.mem_range.2 hb)] at hp
      simp at hp

end dec

/-- The loop of baxos.hpp:250 over the bins of one thread, `for (uint8_t bin_idx = thread_id; bin_idx < bin_num; bin_idx += thread_num)`:
the bins visited if it ends within `fuel` rounds. -/
def loopBins (T B : Nat) : Nat → BitVec 8 → Option (List Nat)
  | 0, _ => none
  | fuel + 1, b => if b.toNat < B then (loopBins T B fuel (b + BitVec.ofNat 8 T)).map (b.toNat :: ·) else some []

theorem loopBins_mem (T B : Nat) (hT : 0 < T) (hw : ∀ b < B, b + T < 256) (fuel : Nat) (b : BitVec 8) (hf : B < b.toNat + fuel)
    (hf' : 0 < fuel) : ∃ l, loopBins T B fuel b = some l ∧ l.Nodup ∧ ∀ x, x ∈ l ↔ x < B ∧ b.toNat ≤ x ∧ x % T = b.toNat % T := by
  induction fuel generalizing b with
  | zero => omega
  | succ fuel ih =>
    unfold loopBins
    split
    · rename_i hb
      have hw' := hw _ hb
      have hadd : (b + BitVec.ofNat 8 T).toNat = b.toNat + T := by
        rw [BitVec.toNat_add, BitVec.toNat_ofNat, Nat.mod_eq_of_lt (a := T) (by omega), Nat.mod_eq_of_lt (by omega)]
      obtain ⟨l, e, hnd, hl⟩ := ih (b + BitVec.ofNat 8 T) (by rw [hadd]; omega) (by omega)
      rw [hadd] at hl
      refine ⟨b.toNat :: l, by rw [e]; rfl, List.nodup_cons.2 ⟨fun h => by have := ((hl _).1 h).2.1; omega, hnd⟩, fun x => ?_⟩
      rw [List.mem_cons, hl, Nat.add_mod_right]
      constructor
      · rintro (rfl | ⟨h1, h2, h3⟩)
        · exact ⟨hb, le_refl _, rfl⟩
        · exact ⟨h1, by omega, h3⟩
      · rintro ⟨h1, h2, h3⟩
        by_cases hx : x = b.toNat
        · exact Or.inl hx
        · refine Or.inr ⟨h1, ?_, h3⟩
          obtain ⟨k, hk⟩ := (Nat.modEq_iff_dvd' h2).1 h3.symm
          have : k ≠ 0 := by rintro rfl; omega
          have : T * 1 ≤ T * k := Nat.mul_le_mul_left _ (by omega)
          omega
    · rename_i hb
      exact ⟨[], rfl, List.nodup_nil, fun x => by simp; omega⟩

/-- If the counter does not wrap around, the threads together handle each bin, and each bin is handled by one thread, once. -/
theorem baxos_bin_loop (T B : Nat) (hT : 0 < T) (hT' : T < 256) (hw : ∀ b < B, b + T < 256) :
    ∃ l : Nat → List Nat, (∀ t < T, loopBins T B 256 (BitVec.ofNat 8 t) = some (l t) ∧ (l t).Nodup) ∧
      ∀ b < B, ∀ t < T, b ∈ l t ↔ t = b % T := by
  have hB : B < 256 := by
    by_contra h
    have := hw 255 (by omega)
    omega
  have hspec : ∀ t, ∃ l, t < T → loopBins T B 256 (BitVec.ofNat 8 t) = some l ∧ l.Nodup ∧ ∀ x, x ∈ l ↔ x < B ∧ t ≤ x ∧ x % T = t := by
    intro t
    by_cases ht : t < T
    · obtain ⟨l, e, hnd, hl⟩ := loopBins_mem T B hT hw 256 (BitVec.ofNat 8 t) (by omega) (by omega)
      have : (BitVec.ofNat 8 t).toNat = t := by rw [BitVec.toNat_ofNat, Nat.mod_eq_of_lt (by omega)]
      rw [this, Nat.mod_eq_of_lt ht] at hl
      exact ⟨l, fun _ => ⟨e, hnd, hl⟩⟩
    · exact ⟨[], fun h => absurd h ht⟩
  choose l hl using hspec
  refine ⟨l, fun t ht => ⟨(hl t ht).1, (hl t ht).2.1⟩, fun b hb t ht => ?_⟩
  rw [(hl t ht).2.2 b]
  constructor
  · rintro ⟨-, -, h⟩; exact h.symm
  · rintro rfl; exact ⟨hb, Nat.mod_le _ _, rfl⟩

/-- With 256 bins or more the loop never ends, in any thread and for any number of threads. -/
theorem baxos_bin_loop_endless (T B : Nat) (hB : 256 ≤ B) (fuel : Nat) (b : BitVec 8) : loopBins T B fuel b = none := by
  induction fuel generalizing b with
  | zero => rfl
  | succ fuel ih =>
    unfold loopBins
    rw [if_pos (by have := b.isLt; omega), ih]
    rfl

/-- With 255 bins and 4 threads it does not end either. -/
theorem baxos_bin_loop_endless_255 (fuel : Nat) (b : BitVec 8) (hb : b.toNat % 4 ≠ 3) : loopBins 4 255 fuel b = none := by
  induction fuel generalizing b with
  | zero => rfl
  | succ fuel ih =>
    unfold loopBins
    rw [if_pos (by have := b.isLt; omega), ih]
    · rfl
    · rw [BitVec.toNat_add]
      simp only [BitVec.toNat_ofNat]
      omega

/-- Everything needed for the OKVS of one bin to be correct: the gap rows are counted in a byte in the `gf_128` form. -/
def FewGaps {V : Type} (c : BCfg) (junk : Nat → Node) (items : List (Block × V)) : Prop :=
  c.binary = true ∨ ∀ dvs st tr, new (c.cfg items.length) = some dvs →
    setKeys (c.cfg items.length) dvs junk (items.map Prod.fst) = some st →
    triangulate (c.cfg items.length) st = some tr → tr.gapR.length < 256

theorem solveBin_correct {V : Type} {o : ValOps V} (ho : o.Ok) (c : BCfg) (hc : (c.cfg 0).Ok) {junk : Nat → Node}
    {items : List (Block × V)} (hg : FewGaps c junk items) {out : Nat → V}
    (e : solveBin o c junk none (fun _ => o.zero) items = some out) :
    ∃ dvs, new (c.cfg items.length) = some dvs ∧ decode o (c.cfg items.length) dvs out (items.map Prod.fst) = some (items.map Prod.snd) := by
  unfold solveBin at e
  split at e
  · cases e
  obtain ⟨dvs, h1, e⟩ := Option.bind_eq_some_iff.1 e
  obtain ⟨st, h2, e⟩ := Option.bind_eq_some_iff.1 e
  exact ⟨dvs, h1, okvs_correct_hash ho h1 ⟨hc.fits, hc.small⟩ h2 (by simp [BCfg.cfg]) e
    (hg.imp (fun h => h) fun h tr htr => h dvs st tr h1 h2 htr)⟩

theorem solveBin_decode1 {V : Type} {o : ValOps V} (ho : o.Ok) (c : BCfg) (hc : (c.cfg 0).Ok) {junk : Nat → Node}
    {items : List (Block × V)} (hg : FewGaps c junk items) {out : Nat → V}
    (e : solveBin o c junk none (fun _ => o.zero) items = some out) :
    ∃ dvs, mkDividers c.w c.s = some dvs ∧ ∀ p ∈ items, decode1 o (c.cfg 0) dvs out p.1 = some p.2 := by
  obtain ⟨dvs, h1, h2⟩ := solveBin_correct ho c hc hg e
  obtain ⟨-, hlt, hd⟩ := new_spec h1
  refine ⟨dvs, hd, ?_⟩
  rw [okvs_decode_list o hd ⟨hc.fits, hc.small⟩] at h2
  obtain ⟨r, hr, h2⟩ := Option.map_eq_some_iff.1 h2
  have hl : (items.map Prod.fst).length % 2 ^ (c.cfg items.length).t.bits = items.length := by
    rw [List.length_map]
    exact Nat.mod_eq_of_lt hlt
  rw [hl, List.take_of_length_le (by simp)] at hr
  rw [hl, List.length_map, Nat.sub_self, List.replicate_zero, List.append_nil] at h2
  subst h2
  obtain ⟨-, hi⟩ := mapM_inv _ _ _ hr
  intro p hp
  obtain ⟨i, hi', rfl⟩ := List.getElem_of_mem hp
  obtain ⟨y, hy, hy'⟩ := hi i (by simpa using hi')
  rw [List.getElem_map] at hy
  rw [List.getElem?_map, List.getElem?_eq_getElem hi'] at hy'
  simp only [Option.map_some, Option.some.injEq] at hy'
  rw [hy']
  exact hy

/-- `decode` with any number of threads, if each hash value decodes in the vector of its bin. -/
theorem decodeAll_spec {V : Type} (o : ValOps V) (c : BCfg) (hc : (c.cfg 0).Ok) (dvs : List Divider) (hd : mkDividers c.w c.s = some dvs)
    (h1 : c.bins ≠ 1) (h0 : 0 < c.bins) (hB : c.bins < 2 ^ 64) (T : Nat) (hT : 0 < T) (out vals : Nat → V) (hs : List Block)
    (values : List V) (hlen : values.length = hs.length)
    (hval : ∀ (k : Nat) (h : Block), hs[k]? = some h → decode1 o (c.cfg 0) dvs (seg c out (binOf c.bins h)) h = values[k]?)
    (htr : ∀ b, min 512 (hs.countP fun h => binOf c.bins h = b) < 2 ^ (idxFor c.s).bits) :
    decodeAll o c T out vals hs = some values := by
  unfold decodeAll
  rw [if_neg h1, if_neg (by omega), hd]
  simp only
  have key : ((List.range T).mapM fun t => decodeBatch o c dvs out (fun i => vals (cut hs.length T t + i)) (slice hs T t))
      = some ((List.range T).map fun t => slice values T t) := by
    apply mapM_eq_map
    intro t _
    have hsl : (slice hs T t).length = (slice values T t).length := by simp [slice, hlen]
    have hget : ∀ {α : Type} (l : List α) k, k < (slice l T t).length → (slice l T t)[k]? = l[cut l.length T t + k]? := by
      intro α l k hk
      have hk2 : k < cut l.length T (t + 1) - cut l.length T t := by
        simp only [slice, List.length_take] at hk; omega
      rw [slice, List.getElem?_take_of_lt hk2, List.getElem?_drop]
    rw [decodeBatch_spec o c hc dvs hd out (fun k => values.getD (cut hs.length T t + k) o.zero) (slice hs T t) _ _ h0 hB]
    · congr 1
      apply List.ext_getElem (by simp [hsl])
      intro i h2 h3
      rw [List.getElem_map, List.getElem_range]
      have := hget values i h3
      rw [List.getElem?_eq_getElem h3, hlen] at this
      rw [List.getD_eq_getElem?_getD, ← this]
      rfl
    · intro k h hk
      have hk' : k < (slice hs T t).length := by
        by_contra hn
        rw [List.getElem?_eq_none (by omega)] at hk
        cases hk
      rw [hget hs k hk'] at hk
      rw [hval _ _ hk, List.getD_eq_getElem?_getD]
      have hlt : cut hs.length T t + k < values.length := by
        by_contra hn
        rw [List.getElem?_eq_none (by omega)] at hk
        cases hk
      rw [List.getElem?_eq_getElem hlt]
      rfl
    · intro b
      have hsub : (slice hs T t).Sublist hs := (List.take_sublist _ _).trans (List.drop_sublist _ _)
      have := hsub.countP_le (p := fun h => decide (binOf c.bins h = b))
      have := htr b
      omega
  rw [key]
  simp only [Option.map_some, Option.some.injEq]
  rw [← List.flatMap_def]
  exact slices_all values T hT

/-- `baxos_correct_partial` for any hash values. -/
theorem baxos_correct_hash {V : Type} {o : ValOps V} (ho : o.Ok) (c : BCfg) (hc : (c.cfg 0).Ok) (T T' : Nat) (hT' : 0 < T')
    (junk : Nat → Nat → Node) (hs : List Block) (values : List V) (vals out : Nat → V)
    (e : solve o c T junk (fun _ => none) hs values (fun _ => o.zero) = some out)
    (hg : c.bins = 1 → FewGaps c (junk 0) (hs.zip values))
    (hgs : c.bins ≠ 1 → ∀ b < c.bins, FewGaps c (junk b) ((hs.zip values).filter fun p => binOf c.bins p.1 = b))
    (htr : c.bins ≠ 1 → ∀ b, min 512 (hs.countP fun h => binOf c.bins h = b) < 2 ^ (idxFor c.s).bits) :
    decodeAll o c T' out vals hs = some values := by
  unfold solve at e
  split at e
  · cases e
  rename_i hlen
  rw [not_not] at hlen
  split at e
  · rename_i h1
    split at e
    · cases e
    rename_i hp
    rw [not_not] at hp
    obtain ⟨dvs, e1, e2⟩ := solveBin_correct ho c hc (hg h1) e
    have hzl : (hs.zip values).length = c.perBin := by rw [List.length_zip]; omega
    rw [List.map_fst_zip (by omega), List.map_snd_zip (by omega), hzl] at e2
    rw [hzl] at e1
    obtain ⟨-, hlt, -⟩ := new_spec e1
    unfold decodeAll
    rw [if_pos h1, e1]
    simp only [Option.bind_some]
    rw [e2]
    simp only [Option.map_some, Option.some.injEq]
    have hlt' : hs.length < 2 ^ (idxFor c.s).bits := by rw [hp]; exact hlt
    rw [Nat.mod_eq_of_lt hlt']
    apply List.ext_getElem (by simp [hlen])
    intro i h2 h3
    rw [List.getElem_map, List.getElem_range, if_pos (by omega), List.getD_eq_getElem?_getD, List.getElem?_eq_getElem h3]
    rfl
  · rename_i h1
    split at e
    · cases e
    rename_i hT
    split at e
    · cases e
    rename_i hany
    cases hdv : genDivider (BitVec.ofNat 64 c.bins) with
    | thrown => rw [hdv] at e; cases e
    | fault => rw [hdv] at e; cases e
    | ok dv =>
      rw [hdv] at e
      simp only at e
      cases htabs : (List.range T).mapM fun t => threadTable c dv (slice (hs.zip values) T t) with
      | none => rw [htabs] at e; cases e
      | some tabs =>
        rw [htabs] at e
        simp only at e
        cases houts : (List.range c.bins).mapM fun b =>
            solveBin o c (junk b) none (fun _ => o.zero) (tabs.flatMap fun tb => tb b) with
        | none => rw [houts] at e; cases e
        | some outs =>
          rw [houts] at e
          simp only [Option.some.injEq] at e
          subst e
          have hB : c.bins < 256 := by
            by_contra hn
            exact hany (List.any_eq_true.2 ⟨255, List.mem_range.2 (by omega), by simp; omega⟩)
          have h0 : 0 < c.bins := by
            rcases Nat.eq_zero_or_pos c.bins with hz | hz
            · rw [hz] at hdv
              cases hdv
            · exact hz
          obtain ⟨hol, ho'⟩ := mapM_inv _ _ _ houts
          have hbin : ∀ b < c.bins, ∃ y, outs[b]? = some y ∧ ∃ dvs, mkDividers c.w c.s = some dvs ∧
              ∀ p ∈ hs.zip values, binOf c.bins p.1 = b → decode1 o (c.cfg 0) dvs y p.1 = some p.2 := by
            intro b hb
            obtain ⟨y, hy, hy'⟩ := ho' b (by simpa using hb)
            rw [List.getElem_range, bin_items c h0 (by omega) dv hdv T (by omega) _ _ htabs] at hy
            obtain ⟨dvs, hd, hdec⟩ := solveBin_decode1 ho c hc (hgs h1 b hb) hy
            exact ⟨y, hy', dvs, hd, fun p hp hpb => hdec p (List.mem_filter.2 ⟨hp, by simpa using hpb⟩)⟩
          obtain ⟨-, -, dvs, hd, -⟩ := hbin 0 h0
          refine decodeAll_spec o c hc dvs hd h1 h0 (by omega) T' hT' _ vals hs values hlen.symm ?_ (htr h1)
          intro k h hk
          obtain ⟨y, hy, dvs', hd', hdec⟩ := hbin (binOf c.bins h) (Nat.mod_lt _ h0)
          rw [hd] at hd'
          cases hd'
          have hklt : k < hs.length := by
            by_contra hn
            rw [List.getElem?_eq_none (by omega)] at hk
            cases hk
          rw [List.getElem?_eq_getElem hklt, Option.some.injEq] at hk
          have hkv : k < values.length := by omega
          rw [decode1_congr o (c.cfg 0) hc dvs hd _ y h, List.getElem?_eq_getElem hkv]
          · refine hdec (h, values[k]) ?_ rfl
            rw [← hk, ← List.getElem_zip (h := by rw [List.length_zip]; omega)]
            exact List.getElem_mem _
          · intro a ha
            have ha' : a < c.total := ha
            have hs0 : 0 < c.total := by omega
            unfold seg
            show outs.getD ((binOf c.bins h * c.total + a) / c.total) (fun _ => o.zero) ((binOf c.bins h * c.total + a) % c.total) = y a
            have e1 : (binOf c.bins h * c.total + a) / c.total = binOf c.bins h := by
              rw [Nat.mul_comm, Nat.mul_add_div hs0, Nat.div_eq_of_lt ha', Nat.add_zero]
            have e2 : (binOf c.bins h * c.total + a) % c.total = a := by
              rw [Nat.mul_comm, Nat.mul_add_mod, Nat.mod_eq_of_lt ha']
            rw [e1, e2, List.getD_eq_getElem?_getD, hy]
            rfl

/-- `solve` followed by `decode` of the same keys gives every key its value: for every number of threads of `solve` and of `decode`, every
number of bins, both dense forms, all key lists, hash keys and values for which `solve` returns, as long as fewer than `2 ^ bits` keys of a
bin are decoded at a time. -/
theorem baxos_correct_partial {V : Type} {o : ValOps V} (ho : o.Ok) (c : BCfg) (hc : (c.cfg 0).Ok) (T T' : Nat) (hT' : 0 < T')
    (junk : Nat → Nat → Node) (key : AES.Key) (keys : List Block) (values : List V) (vals out : Nat → V)
    (e : solve o c T junk (fun _ => none) (setDense key keys) values (fun _ => o.zero) = some out)
    (hg : c.bins = 1 → FewGaps c (junk 0) ((setDense key keys).zip values))
    (hgs : c.bins ≠ 1 → ∀ b < c.bins, FewGaps c (junk b) (((setDense key keys).zip values).filter fun p => binOf c.bins p.1 = b))
    (htr : c.bins ≠ 1 → ∀ b, min 512 ((setDense key keys).countP fun h => binOf c.bins h = b) < 2 ^ (idxFor c.s).bits) :
    decodeAll o c T' out vals (setDense key keys) = some values :=
  baxos_correct_hash ho c hc T T' hT' junk (setDense key keys) values vals out e hg hgs htr

/-- 32 keys in 16 bins. -/
def binsCfg : BCfg := ⟨true, 2, 8, 1, 4, 16, 6, 6⟩

def binsHash : List Block := (List.range 32).map fun i => BitVec.ofNat 128 ((i + 7) * (7920 * 2 ^ 96 + 7920 * 2 ^ 70 + 7920 * 2 ^ 40 + 126720000) + i)

def binsVals : List Block := (List.range 32).map fun i => BitVec.ofNat 128 (1000 + i)

def binsRun (T T' : Nat) : Option (List Block) :=
  (solve blockOps binsCfg T (fun _ _ => ⟨0, none, none⟩) (fun _ => none) binsHash binsVals fun _ => 0#128).bind fun out =>
    decodeAll blockOps binsCfg T' out (fun _ => 0#128) binsHash

set_option maxRecDepth 100000 in
theorem binsRun_eq : binsRun 1 3 = some binsVals := by decide +kernel

/-- The hypotheses of `baxos_correct_hash` hold for it. -/
example : ∃ out, solve blockOps binsCfg 1 (fun _ _ => ⟨0, none, none⟩) (fun _ => none) binsHash binsVals (fun _ => 0#128) = some out ∧
    decodeAll blockOps binsCfg 5 out (fun _ => 0#128) binsHash = some binsVals := by
  have h := binsRun_eq
  unfold binsRun at h
  obtain ⟨out, h1, -⟩ := Option.bind_eq_some_iff.1 h
  refine ⟨out, h1, ?_⟩
  refine baxos_correct_hash blockOps_ok binsCfg ⟨⟨by decide, by decide, by decide⟩, by decide⟩ 1 5 (by decide) _ _ _ _ _ h1
    (fun _ => Or.inl rfl) (fun _ _ _ => Or.inl rfl) (fun _ b => ?_)
  have : (binsHash.countP fun h => binOf binsCfg.bins h = b) ≤ 32 :=
    List.countP_le_length.trans (by rw [binsHash, List.length_map, List.length_range])
  have h2 : 2 ^ (idxFor binsCfg.s).bits = 256 := by decide
  omega

theorem filter_sum {α : Type} (f : α → Nat) (B : Nat) (l : List α) (hf : ∀ x ∈ l, f x < B) :
    (((List.range B).map fun b => (l.filter fun x => f x = b).length).sum) = l.length := by
  induction l with
  | nil => simp
  | cons x l ih =>
    have hx := hf x (List.mem_cons_self ..)
    rw [List.length_cons, ← ih (fun y hy => hf y (List.mem_cons_of_mem _ hy))]
    have : ∀ m, ((List.range m).map fun b => ((x :: l).filter fun x => f x = b).length).sum
        = ((List.range m).map fun b => (l.filter fun x => f x = b).length).sum + if f x < m then 1 else 0 := by
      intro m
      induction m with
      | zero => simp
      | succ m ihm =>
        rw [List.range_succ, List.map_append, List.map_append, List.sum_append, List.sum_append, ihm]
        simp only [List.map_cons, List.map_nil, List.sum_cons, List.sum_nil, List.filter_cons]
        have hc : (if decide (f x = m) = true then x :: l.filter fun x => decide (f x = m) else l.filter fun x => decide (f x = m)).length
            = (l.filter fun x => decide (f x = m)).length + if f x = m then 1 else 0 := by
          by_cases h1 : f x = m <;> simp [h1]
        rw [hc]
        split_ifs <;> omega
    rw [this, if_pos hx]

/-- With several bins, `solve` cannot return if there are more keys than places in all bins together. -/
theorem baxos_overfull {V : Type} (o : ValOps V) (c : BCfg) (h1 : c.bins ≠ 1) (T : Nat) (junk : Nat → Nat → Node)
    (rnd : Nat → Option (Rnd V)) (hs : List Block) (values : List V) (out : Nat → V) (hn : c.bins * c.perBin < hs.length) :
    solve o c T junk rnd hs values out = none := by
  cases e : solve o c T junk rnd hs values out with
  | none => rfl
  | some r =>
    exfalso
    unfold solve at e
    split at e
    · cases e
    rename_i hlen
    rw [not_not] at hlen
    split at e
    · cases e
    rename_i hT
    split at e
    · cases e
    rename_i hany
    cases hdv : genDivider (BitVec.ofNat 64 c.bins) with
    | thrown => rw [hdv] at e; cases e
    | fault => rw [hdv] at e; cases e
    | ok dv =>
      rw [hdv] at e
      simp only at e
      cases htabs : (List.range T).mapM fun t => threadTable c dv (slice (hs.zip values) T t) with
      | none => rw [htabs] at e; cases e
      | some tabs =>
        rw [htabs] at e
        simp only at e
        cases houts : (List.range c.bins).mapM fun b =>
            solveBin o c (junk b) (rnd b) (fun i => out (b * c.total + i)) (tabs.flatMap fun tb => tb b) with
        | none => rw [houts] at e; cases e
        | some outs =>
          have hB : c.bins < 256 := by
            by_contra hn
            exact hany (List.any_eq_true.2 ⟨255, List.mem_range.2 (by omega), by simp; omega⟩)
          have h0 : 0 < c.bins := by
            rcases Nat.eq_zero_or_pos c.bins with hz | hz
            · rw [hz] at hdv
              cases hdv
            · exact hz
          obtain ⟨-, ho'⟩ := mapM_inv _ _ _ houts
          have hle : ∀ b < c.bins, ((hs.zip values).filter fun p => binOf c.bins p.1 = b).length ≤ c.perBin := by
            intro b hb
            obtain ⟨y, hy, -⟩ := ho' b (by simpa using hb)
            rw [List.getElem_range, bin_items c h0 (by omega) dv hdv T (by omega) _ _ htabs] at hy
            unfold solveBin at hy
            split at hy
            · cases hy
            · omega
          have hsum := filter_sum (fun p : Block × V => binOf c.bins p.1) c.bins (hs.zip values) (fun _ _ => Nat.mod_lt _ h0)
          have hbound := List.sum_le_card_nsmul ((List.range c.bins).map fun b => ((hs.zip values).filter fun p => binOf c.bins p.1 = b).length)
            c.perBin (by
              intro x hx
              obtain ⟨b, hb, rfl⟩ := List.mem_map.1 hx
              exact hle b (List.mem_range.1 hb))
          rw [hsum, List.length_zip, List.length_map, List.length_range, smul_eq_mul] at hbound
          omega

/-- **C57** `solve` with several bins and fewer than 32 keys per thread is undefined, whatever the keys: the loop bound `len - 32` of the first
thread wraps around. -/
theorem baxos_few_keys {V : Type} (o : ValOps V) (c : BCfg) (h1 : c.bins ≠ 1) (T : Nat) (junk : Nat → Nat → Node)
    (rnd : Nat → Option (Rnd V)) (hs : List Block) (values : List V) (out : Nat → V) (hn : hs.length < 32 * T) :
    solve o c T junk rnd hs values out = none := by
  unfold solve
  split
  · rfl
  rename_i hlen
  rw [not_not] at hlen
  split
  · rfl
  rename_i hT
  split
  · rfl
  cases genDivider (BitVec.ofNat 64 c.bins) with
  | thrown => rfl
  | fault => rfl
  | ok dv =>
    simp only
    obtain ⟨T', rfl⟩ : ∃ T', T = T' + 1 := ⟨T - 1, by omega⟩
    have h0 : threadTable c dv (slice (hs.zip values) (T' + 1) 0) = none := by
      unfold threadTable
      rw [if_pos]
      have hK : (hs.zip values).length = hs.length := by rw [List.length_zip, hlen, Nat.min_self]
      have hq : hs.length / (T' + 1) < 32 := by
        rw [Nat.div_lt_iff_lt_mul (by omega)]
        exact hn
      rw [slice, List.length_take, cut, cut, hK]
      simp only [Nat.zero_add, Nat.mul_one, Nat.mul_zero, Nat.zero_div, Nat.sub_zero]
      omega
    rw [List.range_succ_eq_map, List.mapM_cons, h0]
    rfl

example : ([1#128, 2#128] : List Block).length < 32 * 4 := by decide

theorem clz64_ofNat (n : Nat) (h0 : 0 < n) (h : n < 2 ^ 64) : clz64 (BitVec.ofNat 64 n) = some (63 - Nat.log2 n) := by
  unfold clz64
  rw [if_neg (ofNat_ne_zero _ h0 h), BitVec.toNat_ofNat, Nat.mod_eq_of_lt h]

/-- The number of places per bin is too small for a number of items just below a power of two, because the weights of the interpolation
are exchanged. -/
theorem binSize_too_small (n : Nat) (h1 : 900000 ≤ n) (h2 : n < 2 ^ 20) : ∃ k, binSize 128 n = some k ∧ 128 * k < n := by
  have e1 : Nat.log2 n = 19 := (Nat.log2_eq_iff (by omega)).2 ⟨by omega, by omega⟩
  have e2 : Nat.log2 (n - 1) = 19 := (Nat.log2_eq_iff (by omega)).2 ⟨by omega, by omega⟩
  have e3 : Nat.log2 128 = 7 := by decide
  have e4 : Nat.log2 (128 - 1) = 6 := by decide
  unfold binSize
  rw [if_neg (by omega), clz64_ofNat 128 (by omega) (by omega), clz64_ofNat (128 - 1) (by omega) (by omega),
    clz64_ofNat n (by omega) (by omega), clz64_ofNat (n - 1) (by omega) (by omega), e1, e2, e3, e4]
  simp only
  rw [if_pos (by decide)]
  refine ⟨_, rfl, ?_⟩
  have hb : Real.logb 2 ((128 : Nat) : ℝ) = 7 := by
    rw [show ((128 : Nat) : ℝ) = (2 : ℝ) ^ (7 : ℝ) by norm_num]
    exact Real.logb_rpow (by norm_num) (by norm_num)
  have s1 : sizeAt 7 19 ≤ 12.17 := by
    have : (sizes.getD 7 []).getD 19 0 = 12166163080 := by decide
    unfold sizeAt; rw [this]; norm_num
  have s2 : sizeAt 7 20 ≤ 13.12 := by
    have : (sizes.getD 7 []).getD 20 0 = 13118778890 := by decide
    unfold sizeAt; rw [this]; norm_num
  have hn : (900000 : ℝ) ≤ n := by exact_mod_cast h1
  have hn2 : (n : ℝ) ≤ 2 ^ (20 : ℝ) := by
    have : (n : ℝ) ≤ ((2 ^ 20 : Nat) : ℝ) := by exact_mod_cast h2.le
    refine this.trans (le_of_eq ?_)
    norm_num
  set d := Real.logb 2 n - ((64 - (63 - 19) - 1 : Nat) : ℝ) with hd
  have hd1 : 1 / 2 ≤ d := by
    have : (39 : ℝ) / 2 ≤ Real.logb 2 n := by
      rw [Real.le_logb_iff_rpow_le (by norm_num) (by linarith)]
      have : ((2 : ℝ) ^ ((39 : ℝ) / 2)) ^ 2 ≤ (n : ℝ) ^ 2 := by
        rw [← Real.rpow_natCast, ← Real.rpow_mul (by norm_num)]
        norm_num
        nlinarith
      exact (pow_le_pow_iff_left₀ (by positivity) (by linarith) (by norm_num)).1 this
    rw [hd]; norm_num; linarith
  have hd2 : d ≤ 1 := by
    have : Real.logb 2 n ≤ 20 := by
      rw [Real.logb_le_iff_le_rpow (by norm_num) (by linarith)]
      exact hn2
    rw [hd]; norm_num; linarith
  rw [hb]
  norm_num
  have hexp : d * sizeAt 7 19 + (1 - d) * sizeAt 7 20 ≤ 12 + 2 / 3 := by nlinarith
  have hpow : (2 : ℝ) ^ (d * sizeAt 7 19 + (1 - d) * sizeAt 7 20) ≤ 7000 := by
    refine (Real.rpow_le_rpow_of_exponent_le (by norm_num) hexp).trans ?_
    have : ((2 : ℝ) ^ ((12 : ℝ) + 2 / 3)) ^ 3 ≤ (7000 : ℝ) ^ 3 := by
      rw [← Real.rpow_natCast, ← Real.rpow_mul (by norm_num)]
      norm_num
    exact (pow_le_pow_iff_left₀ (by positivity) (by norm_num) (by norm_num)).1 this
  have : ⌈(2 : ℝ) ^ (d * sizeAt 7 19 + (1 - d) * sizeAt 7 20)⌉₊ ≤ 7000 := Nat.ceil_le.2 (by exact_mod_cast hpow)
  omega

/-- So a `Baxos` object for 128 bins and any number of items from 900000 to 2^20 - 1 can never be filled, whatever the keys. -/
theorem baxos_never_solves {V : Type} (o : ValOps V) (c : BCfg) (n : Nat) (h1 : 900000 ≤ n) (h2 : n < 2 ^ 20) (hb : c.bins = 128)
    (hp : some c.perBin = binSize 128 n) (T : Nat) (junk : Nat → Nat → Node) (rnd : Nat → Option (Rnd V)) (hs : List Block)
    (hn : hs.length = n) (values : List V) (out : Nat → V) : solve o c T junk rnd hs values out = none := by
  obtain ⟨k, e, hk⟩ := binSize_too_small n h1 h2
  rw [e, Option.some.injEq] at hp
  exact baxos_overfull o c (by omega) T junk rnd hs values out (by rw [hb, hp, hn]; exact hk)

/-- `decode` with a single bin and an 8-bit index type stores nothing at all for 256 keys: the number of keys is converted to the index
type. The places of the result keep their old contents, whatever was encoded. -/
theorem baxos_decode_truncated {V : Type} (o : ValOps V) (c : BCfg) (hc : (c.cfg 0).Ok) (h1 : c.bins = 1) (hs : List Block)
    (h256 : hs.length = 256) (ht : idxFor c.s = .u8) (dvs : List Divider) (hn : new (c.cfg c.perBin) = some dvs) (T : Nat)
    (out vals : Nat → V) : decodeAll o c T out vals hs = some ((List.range 256).map vals) := by
  unfold decodeAll
  rw [if_pos h1, hn, Option.bind_some, okvs_decode_list o (new_spec hn).2.2 ⟨hc.fits, hc.small⟩]
  have hz : hs.length % 2 ^ (c.cfg c.perBin).t.bits = 0 := by
    have : (c.cfg c.perBin).t = .u8 := ht
    rw [this, h256]; rfl
  have hz' : hs.length % 2 ^ (idxFor c.s).bits = 0 := hz
  rw [hz, hz', List.take_zero, List.mapM_nil]
  simp only [Option.pure_def, Option.map_some, Nat.not_lt_zero, if_false, h256]

end Kunlun.Baxos
