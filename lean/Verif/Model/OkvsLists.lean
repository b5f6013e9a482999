import Mathlib.Data.List.Basic
import Mathlib.Data.List.Nodup
import Mathlib.Data.List.TakeWhile
import Mathlib.Logic.Function.Basic
/-!
Model of the column lists of `mpc/okvs/paxos.hpp`: `weight_nodes`, an array of nodes linked by column numbers, and `weight_set`,
a vector with the first node of the list of every weight.
-/

namespace Kunlun.OKVS

/-- paxos.hpp:134-157 `weight_node`. The link value `empty_node` is `none`; the field `col_idx` of node `i` is always `i` and is
left out. `weight` is a `uint8_t`; values of 200 and more are refused when the lists are built. -/
structure Node where
  weight : Nat
  next : Option Nat
  prev : Option Nat

/-- paxos.hpp:160-162 `weight_nodes` and `weight_set` (a null pointer is `none`, a pointer to node `i` is `some i`). The array is a
function of the column; the columns used are checked against `sparse_size` where they come from. -/
structure WS where
  node : Nat → Node
  head : List (Option Nat)

/-- paxos.hpp:178-179 `while (weight_set.back() == nullptr) weight_set.pop_back();`. On a vector that becomes empty `back` is
undefined. -/
def trim (h : List (Option Nat)) : Option (List (Option Nat)) :=
  match (h.reverse.dropWhile (· == none)).reverse with
  | [] => none
  | x :: xs => some (x :: xs)

/-- paxos.hpp:203-204 `node.prev = empty_node; node.next = empty_node;` -/
def unlink (nd : Nat → Node) (c : Nat) : Nat → Node := Function.update nd c ⟨(nd c).weight, none, none⟩

/-- paxos.hpp:167-205 `pop`. A failed `assert` and an index outside the vector are failures. -/
def pop (s : WS) (c : Nat) : Option WS :=
  let n := s.node c
  match n.prev with
  | none =>
    if s.head[n.weight]? = some (some c) then
      match n.next with
      | none =>
        match trim (s.head.set n.weight none) with
        | none => none
        | some h => some ⟨unlink s.node c, h⟩
      | some m =>
        some ⟨unlink (Function.update s.node m { s.node m with prev := none }) c, s.head.set n.weight (some m)⟩
    else none
  | some p =>
    match n.next with
    | none => some ⟨unlink (Function.update s.node p { s.node p with next := none }) c, s.head⟩
    | some m =>
      let nd := Function.update s.node p { s.node p with next := some m }
      some ⟨unlink (Function.update nd m { nd m with prev := some p }) c, s.head⟩

/-- paxos.hpp:208-229 `push`. -/
def push (s : WS) (c : Nat) : Option WS :=
  let n := s.node c
  if n.next = none ∧ n.prev = none then
    let head := if s.head.length ≤ n.weight then s.head ++ List.replicate (n.weight + 1 - s.head.length) none else s.head
    match head[n.weight]? with
    | some none => some ⟨s.node, head.set n.weight (some c)⟩
    | some (some f) =>
      if (s.node f).prev = none then
        let nd := Function.update s.node f { s.node f with prev := some c }
        some ⟨Function.update nd c { nd c with next := some f }, head.set n.weight (some c)⟩
      else none
    | none => none
  else none

/-- paxos.hpp:231-245 `find_pop_min_node`. -/
def findPopMin (s : WS) : Option (WS × Nat) :=
  match (s.head.drop 1).findSome? id with
  | none => some (s, 0)
  | some c =>
    match pop s c with
    | none => none
    | some s' => some (⟨Function.update s'.node c { s'.node c with weight := 0 }, s'.head⟩, c)

/-- paxos.hpp:1847-1853: `if (node.weight) { pop(node); node.weight--; push(node); }`. -/
def decr (s : WS) (c : Nat) : Option WS :=
  if (s.node c).weight = 0 then some s
  else
    match pop s c with
    | none => none
    | some s' => push ⟨Function.update s'.node c { s'.node c with weight := (s'.node c).weight - 1 }, s'.head⟩ c

/-- paxos.hpp:1100-1124, one turn of the loop of `weight_statistic` for column `c` of weight `w`: a new node put in front of its
list. `weight_set` has 200 entries (line 581). -/
def addCol (s : WS) (c w : Nat) : Option WS :=
  match s.head[w]? with
  | none => none
  | some none => some ⟨Function.update s.node c ⟨w, none, none⟩, s.head.set w (some c)⟩
  | some (some f) =>
    let nd := Function.update s.node c ⟨w, none, none⟩
    let nd := Function.update nd f { nd f with prev := some c }
    some ⟨Function.update nd c { nd c with next := some f }, s.head.set w (some c)⟩

/-- paxos.hpp:1092-1131 `weight_statistic` for columns `0 … k-1`. -/
def addCols (cw : Nat → Nat) (s : WS) : Nat → Option WS
  | 0 => some s
  | k + 1 =>
    match addCols cw s k with
    | none => none
    | some s' => addCol s' k (cw k)

/-- The largest weight of columns `0 … k-1`. -/
def maxWeight (cw : Nat → Nat) : Nat → Nat
  | 0 => 0
  | k + 1 => max (maxWeight cw k) (cw k)

/-- paxos.hpp:1092-1131 `weight_statistic`. (The starting node array is not initialised.) -/
def weightStatistic (junk : Nat → Node) (cw : Nat → Nat) (k : Nat) : Option WS :=
  match addCols cw ⟨junk, List.replicate 200 none⟩ k with
  | none => none
  | some s => some ⟨s.node, s.head.take (maxWeight cw k + 1)⟩

/-! ### The lists represented -/

/-- The nodes of `l` are linked in order, the first one having `p` before it. -/
def Linked (nd : Nat → Node) : Option Nat → List Nat → Prop
  | _, [] => True
  | p, c :: l => (nd c).prev = p ∧ (nd c).next = l.head? ∧ Linked nd (some c) l

/-- The memory represents, for every weight `w`, the list of columns `L w`. -/
structure Repr (s : WS) (L : Nat → List Nat) : Prop where
  head : ∀ w < s.head.length, s.head[w]? = some (L w).head?
  out : ∀ w, s.head.length ≤ w → L w = []
  link : ∀ w, Linked s.node none (L w)
  weight : ∀ w, ∀ c ∈ L w, (s.node c).weight = w
  nodup : ∀ w, (L w).Nodup

theorem linked_congr {nd nd' : Nat → Node} {p : Option Nat} {l : List Nat}
    (h : ∀ c ∈ l, (nd' c).next = (nd c).next ∧ (nd' c).prev = (nd c).prev) (hl : Linked nd p l) : Linked nd' p l := by
  induction l generalizing p with
  | nil => trivial
  | cons a l ih =>
    obtain ⟨h1, h2, h3⟩ := hl
    have ha := h a (List.mem_cons_self ..)
    exact ⟨ha.2.trans h1, ha.1.trans h2, ih (fun c hc => h c (List.mem_cons_of_mem _ hc)) h3⟩

/-- Unlinking a middle element. -/
theorem linked_remove {nd nd' : Nat → Node} {q : Option Nat} {l1 l2 : List Nat} {c : Nat} (hn : (l1 ++ c :: l2).Nodup)
    (hnext : ∀ x ∈ l1 ++ l2, (nd' x).next = if l1.getLast? = some x then l2.head? else (nd x).next)
    (hprev : ∀ x ∈ l1 ++ l2, (nd' x).prev = if l2.head? = some x then l1.getLast?.or q else (nd x).prev)
    (hl : Linked nd q (l1 ++ c :: l2)) : Linked nd' q (l1 ++ l2) := by
  induction l1 generalizing q with
  | nil =>
    cases l2 with
    | nil => trivial
    | cons m l2 =>
      obtain ⟨-, -, -, h4, h5⟩ := hl
      simp only [List.nil_append, List.nodup_cons] at hn
      have hm := hnext m (by simp)
      have hm' := hprev m (by simp)
      simp at hm hm'
      refine ⟨hm', hm.trans h4, ?_⟩
      refine linked_congr (fun x hx => ?_) h5
      have hx1 := hnext x (by simp [hx])
      have hx2 := hprev x (by simp [hx])
      have hne : m ≠ x := by rintro rfl; exact hn.2.1 hx
      simp [hne] at hx1 hx2
      exact ⟨hx1, hx2⟩
  | cons a l1 ih =>
    obtain ⟨h1, h2, h3⟩ := hl
    simp only [List.cons_append, List.nodup_cons] at hn
    have ha1 := hnext a (by simp)
    have ha2 := hprev a (by simp)
    have hna : l2.head? ≠ some a := by
      intro e
      exact hn.1 (List.mem_append_right _ (List.mem_cons_of_mem _ (List.mem_of_head? e)))
    rw [if_neg hna] at ha2
    refine ⟨ha2.trans h1, ?_, ih hn.2 ?_ ?_ h3⟩
    · rw [ha1]
      cases l1 with
      | nil => simp
      | cons b l1 =>
        have hna' : (a :: b :: l1).getLast? ≠ some a := by
          rw [List.getLast?_cons_cons]
          intro e
          exact hn.1 (List.mem_append_left _ (List.mem_of_getLast? e))
        rw [if_neg hna', h2]
        simp
    · intro x hx
      have hx1 := hnext x (by simp only [List.cons_append, List.mem_cons]; exact Or.inr hx)
      rw [hx1]
      cases l1 with
      | nil =>
        have hne : a ≠ x := by rintro rfl; exact hn.1 (by simp at hx ⊢; exact Or.inr hx)
        simp [hne]
      | cons b l1 => rw [List.getLast?_cons_cons]
    · intro x hx
      have hx1 := hprev x (by simp only [List.cons_append, List.mem_cons]; exact Or.inr hx)
      rw [hx1]
      cases l1 with
      | nil => simp
      | cons b l1 =>
        rw [List.getLast?_cons_cons]
        simp [List.getLast?_cons]

/-- The first element of the representation read at an index inside the vector. -/
theorem Repr.lt {s : WS} {L : Nat → List Nat} (h : Repr s L) {w c : Nat} (hc : c ∈ L w) : w < s.head.length := by
  by_contra hge
  rw [h.out w (by omega)] at hc
  simp at hc

theorem trim_spec {h h' : List (Option Nat)} (e : trim h = some h') :
    h'.length ≤ h.length ∧ (∀ w < h'.length, h'[w]? = h[w]?) ∧ (∀ w, h'.length ≤ w → w < h.length → h[w]? = some none) ∧
      h' ≠ [] ∧ h'.getLast? ≠ some none := by
  unfold trim at e
  have key : ∃ t, h = (h.reverse.dropWhile (· == none)).reverse ++ t ∧ ∀ x ∈ t, x = none := by
    refine ⟨(h.reverse.takeWhile (· == none)).reverse, ?_, ?_⟩
    · rw [← List.reverse_append, List.takeWhile_append_dropWhile, List.reverse_reverse]
    · intro x hx
      have := List.mem_takeWhile_imp (List.mem_reverse.1 hx)
      simpa using this
  obtain ⟨t, ht, hnone⟩ := key
  have hlast : ∀ x, (h.reverse.dropWhile (· == none)).reverse.getLast? = some x → x ≠ none := by
    intro x hx
    rw [List.getLast?_reverse] at hx
    have := List.head?_dropWhile_not (fun x : Option Nat => x == none) h.reverse
    rw [hx] at this
    cases x <;> simp at this ⊢
  generalize (h.reverse.dropWhile (· == none)).reverse = k at *
  cases k with
  | nil => simp at e
  | cons a k =>
    simp at e
    subst e
    rw [ht]
    refine ⟨by simp, ?_, ?_, by simp, ?_⟩
    · intro w hw
      rw [List.getElem?_append_left hw]
    · intro w hw hw'
      rw [List.getElem?_append_right hw]
      have hlt : w - (a :: k).length < t.length := by
        rw [List.length_append] at hw'; omega
      rw [List.getElem?_eq_getElem hlt, hnone _ (List.getElem_mem hlt)]
    · intro e
      exact hlast _ e rfl

/-- The vector is not empty and does not end in a null pointer. -/
def Tail (s : WS) : Prop := s.head ≠ [] ∧ s.head.getLast? ≠ some none

theorem tail_set {h : List (Option Nat)} {w c : Nat} (h1 : h ≠ []) (h2 : h.getLast? ≠ some none) :
    h.set w (some c) ≠ [] ∧ (h.set w (some c)).getLast? ≠ some none := by
  refine ⟨by simpa using h1, ?_⟩
  rw [List.getLast?_eq_getElem?, List.length_set, List.getElem?_set]
  split
  · split <;> simp
  · rw [← List.getLast?_eq_getElem?]; exact h2

/-- `pop` removes the node from its list and leaves every other list alone. -/
theorem pop_spec {s s' : WS} {L : Nat → List Nat} {c w : Nat} (h : Repr s L) (ht : Tail s) (hc : c ∈ L w) (e : pop s c = some s') :
    Repr s' (Function.update L w ((L w).erase c)) ∧ Tail s' ∧ (s'.node c).next = none ∧ (s'.node c).prev = none ∧
      (∀ x, (s'.node x).weight = (s.node x).weight) := by
  have hw := h.weight w c hc
  have hlt := h.lt hc
  obtain ⟨l1, l2, hL⟩ := List.append_of_mem hc
  have hnd := h.nodup w
  have hlink := h.link w
  rw [hL] at hnd hlink
  have hc1 : c ∉ l1 := fun hx => by
    have := (List.nodup_append.1 hnd).2.2 c hx c (by simp)
    exact this rfl
  have hc2 : c ∉ l2 := fun hx => by
    have := (List.nodup_append.1 hnd).2.1
    exact (List.nodup_cons.1 this).1 hx
  have her : (L w).erase c = l1 ++ l2 := by
    rw [hL, List.erase_append_right _ hc1, List.erase_cons_head]
  have hdis : ∀ v, v ≠ w → ∀ x ∈ L v, x ∉ L w := fun v hv x hx hx' => hv ((h.weight v x hx).symm.trans (h.weight w x hx'))
  -- the links at `c`
  have hat : ∀ (q : Option Nat) (l1 : List Nat), Linked s.node q (l1 ++ c :: l2) →
      (s.node c).prev = l1.getLast?.or q ∧ (s.node c).next = l2.head? := by
    intro q l1
    induction l1 generalizing q with
    | nil => intro hh; exact ⟨by simpa using hh.1, hh.2.1⟩
    | cons a l1 ih =>
      intro hh
      have := ih (some a) hh.2.2
      refine ⟨?_, this.2⟩
      rw [this.1]
      cases l1 with
      | nil => simp
      | cons b l1 => rw [List.getLast?_cons_cons]; simp [List.getLast?_cons]
  obtain ⟨hp, hn⟩ := hat none l1 hlink
  rw [Option.or_none] at hp
  -- a general conclusion from the new nodes
  have main : ∀ (nd' : Nat → Node),
      (∀ x, (nd' x).weight = (s.node x).weight) →
      (∀ x, x ≠ c → (nd' x).next = if l1.getLast? = some x then l2.head? else (s.node x).next) →
      (∀ x, x ≠ c → (nd' x).prev = if l2.head? = some x then l1.getLast? else (s.node x).prev) →
      (∀ v, Linked nd' none (Function.update L w (l1 ++ l2) v)) ∧
      (∀ v, ∀ x ∈ Function.update L w (l1 ++ l2) v, (nd' x).weight = v) ∧ ∀ v, (Function.update L w (l1 ++ l2) v).Nodup := by
    intro nd' h1 h2 h3
    refine ⟨fun v => ?_, fun v x hx => ?_, fun v => ?_⟩
    · by_cases hv : v = w
      · subst hv
        rw [Function.update_self]
        refine linked_remove hnd (fun x hx => h2 x ?_) (fun x hx => ?_) hlink
        · rintro rfl; rcases List.mem_append.1 hx with hx | hx; exacts [hc1 hx, hc2 hx]
        · rw [Option.or_none]; refine h3 x ?_
          rintro rfl; rcases List.mem_append.1 hx with hx | hx; exacts [hc1 hx, hc2 hx]
      · rw [Function.update_of_ne hv]
        refine linked_congr (fun x hx => ?_) (h.link v)
        have hxw := hdis v hv x hx
        rw [hL] at hxw
        simp only [List.mem_append, List.mem_cons, not_or] at hxw
        rw [h2 x hxw.2.1, h3 x hxw.2.1, if_neg (fun e => hxw.1 (List.mem_of_getLast? e)),
          if_neg (fun e => hxw.2.2 (List.mem_of_head? e))]
        exact ⟨rfl, rfl⟩
    · rw [h1]
      by_cases hv : v = w
      · subst hv
        rw [Function.update_self] at hx
        refine h.weight _ x ?_
        rw [hL]
        rcases List.mem_append.1 hx with hx | hx
        · exact List.mem_append_left _ hx
        · exact List.mem_append_right _ (List.mem_cons_of_mem _ hx)
      · rw [Function.update_of_ne hv] at hx; exact h.weight v x hx
    · by_cases hv : v = w
      · subst hv
        rw [Function.update_self]
        have := h.nodup v
        rw [← her]; exact this.erase c
      · rw [Function.update_of_ne hv]; exact h.nodup v
  rw [her]
  have hhead := h.head w hlt
  unfold pop at e
  simp only at e
  cases hl1 : l1.getLast? with
  | none =>
    have hl1e : l1 = [] := List.getLast?_eq_none_iff.1 hl1
    rw [hl1] at hp
    rw [hp, hw] at e
    simp only at e
    have hh : s.head[w]? = some (some c) := by rw [hhead, hL, hl1e]; rfl
    rw [if_pos hh] at e
    cases hl2 : l2.head? with
    | none =>
      have hl2e : l2 = [] := List.head?_eq_none_iff.1 hl2
      rw [hl2] at hn
      rw [hn] at e
      simp only at e
      cases htr : trim (s.head.set w none) with
      | none => rw [htr] at e; simp at e
      | some hd =>
        rw [htr] at e
        simp only [Option.some.injEq] at e
        subst e
        obtain ⟨t1, t2, t3, t4, t5⟩ := trim_spec htr
        rw [List.length_set] at t1 t3
        obtain ⟨m1, m2, m3⟩ := main (unlink s.node c)
          (fun x => by unfold unlink; by_cases hx : x = c <;> simp [hx, Function.update_apply])
          (fun x hx => by unfold unlink; simp [hx, hl1, Function.update_apply])
          (fun x hx => by unfold unlink; simp [hx, hl2, Function.update_apply])
        refine ⟨⟨?_, ?_, m1, m2, m3⟩, ⟨t4, t5⟩, by simp [unlink], by simp [unlink], ?_⟩
        · intro v hv
          simp only at hv ⊢
          rw [t2 v hv, List.getElem?_set]
          by_cases hvw : v = w
          · subst hvw
            rw [if_pos rfl, if_pos (by omega), Function.update_self, hl1e, hl2e]; rfl
          · rw [if_neg (fun e => hvw e.symm), Function.update_of_ne hvw]
            exact h.head v (by omega)
        · intro v hv
          simp only at hv
          by_cases hvw : v = w
          · subst hvw; rw [Function.update_self, hl1e, hl2e]; rfl
          · rw [Function.update_of_ne hvw]
            by_cases hvs : v < s.head.length
            · have := t3 v hv hvs
              rw [List.getElem?_set, if_neg (fun e => hvw e.symm), h.head v hvs] at this
              exact List.head?_eq_none_iff.1 (Option.some.inj this)
            · exact h.out v (by omega)
        · intro x
          unfold unlink; by_cases hx : x = c <;> simp [hx, Function.update_apply]
    | some m =>
      rw [hl2] at hn
      rw [hn] at e
      simp only [Option.some.injEq] at e
      subst e
      have hmc : m ≠ c := by rintro rfl; exact hc2 (List.mem_of_head? hl2)
      have hwt : ∀ x, (unlink (Function.update s.node m { s.node m with prev := none }) c x).weight = (s.node x).weight := by
        intro x
        unfold unlink
        by_cases hx : x = c
        · subst hx; simp [Function.update_of_ne hmc.symm]
        · by_cases hxm : x = m
          · subst hxm; simp [hx]
          · simp [hx, hxm]
      obtain ⟨m1, m2, m3⟩ := main _ hwt
        (fun x hx => by
          unfold unlink
          rw [Function.update_of_ne hx, hl1, if_neg (by simp)]
          by_cases hxm : x = m
          · subst hxm; simp
          · simp [hxm])
        (fun x hx => by
          unfold unlink
          rw [Function.update_of_ne hx, hl1, hl2]
          by_cases hxm : x = m
          · subst hxm; simp
          · rw [if_neg (by simpa using fun e => hxm e.symm), Function.update_of_ne hxm])
      refine ⟨⟨?_, ?_, m1, m2, m3⟩, tail_set ht.1 ht.2, by simp [unlink], by simp [unlink], hwt⟩
      · intro v hv
        simp only [List.length_set] at hv
        simp only [List.getElem?_set]
        by_cases hvw : v = w
        · subst hvw
          rw [if_pos rfl, if_pos (by omega), Function.update_self, hl1e]; simp [hl2]
        · rw [if_neg (fun e => hvw e.symm), Function.update_of_ne hvw]
          exact h.head v hv
      · intro v hv
        simp only [List.length_set] at hv
        rw [Function.update_of_ne (by omega)]
        exact h.out v hv
  | some p =>
    have hpc : p ≠ c := by rintro rfl; exact hc1 (List.mem_of_getLast? hl1)
    have hl1ne : l1 ≠ [] := by rintro rfl; simp at hl1
    rw [hl1] at hp
    rw [hp] at e
    simp only at e
    have hheads : ∀ v < s.head.length, s.head[v]? = some (Function.update L w (l1 ++ l2) v).head? := by
      intro v hv
      by_cases hvw : v = w
      · subst hvw
        rw [Function.update_self, hhead, hL]
        cases l1 with
        | nil => exact absurd rfl hl1ne
        | cons a l1 => rfl
      · rw [Function.update_of_ne hvw]; exact h.head v hv
    have houts : ∀ v, s.head.length ≤ v → Function.update L w (l1 ++ l2) v = [] := by
      intro v hv
      rw [Function.update_of_ne (by omega)]
      exact h.out v hv
    cases hl2 : l2.head? with
    | none =>
      rw [hl2] at hn
      rw [hn] at e
      simp only [Option.some.injEq] at e
      subst e
      have hwt : ∀ x, (unlink (Function.update s.node p { s.node p with next := none }) c x).weight = (s.node x).weight := by
        intro x
        unfold unlink
        by_cases hx : x = c
        · subst hx; simp [Function.update_of_ne hpc.symm]
        · by_cases hxm : x = p
          · subst hxm; simp [hx]
          · simp [hx, hxm]
      obtain ⟨m1, m2, m3⟩ := main _ hwt
        (fun x hx => by
          unfold unlink
          rw [Function.update_of_ne hx, hl1, hl2]
          by_cases hxm : x = p
          · subst hxm; simp
          · rw [if_neg (by simpa using fun e => hxm e.symm), Function.update_of_ne hxm])
        (fun x hx => by
          unfold unlink
          rw [Function.update_of_ne hx, hl2, if_neg (by simp)]
          by_cases hxm : x = p
          · subst hxm; simp
          · simp [hxm])
      exact ⟨⟨hheads, houts, m1, m2, m3⟩, ht, by simp [unlink], by simp [unlink], hwt⟩
    | some m =>
      rw [hl2] at hn
      rw [hn] at e
      simp only [Option.some.injEq] at e
      subst e
      have hmc : m ≠ c := by rintro rfl; exact hc2 (List.mem_of_head? hl2)
      have hpm : m ≠ p := by
        rintro rfl
        have := (List.nodup_append.1 hnd).2.2 m (List.mem_of_getLast? hl1) m (List.mem_cons_of_mem _ (List.mem_of_head? hl2))
        exact this rfl
      have hwt : ∀ x, (unlink (Function.update (Function.update s.node p { s.node p with next := some m }) m
          { Function.update s.node p { s.node p with next := some m } m with prev := some p }) c x).weight = (s.node x).weight := by
        intro x
        unfold unlink
        by_cases hx : x = c
        · subst hx; simp [Function.update_of_ne hmc.symm, Function.update_of_ne hpc.symm]
        · by_cases hxm : x = m
          · subst hxm; simp [hx, hpm]
          · by_cases hxp : x = p
            · subst hxp; simp [hx, hxm]
            · simp [hx, hxm, hxp]
      obtain ⟨m1, m2, m3⟩ := main _ hwt
        (fun x hx => by
          unfold unlink
          rw [Function.update_of_ne hx, hl1, hl2]
          by_cases hxm : x = m
          · subst hxm
            rw [Function.update_self, if_neg (by simpa using fun e => hpm e.symm), Function.update_of_ne hpm]
          · rw [Function.update_of_ne hxm]
            by_cases hxp : x = p
            · subst hxp; simp
            · rw [if_neg (by simpa using fun e => hxp e.symm), Function.update_of_ne hxp])
        (fun x hx => by
          unfold unlink
          rw [Function.update_of_ne hx, hl1, hl2]
          by_cases hxm : x = m
          · subst hxm; simp
          · rw [if_neg (by simpa using fun e => hxm e.symm), Function.update_of_ne hxm]
            by_cases hxp : x = p
            · subst hxp; simp
            · rw [Function.update_of_ne hxp])
      exact ⟨⟨hheads, houts, m1, m2, m3⟩, ht, by simp [unlink], by simp [unlink], hwt⟩

theorem linked_push {nd nd' : Nat → Node} {c : Nat} {l : List Nat} (hnd : l.Nodup) (hl : Linked nd none l)
    (hc : (nd' c).prev = none ∧ (nd' c).next = l.head?)
    (h : ∀ x ∈ l, (nd' x).next = (nd x).next ∧ (nd' x).prev = if l.head? = some x then some c else (nd x).prev) :
    Linked nd' none (c :: l) := by
  refine ⟨hc.1, hc.2, ?_⟩
  cases l with
  | nil => trivial
  | cons a l =>
    obtain ⟨h1, h2, h3⟩ := hl
    have ha := h a (List.mem_cons_self ..)
    rw [List.head?_cons, if_pos rfl] at ha
    refine ⟨ha.2, ha.1.trans h2, linked_congr (fun x hx => ?_) h3⟩
    have hx' := h x (List.mem_cons_of_mem _ hx)
    have hne : a ≠ x := by rintro rfl; exact (List.nodup_cons.1 hnd).1 hx
    rw [List.head?_cons, if_neg (by simpa using hne)] at hx'
    exact hx'

/-- Putting a node in front of its list. -/
theorem repr_front {s s' : WS} {L : Nat → List Nat} {c w : Nat} (h : Repr s L) (hfree : ∀ v, c ∉ L v)
    (hlen : w < s'.head.length) (hge : s.head.length ≤ s'.head.length)
    (hh : ∀ v < s'.head.length, s'.head[v]? = some (if v = w then some c else (L v).head?))
    (hcw : (s'.node c).weight = w) (hcl : (s'.node c).prev = none ∧ (s'.node c).next = (L w).head?)
    (hx : ∀ x, x ≠ c → (s'.node x).weight = (s.node x).weight ∧ (s'.node x).next = (s.node x).next ∧
      (s'.node x).prev = if (L w).head? = some x then some c else (s.node x).prev) :
    Repr s' (Function.update L w (c :: L w)) := by
  have hne : ∀ v x, x ∈ L v → x ≠ c := by rintro v x hxm rfl; exact hfree v hxm
  refine ⟨fun v hv => ?_, fun v hv => ?_, fun v => ?_, fun v x hxv => ?_, fun v => ?_⟩
  · rw [hh v hv]
    by_cases hvw : v = w
    · subst hvw; simp
    · rw [if_neg hvw, Function.update_of_ne hvw]
  · rw [Function.update_of_ne (by omega)]
    exact h.out v (by omega)
  · by_cases hvw : v = w
    · subst hvw
      rw [Function.update_self]
      exact linked_push (h.nodup v) (h.link v) hcl fun x hxv => ((hx x (hne v x hxv)).2)
    · rw [Function.update_of_ne hvw]
      refine linked_congr (fun x hxv => ?_) (h.link v)
      have := hx x (hne v x hxv)
      refine ⟨this.2.1, ?_⟩
      rw [this.2.2, if_neg]
      intro e
      exact hvw ((h.weight v x hxv).symm.trans (h.weight w x (List.mem_of_head? e)))
  · by_cases hvw : v = w
    · subst hvw
      rw [Function.update_self] at hxv
      rcases List.mem_cons.1 hxv with rfl | hxv
      · exact hcw
      · rw [(hx x (hne v x hxv)).1]; exact h.weight v x hxv
    · rw [Function.update_of_ne hvw] at hxv
      rw [(hx x (hne v x hxv)).1]; exact h.weight v x hxv
  · by_cases hvw : v = w
    · subst hvw
      rw [Function.update_self]
      exact List.nodup_cons.2 ⟨hfree v, h.nodup v⟩
    · rw [Function.update_of_ne hvw]; exact h.nodup v

theorem get_extend (h : List (Option Nat)) (w v : Nat) (hv : v < (h ++ List.replicate (w + 1 - h.length) none).length) :
    (h ++ List.replicate (w + 1 - h.length) (none : Option Nat))[v]? = if v < h.length then h[v]? else some none := by
  rw [List.getElem?_append]
  split
  · rfl
  · rw [List.getElem?_replicate, if_pos]
    rw [List.length_append, List.length_replicate] at hv
    omega

/-- `push` puts the node in front of the list of its weight. -/
theorem push_spec {s s' : WS} {L : Nat → List Nat} {c w : Nat} (h : Repr s L) (ht : Tail s) (hfree : ∀ v, c ∉ L v)
    (hw : (s.node c).weight = w) (e : push s c = some s') :
    Repr s' (Function.update L w (c :: L w)) ∧ Tail s' ∧ ∀ x, (s'.node x).weight = (s.node x).weight := by
  unfold push at e
  simp only [hw] at e
  by_cases hcl : (s.node c).next = none ∧ (s.node c).prev = none
  swap
  · rw [if_neg hcl] at e; simp at e
  rw [if_pos hcl] at e
  generalize hhd : (if s.head.length ≤ w then s.head ++ List.replicate (w + 1 - s.head.length) none else s.head) = hd at e
  have hget : w < hd.length ∧ s.head.length ≤ hd.length ∧ (∀ v < hd.length, hd[v]? = some (L v).head?) ∧
      hd ≠ [] ∧ (hd.getLast? ≠ some none ∨ w + 1 = hd.length) := by
    subst hhd
    split
    · rename_i hle
      have hl : (s.head ++ List.replicate (w + 1 - s.head.length) (none : Option Nat)).length = w + 1 := by
        rw [List.length_append, List.length_replicate]; omega
      refine ⟨by omega, by omega, fun v hv => ?_, ?_, Or.inr (by omega)⟩
      · rw [get_extend _ _ _ hv]
        split
        · rename_i hvs; exact h.head v hvs
        · rename_i hvs; rw [h.out v (by omega)]; rfl
      · intro e0; rw [e0] at hl; simp at hl
    · exact ⟨by omega, le_rfl, h.head, ht.1, Or.inl ht.2⟩
  clear hhd
  obtain ⟨g1, g2, g3, g4, g5⟩ := hget
  have hset : ∀ v < (hd.set w (some c)).length, (hd.set w (some c))[v]? = some (if v = w then some c else (L v).head?) := by
    intro v hv
    rw [List.length_set] at hv
    rw [List.getElem?_set]
    by_cases hvw : v = w
    · subst hvw; rw [if_pos rfl, if_pos hv, if_pos rfl]
    · rw [if_neg (fun e => hvw e.symm), if_neg hvw]; exact g3 v hv
  have htail : hd.set w (some c) ≠ [] ∧ (hd.set w (some c)).getLast? ≠ some none := by
    rcases g5 with g5 | g5
    · exact tail_set g4 g5
    · refine ⟨by simpa using g4, ?_⟩
      rw [List.getLast?_eq_getElem?, List.length_set, List.getElem?_set, if_pos (by omega), if_pos (by omega)]
      simp
  have hw0 := g3 w g1
  rw [hw0] at e
  cases hf : (L w).head? with
  | none =>
    rw [hf] at e
    simp only [Option.some.injEq] at e
    subst e
    refine ⟨repr_front h hfree (by simpa using g1) (by simpa using g2) hset hw ⟨hcl.2, by rw [hf]; exact hcl.1⟩ ?_, htail, fun _ => rfl⟩
    intro x hx
    exact ⟨rfl, rfl, by rw [hf]; simp⟩
  | some f =>
    rw [hf] at e
    simp only at e
    have hfc : f ≠ c := by rintro rfl; exact hfree w (List.mem_of_head? hf)
    by_cases hfp : (s.node f).prev = none
    swap
    · rw [if_neg hfp] at e; simp at e
    rw [if_pos hfp] at e
    simp only [Option.some.injEq] at e
    subst e
    refine ⟨repr_front h hfree (by simpa using g1) (by simpa using g2) hset ?_ ?_ ?_, htail, ?_⟩
    · simp only [Function.update_self, Function.update_of_ne hfc.symm]; exact hw
    · simp only [Function.update_self, Function.update_of_ne hfc.symm]; exact ⟨hcl.2, hf.symm⟩
    · intro x hx
      simp only [Function.update_of_ne hx, hf]
      by_cases hxf : x = f
      · subst hxf; simp
      · rw [Function.update_of_ne hxf, if_neg (by simpa using fun e => hxf e.symm)]; exact ⟨rfl, rfl, rfl⟩
    · intro x
      by_cases hx : x = c
      · subst hx; simp [Function.update_of_ne hfc.symm]
      · by_cases hxf : x = f
        · subst hxf; simp [hx]
        · simp [hx, hxf]

/-- What the triangulation knows about the lists: of the columns below `k`, those picked (`P`) have weight 0 and are in no list, the
others are in the list of their current weight `f`. -/
structure Good (s : WS) (k : Nat) (P : Nat → Prop) (f : Nat → Nat) : Prop where
  ex : ∃ L, Repr s L ∧ (∀ w, ∀ c ∈ L w, c < k) ∧ ∀ c < k, (P c → (s.node c).weight = 0 ∧ ∀ w, c ∉ L w) ∧ (¬ P c → c ∈ L (f c))
  tail : Tail s

theorem mem_update_erase {L : Nat → List Nat} {c w : Nat} (hnd : ∀ v, (L v).Nodup) (huniq : ∀ v, c ∈ L v → v = w) (v x : Nat) :
    x ∈ Function.update L w ((L w).erase c) v ↔ x ∈ L v ∧ x ≠ c := by
  by_cases hv : v = w
  · subst hv
    rw [Function.update_self, (hnd v).mem_erase_iff]
    tauto
  · rw [Function.update_of_ne hv]
    constructor
    · intro hx; exact ⟨hx, by rintro rfl; exact hv (huniq v hx)⟩
    · exact fun hx => hx.1

theorem Good.weight {s : WS} {k : Nat} {P : Nat → Prop} {f : Nat → Nat} (h : Good s k P f) {c : Nat} (hc : c < k) (hP : ¬ P c) :
    (s.node c).weight = f c := by
  obtain ⟨L, hr, -, hp⟩ := h.ex
  exact hr.weight _ c ((hp c hc).2 hP)

/-- Lowering the weight of one column. -/
theorem decr_spec {s s' : WS} {k : Nat} {P : Nat → Prop} {f : Nat → Nat} {c : Nat} (h : Good s k P f) (hc : c < k)
    (e : decr s c = some s') : Good s' k P (Function.update f c (f c - 1)) := by
  obtain ⟨⟨L, hr, hk, hp⟩, ht⟩ := h
  unfold decr at e
  by_cases h0 : (s.node c).weight = 0
  · rw [if_pos h0] at e
    cases e
    refine ⟨⟨L, hr, hk, fun x hx => ⟨(hp x hx).1, fun hPx => ?_⟩⟩, ht⟩
    by_cases hxc : x = c
    · subst hxc
      rw [Function.update_self]
      have hm := (hp x hx).2 hPx
      have : f x = 0 := (hr.weight _ x hm).symm.trans h0
      rw [this] at hm ⊢
      exact hm
    · rw [Function.update_of_ne hxc]; exact (hp x hx).2 hPx
  · rw [if_neg h0] at e
    have hPc : ¬ P c := fun hP => h0 ((hp c hc).1 hP).1
    have hm := (hp c hc).2 hPc
    have hwc : (s.node c).weight = f c := hr.weight _ c hm
    have huniq : ∀ v, c ∈ L v → v = f c := fun v hv => (hr.weight v c hv).symm.trans hwc
    cases hpop : pop s c with
    | none => rw [hpop] at e; simp at e
    | some s1 =>
      rw [hpop] at e
      simp only at e
      obtain ⟨r1, t1, n1, p1, w1⟩ := pop_spec hr ht hm hpop
      generalize hL1 : Function.update L (f c) ((L (f c)).erase c) = L1 at r1
      have hmem : ∀ v x, x ∈ L1 v ↔ x ∈ L v ∧ x ≠ c := by
        intro v x; rw [← hL1]; exact mem_update_erase hr.nodup huniq v x
      have r2 : Repr ⟨Function.update s1.node c { s1.node c with weight := (s1.node c).weight - 1 }, s1.head⟩ L1 := by
        refine ⟨r1.head, r1.out, fun w => linked_congr (fun x _ => ?_) (r1.link w), fun w x hx => ?_, r1.nodup⟩
        · by_cases hxc : x = c
          · subst hxc; simp
          · simp [hxc]
        · have hxc := ((hmem w x).1 hx).2
          simp only [Function.update_of_ne hxc]
          exact r1.weight w x hx
      have hcw : (Function.update s1.node c { s1.node c with weight := (s1.node c).weight - 1 } c).weight = f c - 1 := by
        simp [w1, hwc]
      obtain ⟨r3, t3, w3⟩ := push_spec r2 t1 (fun v hv => ((hmem v c).1 hv).2 rfl) hcw e
      refine ⟨⟨_, r3, fun w x hx => ?_, fun x hx => ⟨fun hPx => ?_, fun hPx => ?_⟩⟩, t3⟩
      · by_cases hw : w = f c - 1
        · subst hw
          rw [Function.update_self] at hx
          rcases List.mem_cons.1 hx with rfl | hx
          · exact hc
          · exact hk _ x ((hmem _ x).1 hx).1
        · rw [Function.update_of_ne hw] at hx
          exact hk _ x ((hmem _ x).1 hx).1
      · have hxc : x ≠ c := by rintro rfl; exact hPc hPx
        have := (hp x hx).1 hPx
        refine ⟨?_, fun w hw => ?_⟩
        · rw [w3]; simp only [Function.update_of_ne hxc]; rw [w1]; exact this.1
        · by_cases hww : w = f c - 1
          · subst hww
            rw [Function.update_self] at hw
            rcases List.mem_cons.1 hw with rfl | hw
            · exact hxc rfl
            · exact this.2 _ ((hmem _ x).1 hw).1
          · rw [Function.update_of_ne hww] at hw
            exact this.2 _ ((hmem _ x).1 hw).1
      · by_cases hxc : x = c
        · subst hxc
          rw [Function.update_self, Function.update_self]
          exact List.mem_cons_self ..
        · rw [Function.update_of_ne hxc]
          have hx1 : x ∈ L1 (f x) := (hmem _ x).2 ⟨(hp x hx).2 hPx, hxc⟩
          by_cases hww : f x = f c - 1
          · rw [hww, Function.update_self]
            rw [hww] at hx1
            exact List.mem_cons_of_mem _ hx1
          · rw [Function.update_of_ne hww]; exact hx1

/-- The list search: the first column of the lists of weight 1, 2, …. -/
theorem findMin_some {h : List (Option Nat)} (h1 : 1 < h.length) (h2 : h.getLast? ≠ some none) :
    ∃ (w : Nat) (c : Nat), 1 ≤ w ∧ (h.drop 1).findSome? id = some c ∧ h[w]? = some (some c) ∧ ∀ v, 1 ≤ v → v < w → h[v]? = some none := by
  cases h with
  | nil => simp at h1
  | cons a t =>
    have ht : t ≠ [] := by rintro rfl; simp at h1
    have hlast : t.getLast? ≠ some none := by
      cases t with
      | nil => exact absurd rfl ht
      | cons b t => rw [List.getLast?_cons_cons] at h2; exact h2
    clear h1 h2
    have : ∃ (w : Nat) (c : Nat), t.findSome? id = some c ∧ t[w]? = some (some c) ∧ ∀ v < w, t[v]? = some none := by
      induction t with
      | nil => exact absurd rfl ht
      | cons b t ih =>
        cases b with
        | some c => exact ⟨0, c, rfl, rfl, by simp⟩
        | none =>
          have ht' : t ≠ [] := by rintro rfl; simp at hlast
          obtain ⟨w, c, e1, e2, e3⟩ := ih ht' (by
            cases t with
            | nil => exact absurd rfl ht'
            | cons b t => rw [List.getLast?_cons_cons] at hlast; exact hlast)
          refine ⟨w + 1, c, by simpa [List.findSome?_cons] using e1, by simpa using e2, ?_⟩
          intro v hv
          cases v with
          | zero => rfl
          | succ v => simpa using e3 v (by omega)
    obtain ⟨w, c, e1, e2, e3⟩ := this
    refine ⟨w + 1, c, by omega, by simpa using e1, by simpa using e2, ?_⟩
    intro v hv hv'
    cases v with
    | zero => omega
    | succ v => simpa using e3 v (by omega)

/-- Picking a column: it is one of least positive weight, and it leaves the lists. -/
theorem findPopMin_spec {s s' : WS} {k : Nat} {P : Nat → Prop} {f : Nat → Nat} {c : Nat} (h : Good s k P f) (hlen : 1 < s.head.length)
    (e : findPopMin s = some (s', c)) :
    c < k ∧ ¬ P c ∧ 0 < f c ∧ (∀ x < k, ¬ P x → 0 < f x → f c ≤ f x) ∧ Good s' k (fun x => P x ∨ x = c) f := by
  obtain ⟨⟨L, hr, hk, hp⟩, ht⟩ := h
  obtain ⟨w, c', hw1, hfs, hget, hmin⟩ := findMin_some hlen ht.2
  unfold findPopMin at e
  rw [hfs] at e
  simp only at e
  have hwl : w < s.head.length := by
    by_contra hge
    rw [List.getElem?_eq_none (by omega)] at hget
    simp at hget
  have hhead : (L w).head? = some c' := by
    rw [hr.head w hwl] at hget
    exact Option.some.inj hget
  have hm := List.mem_of_head? hhead
  cases hpop : pop s c' with
  | none => rw [hpop] at e; simp at e
  | some s1 =>
    rw [hpop] at e
    simp only [Option.some.injEq, Prod.mk.injEq] at e
    obtain ⟨e, rfl⟩ := e
    subst e
    obtain ⟨r1, t1, n1, p1, w1⟩ := pop_spec hr ht hm hpop
    have hck := hk w c' hm
    have hPc : ¬ P c' := fun hP => ((hp c' hck).1 hP).2 w hm
    have hfc : f c' = w := (hr.weight _ c' ((hp c' hck).2 hPc)).symm.trans (hr.weight w c' hm)
    have huniq : ∀ v, c' ∈ L v → v = w := fun v hv => (hr.weight v c' hv).symm.trans (hr.weight w c' hm)
    have hmem := fun v x => mem_update_erase (x := x) hr.nodup huniq v
    refine ⟨hck, hPc, by omega, fun x hx hPx hfx => ?_, ⟨⟨_, ⟨r1.head, r1.out, fun w => linked_congr (fun x _ => ?_) (r1.link w),
      fun v x hx => ?_, r1.nodup⟩, fun v x hx => hk v x ((hmem v x).1 hx).1, fun x hx => ⟨fun hPx => ?_, fun hPx => ?_⟩⟩, t1⟩⟩
    · by_contra hlt
      have := (hp x hx).2 hPx
      have hn := hmin (f x) (by omega) (by omega)
      rw [hr.head (f x) (by omega)] at hn
      have := List.head?_eq_none_iff.1 (Option.some.inj hn)
      simp_all
    · by_cases hxc : x = c'
      · subst hxc; simp
      · simp [hxc]
    · have hxc := ((hmem v x).1 hx).2
      simp only [Function.update_of_ne hxc]
      exact r1.weight v x hx
    · by_cases hxc : x = c'
      · subst hxc
        exact ⟨by simp, fun v hv => ((hmem v x).1 hv).2 rfl⟩
      · have hP : P x := by rcases hPx with h | h; exacts [h, absurd h hxc]
        have := (hp x hx).1 hP
        exact ⟨by simp only [Function.update_of_ne hxc]; rw [w1]; exact this.1, fun v hv => this.2 v ((hmem v x).1 hv).1⟩
    · push_neg at hPx
      exact (hmem _ x).2 ⟨(hp x hx).2 hPx.1, hPx.2⟩

/-- When only the list of weight 0 is left, every column that was not picked has weight 0. -/
theorem good_end {s : WS} {k : Nat} {P : Nat → Prop} {f : Nat → Nat} (h : Good s k P f) (hlen : s.head.length ≤ 1) :
    ∀ c < k, ¬ P c → f c = 0 := by
  obtain ⟨⟨L, hr, hk, hp⟩, -⟩ := h
  intro c hc hP
  have := hr.lt ((hp c hc).2 hP)
  omega

theorem addCol_spec {s s' : WS} {L : Nat → List Nat} {c w : Nat} (h : Repr s L) (hfree : ∀ v, c ∉ L v) (e : addCol s c w = some s') :
    Repr s' (Function.update L w (c :: L w)) ∧ s'.head.length = s.head.length ∧ w < s.head.length := by
  unfold addCol at e
  have hwl : w < s.head.length := by
    by_contra hge
    rw [List.getElem?_eq_none (by omega)] at e
    simp at e
  rw [h.head w hwl] at e
  have hset : ∀ v < (s.head.set w (some c)).length, (s.head.set w (some c))[v]? = some (if v = w then some c else (L v).head?) := by
    intro v hv
    rw [List.length_set] at hv
    rw [List.getElem?_set]
    by_cases hvw : v = w
    · subst hvw; rw [if_pos rfl, if_pos hv, if_pos rfl]
    · rw [if_neg (fun e => hvw e.symm), if_neg hvw]; exact h.head v hv
  cases hf : (L w).head? with
  | none =>
    rw [hf] at e
    simp only [Option.some.injEq] at e
    subst e
    refine ⟨repr_front h hfree (by simpa using hwl) (by simp) hset (by simp) ⟨by simp, by simp [hf]⟩ ?_, by simp, hwl⟩
    intro x hx
    simp [hx, hf]
  | some f =>
    rw [hf] at e
    simp only [Option.some.injEq] at e
    have hfc : f ≠ c := by rintro rfl; exact hfree w (List.mem_of_head? hf)
    subst e
    refine ⟨repr_front h hfree (by simpa using hwl) (by simp) hset ?_ ?_ ?_, by simp, hwl⟩
    · simp [Function.update_of_ne hfc.symm]
    · simp [Function.update_of_ne hfc.symm, hf]
    · intro x hx
      simp only [Function.update_of_ne hx, hf]
      by_cases hxf : x = f
      · subst hxf; simp [hx]
      · rw [Function.update_of_ne hxf, Function.update_of_ne hx, if_neg (by simpa using fun e => hxf e.symm)]; exact ⟨rfl, rfl, rfl⟩

theorem addCols_spec {cw : Nat → Nat} {s s' : WS} (h : Repr s fun _ => []) (k : Nat) (e : addCols cw s k = some s') :
    (∃ L, Repr s' L ∧ ∀ w c, c ∈ L w ↔ c < k ∧ cw c = w) ∧ s'.head.length = s.head.length ∧ ∀ c < k, cw c < s.head.length := by
  induction k generalizing s' with
  | zero =>
    simp [addCols] at e
    subst e
    exact ⟨⟨_, h, by simp⟩, rfl, by simp⟩
  | succ k ih =>
    unfold addCols at e
    cases h1 : addCols cw s k with
    | none => rw [h1] at e; simp at e
    | some s1 =>
      rw [h1] at e
      simp only at e
      obtain ⟨⟨L, hr, hm⟩, hl, hlt⟩ := ih h1
      obtain ⟨r, hl', hw⟩ := addCol_spec hr (fun v hv => by have := (hm v k).1 hv; omega) e
      refine ⟨⟨_, r, fun w c => ?_⟩, by omega, fun c hc => ?_⟩
      · by_cases hww : w = cw k
        · subst hww
          rw [Function.update_self, List.mem_cons, hm]
          constructor
          · rintro (rfl | ⟨h1, h2⟩)
            · exact ⟨by omega, rfl⟩
            · exact ⟨by omega, h2⟩
          · rintro ⟨h1, h2⟩
            by_cases hck : c = k
            · exact Or.inl hck
            · exact Or.inr ⟨by omega, h2⟩
        · rw [Function.update_of_ne hww, hm]
          constructor
          · rintro ⟨h1, h2⟩; exact ⟨by omega, h2⟩
          · rintro ⟨h1, h2⟩
            refine ⟨?_, h2⟩
            by_contra hge
            have : c = k := by omega
            subst this
            exact hww h2.symm
      · by_cases hck : c = k
        · subst hck; omega
        · exact hlt c (by omega)

theorem maxWeight_spec (cw : Nat → Nat) (k : Nat) : (∀ c < k, cw c ≤ maxWeight cw k) ∧ (0 < k → ∃ c < k, cw c = maxWeight cw k) := by
  induction k with
  | zero => simp
  | succ k ih =>
    refine ⟨fun c hc => ?_, fun _ => ?_⟩
    · unfold maxWeight
      by_cases hck : c = k
      · subst hck; exact le_max_right _ _
      · exact le_trans (ih.1 c (by omega)) (le_max_left _ _)
    · unfold maxWeight
      rcases Nat.le_total (maxWeight cw k) (cw k) with hle | hle
      · exact ⟨k, by omega, by rw [max_eq_right hle]⟩
      · rw [max_eq_left hle]
        by_cases hk : 0 < k
        · obtain ⟨c, hc, e⟩ := ih.2 hk
          exact ⟨c, by omega, e⟩
        · have : k = 0 := by omega
          subst this
          exact ⟨0, by omega, by simp [maxWeight] at *; omega⟩

/-- The lists as built: every column in the list of its weight. -/
theorem weightStatistic_spec {junk : Nat → Node} {cw : Nat → Nat} {k : Nat} {s : WS} (hk : 0 < k)
    (e : weightStatistic junk cw k = some s) : Good s k (fun _ => False) cw ∧ ∀ c < k, cw c < 200 := by
  unfold weightStatistic at e
  cases h1 : addCols cw ⟨junk, List.replicate 200 none⟩ k with
  | none => rw [h1] at e; simp at e
  | some s1 =>
    rw [h1] at e
    simp only [Option.some.injEq] at e
    have h0 : Repr ⟨junk, List.replicate 200 none⟩ (fun _ => []) := by
      refine ⟨fun w hw => ?_, fun _ _ => rfl, fun _ => trivial, by simp, by simp⟩
      have hw' : w < 200 := by rw [List.length_replicate] at hw; exact hw
      rw [List.getElem?_replicate, if_pos hw']; rfl
    obtain ⟨⟨L, hr, hm⟩, hl, hlt⟩ := addCols_spec h0 k h1
    simp only [List.length_replicate] at hl hlt
    obtain ⟨g1, g2⟩ := maxWeight_spec cw k
    obtain ⟨c0, hc0, ec0⟩ := g2 hk
    have hmx : maxWeight cw k < 200 := by rw [← ec0]; exact hlt c0 hc0
    subst e
    have hlen : (s1.head.take (maxWeight cw k + 1)).length = maxWeight cw k + 1 := by
      rw [List.length_take]; omega
    have hr' : Repr ⟨s1.node, s1.head.take (maxWeight cw k + 1)⟩ L := by
      refine ⟨fun w hw => ?_, fun w hw => ?_, hr.link, hr.weight, hr.nodup⟩
      · simp only [hlen] at hw ⊢
        rw [List.getElem?_take, if_pos hw]
        exact hr.head w (by omega)
      · simp only [hlen] at hw
        refine List.eq_nil_iff_forall_not_mem.2 fun c hc => ?_
        have := (hm w c).1 hc
        have := g1 c this.1
        omega
    refine ⟨⟨⟨L, hr', fun w c hc => ((hm w c).1 hc).1, fun c hc => ⟨False.elim, fun _ => (hm _ c).2 ⟨hc, rfl⟩⟩⟩, ?_, ?_⟩, hlt⟩
    · intro e0
      simp only at e0
      rw [e0] at hlen; simp at hlen
    · simp only
      rw [List.getLast?_eq_getElem?, hlen, Nat.add_sub_cancel]
      have := hr'.head (maxWeight cw k) (by simp only; omega)
      simp only at this
      rw [this]
      intro e0
      have he := List.head?_eq_none_iff.1 (Option.some.inj e0)
      have := (hm (maxWeight cw k) c0).2 ⟨hc0, ec0⟩
      rw [he] at this
      simp at this

end Kunlun.OKVS
