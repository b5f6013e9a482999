import Verif.Model.Ggm
import Mathlib.Tactic.Ring
/-! The trees of `mpc/vole/vole.hpp`, level by level. -/

namespace Kunlun.VOLE

open Kunlun Kunlun.AES

/-- XOR of all blocks of a list. -/
def xs : List Block → Block
  | [] => 0
  | x :: l => x ^^^ xs l

theorem xs_append (a b : List Block) : xs (a ++ b) = xs a ^^^ xs b := by
  induction a with
  | nil => simp [xs]
  | cons x a ih => simp [xs, ih, BitVec.xor_assoc]

def lft (x : Block) : Block := (ggm x).1
def rgt (x : Block) : Block := (ggm x).2
def kids (x : Block) : List Block := [lft x, rgt x]

/-- The nodes at distance `j` from the root `k`, from left to right. -/
def level (k : Block) : Nat → List Block
  | 0 => [k]
  | j + 1 => (level k j).flatMap kids

theorem kids_length (l : List Block) : (l.flatMap kids).length = 2 * l.length := by
  induction l with
  | nil => rfl
  | cons x l ih => simp only [List.flatMap_cons, List.length_append, ih, List.length_cons, kids, List.length_nil]; omega

theorem level_length (k : Block) (j : Nat) : (level k j).length = 2 ^ j := by
  induction j with
  | zero => rfl
  | succ j ih => rw [level, kids_length, ih, pow_succ]; omega

/-- Sum of the left children, and of the right children, of level `j`. -/
def M0 (k : Block) (j : Nat) : Block := xs ((level k j).map lft)
def M1 (k : Block) (j : Nat) : Block := xs ((level k j).map rgt)

/-- Levels 1 to `j` in one vector. -/
def upto (k : Block) : Nat → List Block
  | 0 => []
  | j + 1 => upto k j ++ level k (j + 1)

theorem upto_length (k : Block) (j : Nat) : (upto k j).length + 2 = 2 ^ (j + 1) := by
  induction j with
  | zero => rfl
  | succ j ih => rw [upto, List.length_append, level_length, pow_succ 2 (j + 1)]; omega

/-! ### `FullEval` -/

theorem fillInner_list (L A B : List Block) : fillInner L.length A.length (A ++ L ++ B) = some (A ++ L ++ B ++ L.flatMap kids) := by
  induction L generalizing A B with
  | nil => simp [fillInner]
  | cons x L ih =>
    simp only [List.length_cons, fillInner]
    have h1 : (A ++ x :: L ++ B)[A.length]? = some x := by simp
    rw [h1, Option.bind_some]
    have := ih (A ++ [x]) (B ++ kids x)
    simp only [List.length_append, List.length_cons, List.length_nil, Nat.zero_add] at this
    rw [show A ++ x :: L ++ B ++ [(ggm x).1, (ggm x).2] = A ++ [x] ++ L ++ (B ++ kids x) by simp [kids, lft, rgt], this]
    simp [List.append_assoc]

theorem fillInner_add (m n p : Nat) (v : List Block) : fillInner (m + n) p v = (fillInner m p v).bind (fillInner n (p + m)) := by
  induction m generalizing p v with
  | zero => simp [fillInner]
  | succ m ih =>
    rw [show m + 1 + n = (m + n) + 1 by omega, fillInner, fillInner]
    cases h : v[p]? with
    | none => rfl
    | some x =>
      simp only [Option.bind_some, ih]
      congr 1
      funext w
      rw [show p + 1 + m = p + (m + 1) by omega]

theorem fillInner_levels (k : Block) (j : Nat) : fillInner (upto k j).length 0 (level k 1) = some (upto k (j + 1)) := by
  induction j with
  | zero => simp [upto, fillInner]
  | succ j ih =>
    rw [upto, List.length_append, fillInner_add, ih, Option.bind_some, Nat.zero_add]
    have := fillInner_list (level k (j + 1)) (upto k j) []
    simp only [List.append_nil] at this
    rw [upto, this]
    rfl

theorem childrenFrom_list (L A B acc : List Block) : childrenFrom (A ++ L ++ B) L.length A.length acc = some (acc ++ L.flatMap kids) := by
  induction L generalizing A acc with
  | nil => simp [childrenFrom]
  | cons x L ih =>
    simp only [List.length_cons, childrenFrom]
    have h1 : (A ++ x :: L ++ B)[A.length]? = some x := by simp
    rw [h1, Option.bind_some]
    have := ih (A ++ [x]) (acc ++ kids x)
    simp only [List.length_append, List.length_cons, List.length_nil, Nat.zero_add] at this
    rw [show A ++ x :: L ++ B = A ++ [x] ++ L ++ B by simp, show [(ggm x).1, (ggm x).2] = kids x from rfl, this]
    simp [List.append_assoc]

theorem pairSums_list (L A B : List Block) (a b : Block) :
    pairSums (A ++ L.flatMap kids ++ B) L.length A.length a b = some (a ^^^ xs (L.map lft), b ^^^ xs (L.map rgt)) := by
  induction L generalizing A a b with
  | nil => simp [pairSums, xs]
  | cons x L ih =>
    simp only [List.length_cons, pairSums]
    have h1 : (A ++ (x :: L).flatMap kids ++ B)[A.length]? = some (lft x) := by simp [kids]
    have h2 : (A ++ (x :: L).flatMap kids ++ B)[A.length + 1]? = some (rgt x) := by
      simp [kids]
    rw [h1, h2, Option.bind_some, Option.bind_some]
    have := ih (A ++ kids x) (a ^^^ lft x) (b ^^^ rgt x)
    have hl : (A ++ kids x).length = A.length + 2 := by simp [kids]
    rw [hl] at this
    rw [show A ++ (x :: L).flatMap kids ++ B = A ++ kids x ++ L.flatMap kids ++ B by simp, this]
    simp [xs, BitVec.xor_assoc]

theorem upto_prefix (k : Block) {i d : Nat} (h : i ≤ d) : ∃ B, upto k d = upto k i ++ B := by
  induction d with
  | zero => obtain rfl : i = 0 := by omega
            exact ⟨[], by simp⟩
  | succ d ih =>
    rcases Nat.lt_or_ge d i with h' | h'
    · obtain rfl : i = d + 1 := by omega
      exact ⟨[], by simp⟩
    · obtain ⟨B, e⟩ := ih h'
      exact ⟨B ++ level k (d + 1), by rw [upto, e, List.append_assoc]⟩

theorem levelSums_list (k : Block) (d n i : Nat) (hi : i + n ≤ d) (m0 m1 : List Block) :
    levelSums (upto k d) n i (upto k i).length m0 m1 =
      some (m0 ++ (List.range' i n).map (M0 k), m1 ++ (List.range' i n).map (M1 k)) := by
  induction n generalizing i m0 m1 with
  | zero => simp [levelSums]
  | succ n ih =>
    rw [levelSums]
    obtain ⟨B, hB⟩ := upto_prefix k (show i + 1 ≤ d by omega)
    have h := pairSums_list (level k i) (upto k i) B 0 0
    rw [level_length, show upto k i ++ (level k i).flatMap kids ++ B = upto k d by rw [hB]; rfl] at h
    rw [h, Option.bind_some]
    have hl : (upto k i).length + 2 * 2 ^ i = (upto k (i + 1)).length := by
      have := upto_length k i
      have := upto_length k (i + 1)
      rw [pow_succ] at this
      rw [pow_succ] at *
      omega
    rw [hl, ih (i + 1) (by omega)]
    simp [List.range'_succ, M0, M1]

/-- `FullEval` returns the sum of the leaves, the leaves, and the sums of left and right children level by level. -/
theorem fullEval_spec (d : Nat) (k : Block) : fullEval (d + 1) k =
    some ⟨M0 k d ^^^ M1 k d, level k (d + 1), (List.range (d + 1)).map (M0 k), (List.range (d + 1)).map (M1 k)⟩ := by
  rcases d with _ | d
  · simp [fullEval, M0, M1, level, xs, kids, lft, rgt]
  · unfold fullEval
    rw [if_neg (by omega), if_neg (by omega)]
    simp only [Nat.add_sub_cancel]
    have hup := upto_length k d
    have e1 : 2 ^ (d + 1) - 2 = (upto k d).length := by omega
    rw [e1, show [(ggm k).1, (ggm k).2] = level k 1 by simp [level, kids, lft, rgt], fillInner_levels, Option.bind_some]
    have e2 := childrenFrom_list (level k (d + 1)) (upto k d) [] []
    rw [level_length, List.append_nil, List.nil_append] at e2
    rw [show upto k d ++ level k (d + 1) = upto k (d + 1) from rfl] at e2
    rw [e2, Option.bind_some]
    have e3 := levelSums_list k (d + 1) d 1 (by omega) [(ggm k).1] [(ggm k).2]
    have e4 : (upto k 1).length = 2 := by simp [upto, level, kids]
    rw [e4] at e3
    rw [show d + 1 + 1 - 2 = d by omega, e3, Option.bind_some]
    obtain ⟨x, L, hL⟩ : ∃ x L, level k (d + 1) = x :: L := by
      have := level_length k (d + 1)
      cases h : level k (d + 1) with
      | nil => rw [h, List.length_nil] at this; exact absurd this.symm (pow_pos (by decide) _).ne'
      | cons x L => exact ⟨x, L, rfl⟩
    have hlen : L.length = 2 ^ (d + 1) - 1 := by
      have := level_length k (d + 1)
      rw [hL, List.length_cons] at this
      omega
    have e5 := pairSums_list L (kids x) [] (lft x) (rgt x)
    rw [List.append_nil, hlen, show (kids x).length = 2 from rfl] at e5
    rw [hL, List.flatMap_cons]
    have g0 : (kids x ++ L.flatMap kids)[0]? = some (lft x) := rfl
    have g1 : (kids x ++ L.flatMap kids)[1]? = some (rgt x) := rfl
    rw [g0, g1, Option.bind_some, Option.bind_some]
    simp only [e5, Option.map_some]
    have hM0 : lft x ^^^ xs (L.map lft) = M0 k (d + 1) := by rw [M0, hL]; rfl
    have hM1 : rgt x ^^^ xs (L.map rgt) = M1 k (d + 1) := by rw [M1, hL]; rfl
    rw [hM0, hM1]
    have r0 : ∀ f : Nat → Block, (List.range (d + 1 + 1)).map f = f 0 :: (List.range' 1 d).map f ++ [f (d + 1)] := by
      intro f
      rw [List.range_succ, List.range_eq_range', List.range'_succ]
      simp
    rw [r0, r0]
    have z0 : M0 k 0 = (ggm k).1 := by simp [M0, level, xs, lft]
    have z1 : M1 k 0 = (ggm k).2 := by simp [M1, level, xs, rgt]
    rw [z0, z1]
    have hf : kids x ++ L.flatMap kids = level k (d + 1 + 1) := by rw [level, hL, List.flatMap_cons]
    rw [hf]
    rfl

/-! ### `PuncEval` -/

def kidsO : Node → List Node
  | some x => [some (lft x), some (rgt x)]
  | none => [none, none]

/-- `alpha_i` after the nodes `L`, the first of which has number `p`. -/
def alphaOf : List Node → Nat → Option Nat → Option Nat
  | [], _, al => al
  | none :: L, p, _ => alphaOf L (p + 1) (some p)
  | some _ :: L, p, al => alphaOf L (p + 1) al

def known (L : List Node) : List Block := L.filterMap id

theorem kidsO_length (l : List Node) : (l.flatMap kidsO).length = 2 * l.length := by
  induction l with
  | nil => rfl
  | cons x l ih =>
    simp only [List.flatMap_cons, List.length_append, ih, List.length_cons]
    cases x <;> simp [kidsO] <;> omega

theorem steps_list (L A B : List Node) (r : Nat) (al : Option Nat) (a b : Block) (h : A.length + L.length + B.length = 2 * A.length + 2) :
    Punc.steps L.length ⟨A ++ L ++ B ++ List.replicate (2 * L.length + r) none, A.length, al, a, b⟩ =
      some ⟨A ++ L ++ B ++ L.flatMap kidsO ++ List.replicate r none, A.length + L.length, alphaOf L A.length al,
        a ^^^ xs ((known L).map lft), b ^^^ xs ((known L).map rgt)⟩ := by
  induction L generalizing A B al a b with
  | nil => simp [Punc.steps, alphaOf, known, xs]
  | cons o L ih =>
    simp only [List.length_cons] at h ⊢
    have hget : (A ++ o :: L ++ B ++ List.replicate (2 * (L.length + 1) + r) none)[A.length]? = some o := by simp
    have hrep : List.replicate (2 * (L.length + 1) + r) (none : Node) = none :: none :: List.replicate (2 * L.length + r) none := by
      rw [show 2 * (L.length + 1) + r = 2 * L.length + r + 1 + 1 by omega, List.replicate_succ, List.replicate_succ]
    have ih' := fun al a b => ih (A ++ [o]) (B ++ kidsO o) al a b (by
      cases o <;> simp [kidsO] <;> omega)
    simp only [List.length_append, List.length_cons, List.length_nil, Nat.zero_add] at ih'
    rw [Punc.steps, Punc.step]
    simp only [hget, Option.bind_some]
    cases o with
    | none =>
      simp only [Option.bind_some]
      have := ih' (some A.length) a b
      rw [hrep, show A ++ none :: L ++ B ++ none :: none :: List.replicate (2 * L.length + r) (none : Node) =
        A ++ [none] ++ L ++ (B ++ kidsO none) ++ List.replicate (2 * L.length + r) none by simp [kidsO], this]
      simp [alphaOf, known, kidsO, List.append_assoc, Nat.add_assoc, Nat.add_comm 1]
    | some x =>
      have hset : ∀ p q : Node, ((A ++ some x :: L ++ B ++ none :: none :: List.replicate (2 * L.length + r) (none : Node)).set
          (2 * A.length + 2) p).set (2 * A.length + 3) q =
          A ++ some x :: L ++ B ++ p :: q :: List.replicate (2 * L.length + r) (none : Node) := by
        intro p q
        have hl : (A ++ some x :: L ++ B).length = 2 * A.length + 2 := by simp; omega
        rw [List.set_append_right _ _ (by omega), List.set_append_right _ _ (by omega), hl]
        simp [show 2 * A.length + 3 - (2 * A.length + 2) = 1 by omega]
      rw [hrep]
      dsimp only
      rw [if_pos (by simp; omega)]
      simp only [Option.bind_some, hset]
      have := ih' al (a ^^^ lft x) (b ^^^ rgt x)
      rw [show A ++ some x :: L ++ B ++ some (ggm x).1 :: some (ggm x).2 :: List.replicate (2 * L.length + r) (none : Node) =
        A ++ [some x] ++ L ++ (B ++ kidsO (some x)) ++ List.replicate (2 * L.length + r) none by simp [kidsO, lft, rgt]]
      change Punc.steps L.length ⟨_, _, _, a ^^^ lft x, b ^^^ rgt x⟩ = _
      rw [this]
      simp [alphaOf, known, kidsO, xs, List.append_assoc, Nat.add_assoc, Nat.add_comm 1, BitVec.xor_assoc]

/-- A level with one node missing. -/
def holed (l1 l2 : List Block) : List Node := l1.map some ++ none :: l2.map some

theorem alphaOf_some (l : List Block) (p : Nat) (al : Option Nat) : alphaOf (l.map some) p al = al := by
  induction l generalizing p with
  | nil => rfl
  | cons x l ih => simp only [List.map_cons, alphaOf, ih]

theorem alphaOf_holed (l1 l2 : List Block) (p : Nat) (al : Option Nat) : alphaOf (holed l1 l2) p al = some (p + l1.length) := by
  unfold holed
  induction l1 generalizing p al with
  | nil => simp only [List.map_nil, List.nil_append, alphaOf, alphaOf_some]; rfl
  | cons x l1 ih =>
    simp only [List.map_cons, List.cons_append, alphaOf, ih, List.length_cons]
    rw [Nat.add_assoc, Nat.add_comm 1]

theorem known_holed (l1 l2 : List Block) : known (holed l1 l2) = l1 ++ l2 := by
  simp [known, holed, List.filterMap_append, List.filterMap_map]

theorem flatMap_some (l : List Block) : (l.map some).flatMap kidsO = (l.flatMap kids).map some := by
  induction l with
  | nil => rfl
  | cons x l ih => simp only [List.map_cons, List.flatMap_cons, ih, kidsO, kids, List.map_append, List.map_cons, List.map_nil]

theorem flatMap_holed (l1 l2 : List Block) : (holed l1 l2).flatMap kidsO =
    (l1.flatMap kids).map some ++ none :: none :: (l2.flatMap kids).map some := by
  simp only [holed, List.flatMap_append, List.flatMap_cons, flatMap_some, kidsO, List.cons_append, List.nil_append]

theorem holed_length (l1 l2 : List Block) : (holed l1 l2).length = l1.length + l2.length + 1 := by
  simp [holed]; omega

theorem zero_xor (a : Block) : 0 ^^^ a = a := by simp

theorem xor_mid (a b c : Block) : a ^^^ (b ^^^ c) ^^^ (a ^^^ c) = b := by
  ext i hi
  simp only [BitVec.getElem_xor]
  cases a[i] <;> cases b[i] <;> cases c[i] <;> rfl

/-- Going to the right: the left child of the missing node is recovered. -/
theorem brother_zero (A : List Node) (l1 l2 : List Block) (c : Block) (r : Nat) (h : A.length + (l1.length + l2.length + 1) = 2 * A.length + 2)
    (p : Nat) (m : Block) (hm : m = xs ((l1 ++ c :: l2).map lft)) (right : Block) :
    Punc.brother ⟨A ++ holed l1 l2 ++ [] ++ (holed l1 l2).flatMap kidsO ++ List.replicate r none, p, some (A.length + l1.length),
      0 ^^^ xs ((known (holed l1 l2)).map lft), right⟩ m 0 =
    some ⟨A ++ holed l1 l2 ++ holed (l1.flatMap kids ++ [lft c]) (l2.flatMap kids) ++ List.replicate r none, p, some (A.length + l1.length),
      0 ^^^ xs ((known (holed l1 l2)).map lft), right⟩ := by
  have hv : m ^^^ (0 ^^^ xs ((known (holed l1 l2)).map lft)) = lft c := by
    rw [hm, known_holed]
    simp only [List.map_append, List.map_cons, xs_append, xs]
    rw [zero_xor]
    exact xor_mid _ _ _
  unfold Punc.brother
  simp only [Option.bind_some, if_true]
  rw [hv]
  have hl : (A ++ holed l1 l2 ++ (l1.flatMap kids).map some).length = 2 * (A.length + l1.length) + 2 := by
    simp only [List.length_append, holed_length, List.length_map, kids_length]; omega
  have e : A ++ holed l1 l2 ++ [] ++ (holed l1 l2).flatMap kidsO ++ List.replicate r none =
      (A ++ holed l1 l2 ++ (l1.flatMap kids).map some) ++ none :: none :: ((l2.flatMap kids).map some ++ List.replicate r none) := by
    rw [flatMap_holed]; simp
  rw [e, setNode, if_pos (by rw [List.length_append, hl]; simp), List.set_append_right _ _ (by rw [hl]), hl, Nat.sub_self]
  simp [holed]

theorem brother_one (A : List Node) (l1 l2 : List Block) (c : Block) (r : Nat) (h : A.length + (l1.length + l2.length + 1) = 2 * A.length + 2)
    (p : Nat) (m : Block) (hm : m = xs ((l1 ++ c :: l2).map rgt)) (left : Block) :
    Punc.brother ⟨A ++ holed l1 l2 ++ [] ++ (holed l1 l2).flatMap kidsO ++ List.replicate r none, p, some (A.length + l1.length),
      left, 0 ^^^ xs ((known (holed l1 l2)).map rgt)⟩ m 1 =
    some ⟨A ++ holed l1 l2 ++ holed (l1.flatMap kids) (rgt c :: l2.flatMap kids) ++ List.replicate r none, p, some (A.length + l1.length),
      left, 0 ^^^ xs ((known (holed l1 l2)).map rgt)⟩ := by
  have hv : m ^^^ (0 ^^^ xs ((known (holed l1 l2)).map rgt)) = rgt c := by
    rw [hm, known_holed]
    simp only [List.map_append, List.map_cons, xs_append, xs]
    rw [zero_xor]
    exact xor_mid _ _ _
  unfold Punc.brother
  simp only [Option.bind_some, show ((1 : UInt8) = 0) = False by decide, if_false]
  rw [hv]
  have hl : (A ++ holed l1 l2 ++ (l1.flatMap kids).map some ++ [none]).length = 2 * (A.length + l1.length) + 3 := by
    simp only [List.length_append, holed_length, List.length_map, kids_length, List.length_cons, List.length_nil]; omega
  have e : A ++ holed l1 l2 ++ [] ++ (holed l1 l2).flatMap kidsO ++ List.replicate r none =
      (A ++ holed l1 l2 ++ (l1.flatMap kids).map some ++ [none]) ++ none :: ((l2.flatMap kids).map some ++ List.replicate r none) := by
    rw [flatMap_holed]; simp
  rw [e, setNode, if_pos (by rw [List.length_append, hl]; simp), List.set_append_right _ _ (by rw [hl]), hl, Nat.sub_self]
  simp [holed]

/-- Bit number `j` of `idx` written with `d` bits, highest first. -/
def bitAt (d idx j : Nat) : Nat := idx / 2 ^ (d - 1 - j) % 2

/-- The selection bit for level `j`, and the sum received with it. -/
def selB (d idx j : Nat) : UInt8 := if bitAt d idx j = 1 then 0 else 1
def selM (k : Block) (d idx j : Nat) : Block := if bitAt d idx j = 1 then M0 k j else M1 k j

theorem path_step (d idx j : Nat) (h : j < d) : idx / 2 ^ (d - (j + 1)) = 2 * (idx / 2 ^ (d - j)) + bitAt d idx j := by
  unfold bitAt
  rw [show d - j = (d - 1 - j) + 1 by omega, pow_succ, ← Nat.div_div_eq_div_mul, show d - (j + 1) = d - 1 - j by omega]
  omega

theorem levels_spec (k : Block) (d idx : Nat) (n i : Nat) (hd : i + n + 1 = d) (A : List Node) (l1 l2 : List Block) (c : Block)
    (hl : level k i = l1 ++ c :: l2) (hp : l1.length = idx / 2 ^ (d - i)) (hA : A.length + 2 = 2 ^ i) (r : Nat)
    (hr : A.length + 2 ^ i + r + 2 = 2 ^ d) (al : Option Nat) (a b : Block) (m : List Block) (bits : Bytes)
    (hm : ∀ j < n, m[j]? = some (selM k d idx (i + j))) (hb : ∀ j < n, bits[j]? = some (selB d idx (i + j))) :
    ∃ (A' : List Node) (l1' l2' : List Block) (c' : Block) (al' : Option Nat) (a' b' : Block),
      Punc.levels n i ⟨A ++ holed l1 l2 ++ List.replicate r none, A.length, al, a, b⟩ m bits =
        some ⟨A' ++ holed l1' l2', A'.length, al', a', b'⟩ ∧
      level k (d - 1) = l1' ++ c' :: l2' ∧ l1'.length = idx / 2 := by
  induction n generalizing i A l1 l2 c r al a b m bits with
  | zero =>
    have hr0 : r = 0 := by
      have : 2 ^ d = 2 * 2 ^ i := by rw [← hd, pow_succ]; ring
      omega
    refine ⟨A, l1, l2, c, al, a, b, by simp [Punc.levels, hr0], by rw [← hd]; exact hl, ?_⟩
    rw [hp, ← hd]; simp
  | succ n ih =>
    have hlen : l1.length + l2.length + 1 = 2 ^ i := by
      have := level_length k i
      rw [hl, List.length_append, List.length_cons] at this
      omega
    have hd2 : 2 ^ d = 4 * 2 ^ i * 2 ^ n := by
      rw [show d = i + 2 + n by omega, pow_add, pow_add]; ring
    have hpow : 1 ≤ 2 ^ n := Nat.one_le_two_pow
    obtain ⟨r', hr'⟩ : ∃ r', r = 2 * (holed l1 l2).length + r' := by
      refine ⟨r - 2 * (holed l1 l2).length, ?_⟩
      rw [holed_length]
      have : 4 * 2 ^ i ≤ 2 ^ d := by rw [hd2]; exact Nat.le_mul_of_pos_right _ hpow
      omega
    have hst := steps_list (holed l1 l2) A [] r' al 0 0 (by rw [holed_length, List.length_nil]; omega)
    rw [holed_length, hlen] at hr'
    rw [alphaOf_holed, holed_length, hlen, ← hr'] at hst
    have e0 : A ++ holed l1 l2 ++ [] ++ List.replicate r (none : Node) = A ++ holed l1 l2 ++ List.replicate r none := by simp
    rw [e0] at hst
    rw [Punc.levels]
    simp only [hst, hm 0 (by omega), hb 0 (by omega), Option.bind_some, Nat.add_zero]
    have hA' : (A ++ holed l1 l2).length = A.length + 2 ^ i := by rw [List.length_append, holed_length, hlen]
    have hps := path_step d idx i (by omega)
    have hm' : ∀ j < n, (m.drop 1)[j]? = some (selM k d idx (i + 1 + j)) := by
      intro j hj
      rw [List.getElem?_drop, hm (1 + j) (by omega)]
      congr 2; omega
    have hb' : ∀ j < n, (bits.drop 1)[j]? = some (selB d idx (i + 1 + j)) := by
      intro j hj
      rw [List.getElem?_drop, hb (1 + j) (by omega)]
      congr 2; omega
    have hpow2 : 2 ^ (i + 1) = 2 * 2 ^ i := by rw [pow_succ]; ring
    rcases Nat.mod_two_eq_zero_or_one (idx / 2 ^ (d - 1 - i)) with hbit | hbit
    · have hbit' : bitAt d idx i = 0 := hbit
      have e1 : selB d idx i = 1 := by unfold selB; rw [if_neg (by omega)]
      have e2 : selM k d idx i = xs ((l1 ++ c :: l2).map rgt) := by unfold selM; rw [if_neg (by omega), M1, hl]
      rw [e1, brother_one A l1 l2 c r' (by omega) _ _ e2, Option.bind_some, ← hA']
      refine ih (i + 1) (by omega) (A ++ holed l1 l2) (l1.flatMap kids) (rgt c :: l2.flatMap kids) (lft c) ?_ ?_ ?_ r' ?_ _ _ _ _ _ hm' hb'
      · rw [level, hl]; simp [kids]
      · rw [kids_length, hps, hbit', hp, Nat.add_zero]
      · omega
      · omega
    · have hbit' : bitAt d idx i = 1 := hbit
      have e1 : selB d idx i = 0 := by unfold selB; rw [if_pos hbit']
      have e2 : selM k d idx i = xs ((l1 ++ c :: l2).map lft) := by unfold selM; rw [if_pos hbit', M0, hl]
      rw [e1, brother_zero A l1 l2 c r' (by omega) _ _ e2, Option.bind_some, ← hA']
      refine ih (i + 1) (by omega) (A ++ holed l1 l2) (l1.flatMap kids ++ [lft c]) (l2.flatMap kids) (rgt c) ?_ ?_ ?_ r' ?_ _ _ _ _ _ hm' hb'
      · rw [level, hl]; simp [kids]
      · rw [List.length_append, kids_length, hps, hbit', hp]; rfl
      · omega
      · omega

def leafO : Node → List Block
  | some x => kids x
  | none => [0, 0]

theorem lastLoop_list (L A : List Node) (i : Nat) (X : List Block) (hX : X.length = 2 * i) (al : Option Nat) (a b : Block) :
    lastLoop (A ++ L) L.length i A.length ⟨X ++ List.replicate (2 * L.length) 0, al, a, b⟩ =
      some ⟨X ++ L.flatMap leafO, alphaOf L i al, a ^^^ xs ((known L).map lft), b ^^^ xs ((known L).map rgt)⟩ := by
  induction L generalizing A i X al a b with
  | nil => simp [lastLoop, alphaOf, known, xs]
  | cons o L ih =>
    simp only [List.length_cons]
    have hget : (A ++ o :: L)[A.length]? = some o := by simp
    have hrep : List.replicate (2 * (L.length + 1)) (0 : Block) = 0 :: 0 :: List.replicate (2 * L.length) 0 := by
      rw [show 2 * (L.length + 1) = 2 * L.length + 1 + 1 by omega, List.replicate_succ, List.replicate_succ]
    have ih' := fun al a b => ih (A ++ [o]) (i + 1) (X ++ leafO o) (by cases o <;> simp [leafO, kids, hX] <;> omega) al a b
    simp only [List.length_append, List.length_cons, List.length_nil, Nat.zero_add] at ih'
    rw [lastLoop]
    simp only [hget, Option.bind_some]
    cases o with
    | none =>
      have := ih' (some i) a b
      rw [hrep, show X ++ 0 :: 0 :: List.replicate (2 * L.length) (0 : Block) = X ++ leafO none ++ List.replicate (2 * L.length) 0 by simp [leafO],
        show A ++ none :: L = A ++ [none] ++ L by simp]
      dsimp only
      rw [this]
      simp [alphaOf, known]
    | some x =>
      have hset : ∀ p q : Block, ((X ++ 0 :: 0 :: List.replicate (2 * L.length) (0 : Block)).set (2 * i) p).set (2 * i + 1) q =
          X ++ p :: q :: List.replicate (2 * L.length) (0 : Block) := by
        intro p q
        rw [List.set_append_right _ _ (by omega), List.set_append_right _ _ (by omega), hX]
        simp
      rw [hrep]
      dsimp only
      rw [if_pos (by simp; omega), hset]
      have := ih' al (a ^^^ lft x) (b ^^^ rgt x)
      rw [show A ++ some x :: L = A ++ [some x] ++ L by simp,
        show X ++ (ggm x).1 :: (ggm x).2 :: List.replicate (2 * L.length) (0 : Block) = X ++ leafO (some x) ++ List.replicate (2 * L.length) 0 by
          simp [leafO, kids, lft, rgt]]
      change lastLoop _ _ _ _ ⟨_, _, a ^^^ lft x, b ^^^ rgt x⟩ = _
      rw [this]
      simp [alphaOf, known, xs, BitVec.xor_assoc]

theorem leafO_holed (l1 l2 : List Block) : (holed l1 l2).flatMap leafO = l1.flatMap kids ++ 0 :: 0 :: l2.flatMap kids := by
  have : ∀ l : List Block, (l.map some).flatMap leafO = l.flatMap kids := by
    intro l
    induction l with
    | nil => rfl
    | cons x l ih => simp only [List.map_cons, List.flatMap_cons, ih, leafO]
  simp only [holed, List.flatMap_append, List.flatMap_cons, this, leafO, List.cons_append, List.nil_append]

theorem xor_mid2 (a b c d e : Block) (x : Block) : a ^^^ (b ^^^ (c ^^^ d)) ^^^ (a ^^^ e ^^^ x) = b ^^^ (c ^^^ d) ^^^ e ^^^ x := by
  ext i hi
  simp only [BitVec.getElem_xor]
  cases a[i] <;> cases b[i] <;> cases c[i] <;> cases d[i] <;> cases e[i] <;> cases x[i] <;> rfl

/-- `PuncEval`, given for every level the sum on the side off the path to `idx`, and the sum of the leaves plus `x` as `beta`, returns all
leaves, with `x` added to leaf `idx`. -/
theorem puncEval_spec (k : Block) (d idx : Nat) (hi : idx < 2 ^ (d + 1)) (x : Block) (m : List Block) (bits : Bytes)
    (hm : ∀ j < d + 1, m[j]? = some (selM k (d + 1) idx j)) (hb : ∀ j < d + 1, bits[j]? = some (selB (d + 1) idx j)) :
    ∃ l1 c l2, level k (d + 1) = l1 ++ c :: l2 ∧ l1.length = idx ∧
      puncEval (d + 1) (M0 k d ^^^ M1 k d ^^^ x) m bits = some (l1 ++ (c ^^^ x) :: l2) := by
  have h0 := hm 0 (by omega)
  have g0 := hb 0 (by omega)
  rcases d with _ | d
  · unfold puncEval
    rw [if_neg (by omega), h0, g0, Option.bind_some, Option.bind_some, if_pos rfl]
    have hlev : level k 1 = [lft k, rgt k] := by simp [level, kids]
    have z0 : M0 k 0 = lft k := by simp [M0, level, xs]
    have z1 : M1 k 0 = rgt k := by simp [M1, level, xs]
    have hx1 : ∀ a b : Block, a ^^^ (a ^^^ b ^^^ x) = b ^^^ x := by
      intro a b; rw [BitVec.xor_assoc a b, ← BitVec.xor_assoc, BitVec.xor_self]; simp
    have hx2 : ∀ a b : Block, b ^^^ (a ^^^ b ^^^ x) = a ^^^ x := by
      intro a b; rw [BitVec.xor_comm a b]; exact hx1 b a
    have hi2 : idx = 0 ∨ idx = 1 := by simp at hi; omega
    rcases hi2 with rfl | rfl
    · refine ⟨[], lft k, [rgt k], hlev, rfl, ?_⟩
      rw [z0, z1]
      have : selB (0 + 1) 0 0 = 1 := rfl
      have h2 : selM k (0 + 1) 0 0 = rgt k := by rw [← z1]; rfl
      rw [this, h2, if_neg (by decide), hx2]
      rfl
    · refine ⟨[lft k], rgt k, [], hlev, rfl, ?_⟩
      rw [z0, z1]
      have : selB (0 + 1) 1 0 = 0 := rfl
      have h2 : selM k (0 + 1) 1 0 = lft k := by rw [← z0]; rfl
      rw [this, h2, if_pos rfl, hx1]
      rfl
  · unfold puncEval
    rw [if_neg (by omega), h0, g0, Option.bind_some, Option.bind_some, if_neg (by omega)]
    have hlev : level k 1 = [lft k, rgt k] := by simp [level, kids]
    have z0 : M0 k 0 = lft k := by simp [M0, level, xs]
    have z1 : M1 k 0 = rgt k := by simp [M1, level, xs]
    have hps := path_step (d + 1 + 1) idx 0 (by omega)
    have hz : idx / 2 ^ (d + 1 + 1 - 0) = 0 := Nat.div_eq_of_lt (by simpa using hi)
    have hpow : 2 ^ (d + 1 + 1) = 4 * 2 ^ d := by rw [pow_succ, pow_succ]; ring
    have hpos : 1 ≤ 2 ^ d := Nat.one_le_two_pow
    obtain ⟨nodes, l1, c, l2, hn, hnl, hl, hp⟩ : ∃ nodes l1 c l2, firstNodes (2 ^ (d + 1 + 1) - 2) (selM k (d + 1 + 1) idx 0) (selB (d + 1 + 1) idx 0) = some nodes ∧
        nodes = holed l1 l2 ++ List.replicate (2 ^ (d + 1 + 1) - 4) none ∧ level k 1 = l1 ++ c :: l2 ∧ l1.length = idx / 2 ^ (d + 1 + 1 - 1) := by
      have hrep : List.replicate (2 ^ (d + 1 + 1) - 2) (none : Node) = none :: none :: List.replicate (2 ^ (d + 1 + 1) - 4) none := by
        rw [show 2 ^ (d + 1 + 1) - 2 = 2 ^ (d + 1 + 1) - 4 + 1 + 1 by omega, List.replicate_succ, List.replicate_succ]
      unfold firstNodes setNode
      rw [hrep]
      rcases Nat.mod_two_eq_zero_or_one (idx / 2 ^ (d + 1 + 1 - 1 - 0)) with hbit | hbit
      · have hbit' : bitAt (d + 1 + 1) idx 0 = 0 := hbit
        have e1 : selB (d + 1 + 1) idx 0 = 1 := by unfold selB; rw [if_neg (by omega)]
        have e2 : selM k (d + 1 + 1) idx 0 = rgt k := by unfold selM; rw [if_neg (by omega), z1]
        refine ⟨_, [], lft k, [rgt k], by rw [e1, e2, if_neg (show ¬ (1 : UInt8) = 0 by decide), if_pos (by simp)], by simp [holed], hlev, ?_⟩
        rw [hz, hbit'] at hps
        exact hps.symm
      · have hbit' : bitAt (d + 1 + 1) idx 0 = 1 := hbit
        have e1 : selB (d + 1 + 1) idx 0 = 0 := by unfold selB; rw [if_pos hbit']
        have e2 : selM k (d + 1 + 1) idx 0 = lft k := by unfold selM; rw [if_pos hbit', z0]
        refine ⟨_, [lft k], rgt k, [], by rw [e1, e2, if_pos rfl, if_pos (by simp)], by simp [holed], hlev, ?_⟩
        rw [hz, hbit'] at hps
        exact hps.symm
    rw [hn, Option.bind_some, hnl, show d + 1 + 1 - 2 = d by omega]
    obtain ⟨A', l1', l2', c', al', a', b', hlv, hl', hp'⟩ := levels_spec k (d + 1 + 1) idx d 1 (by omega) [] l1 l2 c hl hp (by simp)
      (2 ^ (d + 1 + 1) - 4) (by simp; omega) none 0 0 (m.drop 1) (bits.drop 1)
      (by intro j hj; rw [List.getElem?_drop]; exact hm (1 + j) (by omega))
      (by intro j hj; rw [List.getElem?_drop]; exact hb (1 + j) (by omega))
    rw [List.nil_append, List.length_nil] at hlv
    rw [hlv, Option.bind_some, show d + 1 + 1 - 1 = d + 1 by omega]
    rw [show d + 1 + 1 - 1 = d + 1 by omega] at hl'
    have hlen : l1'.length + l2'.length + 1 = 2 ^ (d + 1) := by
      have := level_length k (d + 1)
      rw [hl', List.length_append, List.length_cons] at this
      omega
    have hll := lastLoop_list (holed l1' l2') A' 0 [] rfl al' 0 0
    rw [holed_length, hlen, List.nil_append, List.nil_append, show 2 * 2 ^ (d + 1) = 2 ^ (d + 1 + 1) by rw [pow_succ 2 (d + 1)]; ring, alphaOf_holed,
      known_holed, leafO_holed, Nat.zero_add] at hll
    dsimp only
    rw [hll, Option.bind_some, hm (d + 1) (by omega), hb (d + 1) (by omega), Option.bind_some, Option.bind_some]
    unfold Last.finish
    simp only [Option.bind_some, zero_xor]
    have hk1 : (l1'.flatMap kids).length = 2 * l1'.length := kids_length l1'
    rw [if_pos (by simp only [List.length_append, List.length_cons, hk1]; omega)]
    have hset : ∀ p q : Block, ((l1'.flatMap kids ++ 0 :: 0 :: l2'.flatMap kids).set (2 * l1'.length) p).set (2 * l1'.length + 1) q =
        l1'.flatMap kids ++ p :: q :: l2'.flatMap kids := by
      intro p q
      rw [List.set_append_right _ _ (by omega), List.set_append_right _ _ (by omega), hk1]
      simp
    simp only [hset]
    have hps2 := path_step (d + 1 + 1) idx (d + 1) (by omega)
    have hps3 : idx = 2 * l1'.length + bitAt (d + 1 + 1) idx (d + 1) := by
      rw [hp']; simpa using hps2
    have hM0 : M0 k (d + 1) = xs (l1'.map lft) ^^^ (lft c' ^^^ xs (l2'.map lft)) := by
      rw [M0, hl', List.map_append, xs_append]; rfl
    have hM1 : M1 k (d + 1) = xs (l1'.map rgt) ^^^ (rgt c' ^^^ xs (l2'.map rgt)) := by
      rw [M1, hl', List.map_append, xs_append]; rfl
    rw [List.map_append, List.map_append, xs_append, xs_append]
    rcases Nat.mod_two_eq_zero_or_one (idx / 2 ^ (d + 1 + 1 - 1 - (d + 1))) with hbit | hbit
    · have hbit' : bitAt (d + 1 + 1) idx (d + 1) = 0 := hbit
      have e1 : selB (d + 1 + 1) idx (d + 1) = 1 := by unfold selB; rw [if_neg (by omega)]
      have e2 : selM k (d + 1 + 1) idx (d + 1) = M1 k (d + 1) := by unfold selM; rw [if_neg (by omega)]
      refine ⟨l1'.flatMap kids, lft c', rgt c' :: l2'.flatMap kids, by rw [level, hl']; simp [kids], by rw [hk1, hps3, hbit']; omega, ?_⟩
      rw [e1, e2, if_neg (by decide), hM0, hM1]
      congr 3
      · generalize xs (l1'.map lft) = p1; generalize xs (l1'.map rgt) = p2; generalize xs (l2'.map lft) = p3; generalize xs (l2'.map rgt) = p4
        ext i hi
        simp only [BitVec.getElem_xor]
        cases p1[i] <;> cases p2[i] <;> cases p3[i] <;> cases p4[i] <;> cases (lft c')[i] <;> cases (rgt c')[i] <;> cases x[i] <;> rfl
      · congr 1
        exact xor_mid _ _ _
    · have hbit' : bitAt (d + 1 + 1) idx (d + 1) = 1 := hbit
      have e1 : selB (d + 1 + 1) idx (d + 1) = 0 := by unfold selB; rw [if_pos hbit']
      have e2 : selM k (d + 1 + 1) idx (d + 1) = M0 k (d + 1) := by unfold selM; rw [if_pos hbit']
      refine ⟨l1'.flatMap kids ++ [lft c'], rgt c', l2'.flatMap kids, by rw [level, hl']; simp [kids], by rw [List.length_append, hk1, hps3, hbit']; simp, ?_⟩
      rw [e1, e2, if_pos rfl, hM0, hM1, xor_mid]
      rw [List.append_assoc, List.singleton_append]
      congr 4
      generalize xs (l1'.map lft) = p1; generalize xs (l1'.map rgt) = p2; generalize xs (l2'.map lft) = p3; generalize xs (l2'.map rgt) = p4
      ext i hi
      simp only [BitVec.getElem_xor]
      cases p1[i] <;> cases p2[i] <;> cases p3[i] <;> cases p4[i] <;> cases (lft c')[i] <;> cases (rgt c')[i] <;> cases x[i] <;> rfl

end Kunlun.VOLE
