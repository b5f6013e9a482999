import Verif.Props.Aes
import Verif.Model.Gf128
/-!
The trees of `mpc/vole/vole.hpp`: `GGM_PRG`, `FullEval`, `PuncEval` and `TransToBitVec`.

`PuncEval` is given two pointers; they are modelled by the memory from the pointer on.
-/

namespace Kunlun.VOLE

open Kunlun Kunlun.AES

/-- vole.hpp:503-513 `GGM_PRG`. `FastECBEnc` encrypts the two blocks in place (`ggm_ecb` below). -/
def ggm (k : Block) : Block × Block := (enc (genEncKey k) (Block.makeBlock 0 1), enc (genEncKey k) (Block.makeBlock 0 2))

theorem ggm_ecb (k : Block) : ∃ b, fastECBEnc (genEncKey k) ⟨true, [Block.makeBlock 0 1, Block.makeBlock 0 2], [Block.makeBlock 0 1, Block.makeBlock 0 2]⟩ 2
    = some b ∧ b.dst = [(ggm k).1, (ggm k).2] :=
  aes_fastECB_in_place (genEncKey k) _ 2 (by simp)

/-- vole.hpp:338-343: `n` rounds of the loop that fills `vec_inner`, from parent `p` on. The children of `p` go to `2p+2` and `2p+3`, the next
two free places, so the vector is modelled by the part filled so far. -/
def fillInner : Nat → Nat → List Block → Option (List Block)
  | 0, _, v => some v
  | n + 1, p, v => (v[p]?).bind fun x => fillInner n (p + 1) (v ++ [(ggm x).1, (ggm x).2])

/-- vole.hpp:346-350: the children of the nodes `p`, `p+1`, ... (`n` of them). -/
def childrenFrom (v : List Block) : Nat → Nat → List Block → Option (List Block)
  | 0, _, acc => some acc
  | n + 1, p, acc => (v[p]?).bind fun x => childrenFrom v n (p + 1) (acc ++ [(ggm x).1, (ggm x).2])

/-- vole.hpp:362-365, 371-374: the sums of `n` neighbouring pairs from `i` on, added to `a` and `b`. -/
def pairSums (v : List Block) : Nat → Nat → Block → Block → Option (Block × Block)
  | 0, _, a, b => some (a, b)
  | n + 1, i, a, b => (v[i]?).bind fun x => (v[i + 1]?).bind fun y => pairSums v n (i + 2) (a ^^^ x) (b ^^^ y)

/-- vole.hpp:358-368: the loop over the inner levels `i`, ...; `left` is `left_index`. -/
def levelSums (v : List Block) : Nat → Nat → Nat → List Block → List Block → Option (List Block × List Block)
  | 0, _, _, m0, m1 => some (m0, m1)
  | n + 1, i, left, m0, m1 => (pairSums v (2 ^ i) left 0 0).bind fun s =>
      levelSums v n (i + 1) (left + 2 * 2 ^ i) (m0 ++ [s.1]) (m1 ++ [s.2])

/-- What `FullEval` produces: its return value, the leaves, and the values appended to `vec_m0` and `vec_m1`. -/
structure Full where
  sum : Block
  leaf : List Block
  m0 : List Block
  m1 : List Block

/-- vole.hpp:307-379 `FullEval`. -/
def fullEval (depth : Nat) (k : Block) : Option Full :=
  if depth = 0 then some ⟨0, [], [], []⟩ else
  if depth = 1 then some ⟨(ggm k).1 ^^^ (ggm k).2, [(ggm k).1, (ggm k).2], [(ggm k).1], [(ggm k).2]⟩ else
  (fillInner (2 ^ (depth - 1) - 2) 0 [(ggm k).1, (ggm k).2]).bind fun v =>
  (childrenFrom v (2 ^ (depth - 1)) (2 ^ (depth - 1) - 2) []).bind fun leaf =>
  (levelSums v (depth - 2) 1 2 [(ggm k).1] [(ggm k).2]).bind fun m =>
  (leaf[0]?).bind fun x => (leaf[1]?).bind fun y =>
  (pairSums leaf (2 ^ (depth - 1) - 1) 2 x y).map fun s => ⟨s.1 ^^^ s.2, leaf, m.1 ++ [s.1], m.2 ++ [s.2]⟩

/-- vole.hpp:382-385 `Punc_Node`: `none` if the flag is not set. -/
abbrev Node := Option Block

/-- The variables of the loops of `PuncEval`: the inner nodes, `parent_i`, `alpha_i` (not initialised at first), and the two sums. -/
structure Punc where
  nodes : List Node
  parent : Nat
  alpha : Option Nat
  left : Block
  right : Block

/-- vole.hpp:438-457: one round of the inner loop. -/
def Punc.step (s : Punc) : Option Punc :=
  (s.nodes[s.parent]?).bind fun o =>
  match o with
  | some x =>
    if 2 * s.parent + 3 < s.nodes.length then
      some ⟨(s.nodes.set (2 * s.parent + 2) (some (ggm x).1)).set (2 * s.parent + 3) (some (ggm x).2), s.parent + 1, s.alpha,
        s.left ^^^ (ggm x).1, s.right ^^^ (ggm x).2⟩
    else none
  | none => some { s with parent := s.parent + 1, alpha := some s.parent }

/-- vole.hpp:438-457: `n` rounds. -/
def Punc.steps : Nat → Punc → Option Punc
  | 0, s => some s
  | n + 1, s => s.step.bind (Punc.steps n)

/-- A write to `ptr_inner`. -/
def setNode (nodes : List Node) (i : Nat) (b : Block) : Option (List Node) :=
  if i < nodes.length then some (nodes.set i (some b)) else none

/-- vole.hpp:459-466: the brother of the node on the path. -/
def Punc.brother (s : Punc) (m : Block) (bit : UInt8) : Option Punc :=
  s.alpha.bind fun a =>
  (if bit = 0 then setNode s.nodes (2 * a + 2) (m ^^^ s.left) else setNode s.nodes (2 * a + 3) (m ^^^ s.right)).map fun nodes =>
  { s with nodes := nodes }

/-- vole.hpp:433-469: the levels `i`, ... (`n` of them); `m` and `bits` are the memory at the two pointers. -/
def Punc.levels : Nat → Nat → Punc → List Block → Bytes → Option Punc
  | 0, _, s, _, _ => some s
  | n + 1, i, s, m, bits =>
    (Punc.steps (2 ^ i) { s with left := 0, right := 0 }).bind fun s =>
    (m[0]?).bind fun m0 => (bits[0]?).bind fun b0 =>
    (s.brother m0 b0).bind fun s => Punc.levels n (i + 1) s (m.drop 1) (bits.drop 1)

/-- The variables of the last loop: leaves, `alpha_i` (now the number of the missing pair), and the sums. -/
structure Last where
  leaf : List Block
  alpha : Option Nat
  left : Block
  right : Block

/-- vole.hpp:474-486: the pairs `i`, ... (`n` of them), from the inner nodes `p`, ... -/
def lastLoop (nodes : List Node) : Nat → Nat → Nat → Last → Option Last
  | 0, _, _, s => some s
  | n + 1, i, p, s => (nodes[p]?).bind fun o =>
    match o with
    | some x =>
      if 2 * i + 1 < s.leaf.length then
        lastLoop nodes n (i + 1) (p + 1) ⟨(s.leaf.set (2 * i) (ggm x).1).set (2 * i + 1) (ggm x).2, s.alpha,
          s.left ^^^ (ggm x).1, s.right ^^^ (ggm x).2⟩
      else none
    | none => lastLoop nodes n (i + 1) (p + 1) { s with alpha := some i }

/-- vole.hpp:488-496: the missing pair of leaves. -/
def Last.finish (s : Last) (beta m : Block) (bit : UInt8) : Option (List Block) :=
  s.alpha.bind fun a =>
  if 2 * a + 1 < s.leaf.length then
    some (if bit = 0 then (s.leaf.set (2 * a) (m ^^^ s.left)).set (2 * a + 1) (m ^^^ s.right ^^^ beta)
      else (s.leaf.set (2 * a) (m ^^^ s.left ^^^ beta)).set (2 * a + 1) (m ^^^ s.right))
  else none

/-- vole.hpp:413-420: the first level; the other node stays empty. -/
def firstNodes (n : Nat) (m : Block) (bit : UInt8) : Option (List Node) :=
  setNode (List.replicate n none) (if bit = 0 then 0 else 1) m

/-- vole.hpp:388-500 `PuncEval`. -/
def puncEval (depth : Nat) (beta : Block) (m : List Block) (bits : Bytes) : Option (List Block) :=
  if depth = 0 then some [] else
  (m[0]?).bind fun m0 => (bits[0]?).bind fun b0 =>
  if depth = 1 then some (if b0 = 0 then [m0, m0 ^^^ beta] else [m0 ^^^ beta, m0]) else
  (firstNodes (2 ^ depth - 2) m0 b0).bind fun nodes =>
  (Punc.levels (depth - 2) 1 ⟨nodes, 0, none, 0, 0⟩ (m.drop 1) (bits.drop 1)).bind fun s =>
  (lastLoop s.nodes (2 ^ (depth - 1)) 0 s.parent ⟨List.replicate (2 ^ depth) 0, s.alpha, 0, 0⟩).bind fun l =>
  (m[depth - 1]?).bind fun mLast => (bits[depth - 1]?).bind fun bLast => l.finish beta mLast bLast

/-- vole.hpp:516-526 `TransToBitVec`: the bits of `num`, complemented, put in front of `v`, lowest first. -/
def transToBitVec : Nat → Nat → Bytes → Bytes
  | _, 0, v => v
  | num, n + 1, v => transToBitVec (num / 2) n ((if num % 2 = 1 then 0 else 1) :: v)

end Kunlun.VOLE
