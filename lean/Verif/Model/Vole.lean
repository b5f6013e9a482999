import Verif.Model.Ggm
import Verif.Model.ExConv
import Verif.Model.Gf128
import Verif.Model.CwPrf
import Mathlib.Data.Nat.Log
/-!
Model of `mpc/vole/basevole.hpp` and `mpc/vole/vole.hpp`: vector oblivious linear evaluation.

Parts used: ALSZ OT extension (`Verif/Model/OtExt.lean`), GF(2^128) (`Verif/Model/Gf128.lean`), the GGM trees (`Verif/Model/Ggm.lean`) and the
expand-convolute code (`Verif/Model/ExConv.lean`). The parameters in the file `alszote.pp` are those `ALSZOTE::Setup(128)` makes. Every salt of
`PRG::SetSeed()` and every scalar of the base OT is a parameter. `std::ceil(log2(n))` is the exact one. The item number is assumed to be below
`2^63`, so that doubling it does not wrap.
-/

namespace Kunlun.VOLE

open Kunlun Kunlun.Proto Kunlun.AES

variable {G : Type} [AddCommGroup G]

/-- What the sender of an OT extension draws. -/
structure SCoins where
  salt : Block
  sk : Nat → ℤ

/-- What the receiver of an OT extension draws. -/
structure RCoins where
  salt : Block
  d : ℤ
  r : Nat → ℤ

/-- `ALSZOTE::Send` with the parameters of `Setup(128)`. -/
def otSend (e : OTE.Env G) (c : SCoins) (m0 m1 : List Block) (len : Nat) : Proc Unit :=
  OTE.send e.net (OTE.ALSZ.randomSend e 128 c.salt c.sk len) 128 m0 m1 len

/-- `ALSZOTE::Receive` with the parameters of `Setup(128)`. -/
def otReceive (e : OTE.Env G) (c : RCoins) (sel : Bytes) (len : Nat) : Proc (List Block) :=
  OTE.receive e.net (OTE.ALSZ.randomReceive e 128 c.salt c.d c.r sel len) 128 sel len

/-! ### basevole.hpp -/

/-- basevole.hpp:234-238, 321-325: `FastECBEnc` into a new vector, under the key made from the fixed seed. -/
def prf (k : List Block) (n : Nat) : Option (List Block) :=
  (fastECBEnc (PRG.setSeed CwPRF.fixedSeed 0).key ⟨false, k, List.replicate n 0⟩ n).map (·.dst)

/-- basevole.hpp:214-216, 241: the blocks drawn by A, in the order in which they are drawn. -/
def drawA (salt : Block) (t : Nat) : Option (List Block × List Block × List Block) := do
  let (k0, s) ← PRG.genRandomBlocks OTE.uninit (PRG.setSeed salt 0) (t * 128)
  let (k1, s) ← PRG.genRandomBlocks OTE.uninit s (t * 128)
  let (u, _) ← PRG.genRandomBlocks OTE.uninit s t
  return (k0, k1, u)

/-- basevole.hpp:245-258: the corrections. The vectors have `128t`, `128t` and `t` entries. -/
def gammas (t : Nat) (w0 w1 u : List Block) : List Block :=
  (List.range (t * 128)).map fun i => w0.getD i 0 ^^^ w1.getD i 0 ^^^ u.getD (i / 128) 0

/-- basevole.hpp:265-267: the `i`-th 128 entries, combined. -/
def combine128 (w : List Block) (i : Nat) : Option Block := GF.gadget ((w.drop (i * 128)).take 128)

/-- basevole.hpp:204-270 `baseVOLE_tA`: A gets `u` and `w`. -/
def baseA (e : OTE.Env G) (c : SCoins) (salt : Block) (t : Nat) : Proc (List Block × List Block) :=
  match drawA salt t with
  | none => .fail
  | some (k0, k1, u) => (otSend e c k0 k1 (t * 128)).bind fun _ =>
    match prf k0 (t * 128), prf k1 (t * 128) with
    | some w0, some w1 => sendBlocks e.net (gammas t w0 w1 u) <|
      Proc.ofOption (((List.range t).mapM (combine128 w0)).map fun w => (u, w))
    | _, _ => .fail

/-- basevole.hpp:287-306: the lowest `n` bits of a word, lowest first. -/
def wordBits : Nat → BitVec 64 → Bytes
  | 0, _ => []
  | n + 1, w => (if w % 2#64 = 1#64 then 1 else 0) :: wordBits n (w >>> 1)

/-- basevole.hpp:279-306: `vec_delta_bit`: the low word, then the high word. -/
def deltaBits (delta : Block) : Bytes := wordBits 64 (delta.setWidth 64) ++ wordBits 64 ((delta >>> 64).setWidth 64)

/-- basevole.hpp:279-306: `vec_select_bit`: the bits, `t` times. -/
def selectBits (t : Nat) (delta : Block) : Bytes := (List.replicate t (deltaBits delta)).flatten

/-- basevole.hpp:332-342: `temp_vec_v` for `j`. -/
def vRow (bits : Bytes) (w gama : List Block) (j : Nat) : List Block :=
  (List.range 128).map fun i => if bits.getD i 0 = 1 then w.getD (i + j * 128) 0 ^^^ gama.getD (i + j * 128) 0 else w.getD (i + j * 128) 0

/-- basevole.hpp:273-347 `baseVOLE_tB`: B gets `v`. -/
def baseB (e : OTE.Env G) (c : RCoins) (delta : Block) (t : Nat) : Proc (List Block) :=
  (otReceive e c (selectBits t delta) (t * 128)).bind fun k =>
  match prf k (t * 128) with
  | none => .fail
  | some w => recvBlocks e.net (t * 128) fun gama =>
    Proc.ofOption ((List.range t).mapM fun j => GF.gadget (vRow (deltaBits delta) w gama j))

/-- basevole.hpp:48-114 `baseVOLE_A`: one value, over Naor-Pinkas transfer; `given` is what `ptr_u` points to (`none`: the null pointer, `u` is
drawn from the seed of the keys). The result is `[u, w]`. `d`, `r` are the scalars of the transfer. -/
def base1A (e : OTE.Env G) (d : ℤ) (r : Nat → ℤ) (salt : Block) (given : Option Block) : Proc (Block × Block) :=
  match drawA salt 1 with
  | none => .fail
  | some (k0, k1, us) => (NPOT.send e.net e.kdf e.g d r k0 k1 128).bind fun _ =>
    let u := match given with | none => us.getD 0 0 | some u => u
    match prf k0 128, prf k1 128 with
    | some w0, some w1 => sendBlocks e.net (gammas 1 w0 w1 [u]) <| Proc.ofOption ((GF.gadget w0).map fun w => (u, w))
    | _, _ => .fail

/-- basevole.hpp:118-128: what `ptr_delta` points to; with the null pointer `delta` is drawn from a fresh seed. -/
def delta1 (salt : Block) (given : Option Block) : Option Block :=
  match given with
  | none => (PRG.genRandomBlocks OTE.uninit (PRG.setSeed salt 0) 1).bind fun p => p.1[0]?
  | some delta => some delta

/-- basevole.hpp:117-199 `baseVOLE_B`. The result is `[delta, v]`. -/
def base1B (e : OTE.Env G) (sk : Nat → ℤ) (salt : Block) (given : Option Block) : Proc (Block × Block) :=
  match delta1 salt given with
  | none => .fail
  | some delta => (NPOT.receive e.net e.kdf e.g sk (deltaBits delta) 128).bind fun k =>
    match prf k 128 with
    | none => .fail
    | some w => recvBlocks e.net 128 fun gama => Proc.ofOption ((GF.gadget (vRow (deltaBits delta) w gama 0)).map fun v => (delta, v))

/-! ### vole.hpp -/

/-- vole.hpp:103-111, 192-211: lengths of the subvectors and depths of the trees. -/
structure Sizes where
  sub : Nat
  last : Nat
  level : Nat
  levelLast : Nat

/-- vole.hpp:103-108, 192-193: division by `t`; the logarithm of zero cannot be converted to an integer. -/
def sizes (N t : Nat) : Option Sizes :=
  if t = 0 ∨ 2 * N / t = 0 then none else
  some ⟨2 * N / t, 2 * N % t + 2 * N / t, Nat.clog 2 (2 * N / t), Nat.clog 2 (2 * N % t + 2 * N / t)⟩

/-- vole.hpp:111, 211: `selection_len`. -/
def Sizes.sel (s : Sizes) (t : Nat) : Nat := s.level * (t - 1) + s.levelLast

/-- vole.hpp:121, 128-129: depth of tree `i`. -/
def Sizes.depth (s : Sizes) (t i : Nat) : Nat := if i = t - 1 then s.levelLast else s.level

/-- vole.hpp:122, 130: number of leaves used of tree `i`. -/
def Sizes.len (s : Sizes) (t i : Nat) : Nat := if i = t - 1 then s.last else s.sub

/-- vole.hpp:142-147, 234-243: rounding up to a multiple of 128. -/
def roundUp (n : Nat) : Nat := if n % 128 ≠ 0 then n + (128 - n % 128) else n

/-- `vector::resize`. -/
def resize (n : Nat) (l : List Block) : List Block := l.take n ++ List.replicate (n - l.length) 0

/-- vole.hpp:114-115, 163: B's blocks: the roots and the key of the code. -/
def drawB (salt : Block) (t : Nat) : Option (List Block × Block) := do
  let (roots, s) ← PRG.genRandomBlocks OTE.uninit (PRG.setSeed salt 0) t
  let (key, _) ← PRG.genRandomBlocks OTE.uninit s 1
  return (roots, key.getD 0 0)

/-- vole.hpp:126-136: one round of the loop over the trees; `vec_sendtoR[i]` includes `vec_v[i]`. -/
def treeB (s : Sizes) (t : Nat) (roots v : List Block) (i : Nat) : Option Full :=
  (roots[i]?).bind fun k => (v[i]?).bind fun vi =>
  (fullEval (s.depth t i) k).map fun f => ⟨f.sum ^^^ vi, resize (s.len t i) f.leaf, f.m0, f.m1⟩

/-- vole.hpp:99-182 `tmpVOLE_B`. -/
def tmpB (e : OTE.Env G) (c : SCoins) (salt : Block) (N t : Nat) (v : List Block) : Proc (List Block) :=
  match sizes N t, drawB salt t with
  | some s, some (roots, key) =>
    match (List.range t).mapM (treeB s t roots v) with
    | none => .fail
    | some fs => sendBlocks e.net (fs.map (·.sum)) <|
      (otSend e c (fs.map (·.m0)).flatten (fs.map (·.m1)).flatten (roundUp (s.sel t))).bind fun _ =>
      sendBlocks e.net [key] <| Proc.ofOption (dualEncode (codeSeed key) (fs.map (·.leaf)).flatten)
  | _, _ => .fail

/-- vole.hpp:194-196: the positions, from two fresh seeds. -/
def drawIndex (s : Sizes) (t : Nat) (salt salt' : Block) : Option (List Nat) := do
  let v ← genRandomMod s.sub (t - 1) (PRG.setSeed salt 0)
  let l ← genRandomMod s.last 1 (PRG.setSeed salt' 0)
  let x ← l[0]?
  return v ++ [x]

/-- vole.hpp:201-203: the unit vectors, written into one vector of zeros. -/
def placeOne (s : Sizes) (idx : List Nat) (u : List Block) (a : List Block) (i : Nat) : Option (List Block) :=
  (idx[i]?).bind fun x => (u[i]?).bind fun ui => if i * s.sub + x < a.length then some (a.set (i * s.sub + x) ui) else none

/-- vole.hpp:199-203 `base_field_A`. -/
def baseField (s : Sizes) (N t : Nat) (idx : List Nat) (u : List Block) : Option (List Block) :=
  (List.range t).foldlM (placeOne s idx u) (List.replicate (2 * N) 0)

/-- vole.hpp:206-215: `vec_select_bit`; the last position first, the others in front of it, backwards. -/
def selectA (s : Sizes) (t : Nat) (idx : List Nat) : Option Bytes :=
  (idx[t - 1]?).map fun x => ((idx.take (t - 1)).reverse).foldl (fun v y => transToBitVec y s.level v) (transToBitVec x s.levelLast [])

/-- vole.hpp:248-267: one round of the loop over the trees. -/
def treeA (s : Sizes) (t : Nat) (fromS w m : List Block) (sel : Bytes) (i : Nat) : Option (List Block) :=
  (fromS[i]?).bind fun x => (w[i]?).bind fun wi =>
  (puncEval (s.depth t i) (x ^^^ wi) (m.drop (i * s.level)) (sel.drop (i * s.level))).map (resize (s.len t i))

/-- vole.hpp:185-301 `tmpVOLE_A`: the result is `vec_A`, `vec_C`. -/
def tmpA (e : OTE.Env G) (c : RCoins) (salt salt' : Block) (N t : Nat) (u w : List Block) : Proc (List Block × List Block) :=
  match sizes N t with
  | none => .fail
  | some s =>
    match drawIndex s t salt salt' with
    | none => .fail
    | some idx =>
      match baseField s N t idx u, selectA s t idx with
      | some a, some sel =>
        recvBlocks e.net t fun fromS =>
        (otReceive e c sel (roundUp (s.sel t))).bind fun m =>
        match (List.range t).mapM (treeA s t fromS w (m.take (s.sel t)) sel) with
        | none => .fail
        | some leaves => recvBlocks e.net 1 fun key =>
          Proc.ofOption ((dualEncode2 (codeSeed (key.getD 0 0)) leaves.flatten a).map fun r => (r.2, r.1))
      | _, _ => .fail

/-- What A draws in a whole run. -/
structure ACoins where
  ot : SCoins
  base : Block
  ot2 : RCoins
  idx : Block
  idxLast : Block

/-- What B draws in a whole run. -/
structure BCoins where
  ot : RCoins
  ot2 : SCoins
  tree : Block

/-- vole.hpp:59-78 `VOLE_A`. -/
def voleA (e : OTE.Env G) (c : ACoins) (N t : Nat) : Proc (List Block × List Block) :=
  if N < 256 then baseA e c.ot c.base N else
  (baseA e c.ot c.base t).bind fun uw => tmpA e c.ot2 c.idx c.idxLast N t uw.1 uw.2

/-- vole.hpp:81-93 `VOLE_B`. -/
def voleB (e : OTE.Env G) (c : BCoins) (N t : Nat) (delta : Block) : Proc (List Block) :=
  if N < 256 then baseB e c.ot delta N else
  (baseB e c.ot delta t).bind fun v => tmpB e c.ot2 c.tree N t v

end Kunlun.VOLE
