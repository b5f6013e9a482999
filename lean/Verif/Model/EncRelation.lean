import Verif.Model.Sigma
import Verif.Model.Poly
/-!
Model of `zkp/nizk/nizk_enc_relation.hpp`: the one-out-of-many proof that one of `N = n^m` twisted ElGamal ciphertexts encrypts
zero (the point at infinity).

`flog N n` stands for the floating-point expression `log(N)/log(n)` truncated to `size_t`; it is a parameter because the C library's
rounding is not modelled (for `n = 2` it is exact on powers of two below 2^40, for `n = 3`, `N = 243` it is not).
`pp.m` is overwritten at the start of both algorithms, so it is a local here.
-/

namespace Kunlun.EncRelation

open Kunlun

variable {G : Type} [AddCommGroup G] [DecidableEq G]

/-- nizk_enc_relation.hpp:21-26 `PP` (without the default `m`). -/
structure PP (G : Type) where
  com : Pedersen.PP G
  enc : Twisted.PP G
  n : Nat

/-- nizk_enc_relation.hpp:29-33 `Instance`. -/
structure Instance (G : Type) where
  cts : List (CT G)
  ek : G

/-- nizk_enc_relation.hpp:44-53 `Proof`. -/
structure Proof (G : Type) where
  B : G
  z : ℤ
  vecG : List (CT G)
  A : G
  C : G
  D : G
  vecF : List ℤ
  zA : ℤ
  zC : ℤ

/-- nizk_enc_relation.hpp:69-77 `Decompose`: the `m` base-`n` digits, least significant first. -/
def decompose (l n : Nat) : Nat → List Nat
  | 0 => []
  | m + 1 => l % n :: decompose (l / n) n m

/-- nizk_enc_relation.hpp:90-91: one column of `vec_delta`. -/
def deltaCol (n s : Nat) : List ℤ := (List.replicate n 0).set s 1

/-- nizk_enc_relation.hpp:103-108: a random column whose first entry is replaced by minus the sum of the others. -/
def aCol : List ℤ → List ℤ
  | [] => []
  | _ :: t => t.foldl (fun acc v => acc + -v) 0 :: t

/-- nizk_enc_relation.hpp:161-169: the linear polynomials `A[j]` for one index. -/
def rowPolys (n : Nat) (a : List ℤ) (star idx : List Nat) : List (List ℤ) :=
  (List.zip star idx).mapIdx fun j si => [(a[j * n + si.2]?).getD 0, if si.1 = si.2 then 1 else 0]

/-- `Σ` over ciphertexts scaled by weights, starting at the (default-constructed) point at infinity: lines 177-180 and 243-253. -/
def combine (cts : List (CT G)) (w : List ℤ) : CT G :=
  (List.zip cts w).foldl (fun acc cw => acc.add (cw.1.scale cw.2)) ⟨0, 0⟩

/-- The random values drawn by `Prove`. -/
structure Rand where
  rB : ℤ
  rA : ℤ
  rC : ℤ
  rD : ℤ
  cols : List (List ℤ)
  rho : List ℤ

/-- nizk_enc_relation.hpp:127-130 / 202-205. -/
def addFirst (cv : Curve G) (tr : Bytes) (B A C D : G) : Bytes :=
  tr ++ cv.toBytes B ++ cv.toBytes A ++ cv.toBytes C ++ cv.toBytes D

/-- nizk_enc_relation.hpp:79-193 `Prove` with witness `(l, r)`. -/
def prove (cv : Curve G) (flog : Nat → Nat → Nat) (pp : PP G) (H : Bytes → ℤ) (x : Instance G) (l : Nat) (r : ℤ) (rnd : Rand)
    (tr : Bytes) : Option (Proof G × Bytes) := do
  let N := x.cts.length
  let n := pp.n
  let m := flog N n
  let star := decompose l n m
  let delta := (star.map (deltaCol n)).flatten
  let B ← Pedersen.commit pp.com delta rnd.rB
  let a := (rnd.cols.map aCol).flatten
  let A ← Pedersen.commit pp.com a rnd.rA
  let c := List.zipWith (fun a d => a * (1 - 2 * d)) a delta
  let C ← Pedersen.commit pp.com c rnd.rC
  let d := a.map fun a => -a * a
  let D ← Pedersen.commit pp.com d rnd.rD
  let tr := addFirst cv tr B A C D
  let e := H tr
  let f := List.zipWith (fun d a => d * e + a) delta a
  let zA := BigInt.mod (rnd.rB * e + rnd.rA) cv.order
  let zC := BigInt.mod (rnd.rC * e + rnd.rD) cv.order
  let P ← (List.range N).mapM fun i => Poly.polyProd cv.order (rowPolys n a star (decompose i n m))
  let vecG := (List.range m).map fun k =>
    (combine x.cts (P.map fun p => (p[k]?).getD 0)).add (Twisted.encPoint pp.enc x.ek 0 ((rnd.rho[k]?).getD 0))
  let z := (List.range m).foldl (fun z k => z - (rnd.rho[k]?).getD 0 * e ^ k) (r * e ^ m)
  return (⟨B, z, vecG, A, C, D, f, zA, zC⟩, tr)

/-- nizk_enc_relation.hpp:212-218: condition 1, an exact integer equation for each column. -/
def cond1 (n : Nat) (e : ℤ) (f : List ℤ) (m : Nat) : Bool :=
  (List.range m).all fun j =>
    decide ((f[j * n]?).getD 0 = (List.range (n - 1)).foldl (fun right i => right + -(f[j * n + (i + 1)]?).getD 0) e)

/-- nizk_enc_relation.hpp:246-250: the product of the responses selected by the digits of `i`. -/
def product (cv : Curve G) (n : Nat) (f : List ℤ) (idx : List Nat) : ℤ :=
  (List.range idx.length).foldl (fun p j => BigInt.mod (p * (f[j * n + (idx[j]?).getD 0]?).getD 0) cv.order) 1

/-- nizk_enc_relation.hpp:197-287 `Verify`. `none`: out-of-bounds access (`exp_x[0]` for `m = 0`, short `vec_f` or `vec_G`, more
responses than commitment generators). -/
def verify (cv : Curve G) (flog : Nat → Nat → Nat) (pp : PP G) (H : Bytes → ℤ) (x : Instance G) (tr : Bytes) (pf : Proof G) :
    Option (Bool × Bytes) := do
  let N := x.cts.length
  let n := pp.n
  let m := flog N n
  let tr := addFirst cv tr pf.B pf.A pf.C pf.D
  let e := H tr
  if m = 0 ∨ pf.vecF.length < m * n ∨ pf.vecG.length < m then none
  else
    let c0 := cond1 n e pf.vecF m
    let R1 ← Pedersen.commit pp.com pf.vecF pf.zA
    let c1 := decide (e • pf.B + pf.A = R1)
    let temp := (pf.vecF.take (m * n)).map fun f => f * (e - f)
    let R2 ← Pedersen.commit pp.com temp pf.zC
    let c2 := decide (e • pf.C + pf.D = R2)
    let right := Twisted.encPoint pp.enc x.ek 0 pf.z
    let left := combine x.cts ((List.range N).map fun i => product cv n pf.vecF (decompose i n m))
    let left := (List.range m).foldl (fun acc k => acc.sub (((pf.vecG[k]?).getD ⟨0, 0⟩).scale (e ^ k))) left
    let c3 := decide (left = right)
    return (c0 && c1 && c2 && c3, tr)

end Kunlun.EncRelation
