import Verif.Model.Sigma
import Verif.Model.WordTricks
/-!
Model of `zkp/bulletproofs/innerproduct_proof.hpp`.

`std::move(first, last, dest)` copies here: `ECPoint` and `BigInt` declare a copy assignment and no move assignment.
`log2` of a power of two and `pow(2, m)` are exact; vector lengths are below 2^31 (loop counters are `int`, and
`GetTheNthBitofInt` shifts an `int`). Loops marked `omp parallel for` have independent iterations.
-/

namespace Kunlun

/-- `std::copy` / `std::move` of `xs` to `arr.begin() + off`; writing past the end is undefined (`none`). -/
def blit {α : Type} (arr xs : List α) (off : Nat) : Option (List α) :=
  if arr.length < off + xs.length then none else some (arr.take off ++ xs ++ arr.drop (off + xs.length))

/-- `std::vector::resize`. -/
def resize {α : Type} (arr : List α) (n : Nat) (d : α) : List α := arr.take n ++ List.replicate (n - arr.length) d

/-- routines.hpp:40-43 `IsPowerOfTwo` on a `size_t` (see `Verif.Model.WordTricks`). -/
def powerOfTwo (n : Nat) : Bool := Word.isPowerOfTwo (BitVec.ofNat 64 n)

/-- ec_point.hpp:387-401 `ECPointVectorAdd`; `none` is the `exit` on different sizes. -/
def ecVecAdd {G : Type} [AddCommGroup G] (A B : List G) : Option (List G) :=
  if A.length ≠ B.length then none else some (List.zipWith (· + ·) A B)

/-- ec_point.hpp:405-415 `ECPointVectorScalar`. -/
def ecVecScalar {G : Type} [AddCommGroup G] (A : List G) (x : ℤ) : List G := A.map fun P => x • P

/-- ec_point.hpp:420-435 `ECPointVectorProduct`; `none` is the `exit` on different sizes. -/
def ecVecProduct {G : Type} [AddCommGroup G] (A : List G) (a : List ℤ) : Option (List G) :=
  if A.length ≠ a.length then none else some (List.zipWith (fun P x => x • P) A a)

namespace InnerProduct

variable {G : Type} [AddCommGroup G] [DecidableEq G]

/-- innerproduct_proof.hpp:13-24 `PP`. -/
structure PP (G : Type) where
  len : Nat
  logLen : Nat
  vecG : List G
  vecH : List G
  u : G

/-- innerproduct_proof.hpp:39-46 `Proof`. -/
structure Proof (G : Type) where
  vecL : List G
  vecR : List G
  a : ℤ
  b : ℤ
deriving DecidableEq

/-- innerproduct_proof.hpp:64-76 `ProofToByteString`. -/
def proofToByteString (cv : Curve G) (pf : Proof G) : Bytes :=
  (pf.vecL.map cv.toBytes).flatten ++ (pf.vecR.map cv.toBytes).flatten ++ (BigInt.toByteString pf.a ++ BigInt.toByteString pf.b)

/-- innerproduct_proof.hpp:109-114 `GetTheNthBitofInt`: the `j`-th bit of `i` counted from the most significant of `len`. -/
def nthBit (i j len : Nat) : Bool := i.testBit (len - j - 1)

/-- innerproduct_proof.hpp:143-165 `ComputeVectorSS` for a vector of size `n`. -/
def computeSS (q : ℕ) (n : Nat) (xs xis : List ℤ) : List ℤ :=
  (List.range n).map fun i => (List.range xs.length).foldl (fun s j =>
    if nthBit i j xs.length then BigInt.mod (s * (xs[j]?).getD 0) q else BigInt.mod (s * (xis[j]?).getD 0) q) 1

/-- innerproduct_proof.hpp:169-187 `Setup`: `none` is the `exit` for a length that is no power of two. With `INITIAL_FLAG` unset
the vectors are left empty and filled by the caller. -/
def setup (len : Nat) (vecG vecH : List G) (u : G) : Option (PP G) :=
  if powerOfTwo len = false then none else some ⟨len, len.log2, vecG, vecH, u⟩

/-- innerproduct_proof.hpp:193-328 `Prove`, the recursion over `log2 VECTOR_LEN`. `pp.u` never changes. The instance point is only
handed down and not used, so it is left out. Returned: `vec_L`, `vec_R`, the final scalars and the transcript. -/
def proveLoop (cv : Curve G) (H : Bytes → ℤ) (u : G) : Nat → List G → List G → List ℤ → List ℤ → Bytes →
    Option (Proof G × Bytes)
  | 0, _, _, a, b, tr => do
    let a0 ← a[0]?
    let b0 ← b[0]?
    return (⟨[], [], a0, b0⟩, tr)
  | k + 1, g, h, a, b, tr => do
    let n := 2 ^ k
    let aL := a.take n
    let aR := a.drop n
    let bL := b.take n
    let bR := b.drop n
    let gL := g.take n
    let gR := g.drop n
    let hL := h.take n
    let hR := h.drop n
    let cL ← BigInt.vecModInnerProduct aL bR cv.order
    let cR ← BigInt.vecModInnerProduct aR bL cv.order
    let L ← vecMul (gR ++ hL ++ [u]) (aL ++ bR ++ [cL])
    let R ← vecMul (gL ++ hR ++ [u]) (aR ++ bL ++ [cR])
    let tr := tr ++ (cv.toBytes L ++ cv.toBytes R)
    let x := H tr
    let xi := BigInt.modInverse x cv.order
    let g' ← ecVecAdd (ecVecScalar gL xi) (ecVecScalar gR x)
    let h' ← ecVecAdd (ecVecScalar hL x) (ecVecScalar hR xi)
    let a' ← BigInt.vecModAdd (BigInt.vecModScalar aL x cv.order) (BigInt.vecModScalar aR xi cv.order) cv.order
    let b' ← BigInt.vecModAdd (BigInt.vecModScalar bL xi cv.order) (BigInt.vecModScalar bR x cv.order) cv.order
    let (pf, tr) ← proveLoop cv H u k g' h' a' b' tr
    return (⟨L :: pf.vecL, R :: pf.vecR, pf.a, pf.b⟩, tr)

/-- innerproduct_proof.hpp:193-328 `Prove`. `none`: the two `exit`s, or vectors that do not have `VECTOR_LEN` entries. The proof
object is assumed empty on entry (rounds are appended to it). -/
def prove (cv : Curve G) (H : Bytes → ℤ) (pp : PP G) (a b : List ℤ) (tr : Bytes) : Option (Proof G × Bytes) :=
  if pp.vecG.length ≠ pp.vecH.length ∨ powerOfTwo pp.len = false ∨ pp.vecG.length ≠ pp.len ∨ a.length ≠ pp.len ∨ b.length ≠ pp.len
  then none
  else proveLoop cv H pp.u pp.len.log2 pp.vecG pp.vecH a b tr

/-- innerproduct_proof.hpp:348-356 / 472-481: the challenges of all rounds; too few `L` or `R` is an out-of-bounds read. -/
def challenges (cv : Curve G) (H : Bytes → ℤ) : Nat → List G → List G → Bytes → Option (List ℤ × Bytes)
  | 0, _, _, tr => some ([], tr)
  | n + 1, L :: Ls, R :: Rs, tr =>
    let tr := tr ++ (cv.toBytes L ++ cv.toBytes R)
    (challenges cv H n Ls Rs tr).map fun p => (H tr :: p.1, p.2)
  | _ + 1, _, _, _ => none

/-- innerproduct_proof.hpp:331-411 `Verify`. -/
def verify (cv : Curve G) (H : Bytes → ℤ) (pp : PP G) (P : G) (tr : Bytes) (pf : Proof G) : Option (Bool × Bytes) := do
  if powerOfTwo pp.len = false then none
  let (xs, tr) ← challenges cv H pp.logLen pf.vecL pf.vecR tr
  let xsq := xs.map fun x => BigInt.modSquare x cv.order
  let xis := xs.map fun x => BigInt.modInverse x cv.order
  let xisq := xis.map fun x => BigInt.modSquare x cv.order
  let s := computeSS cv.order pp.len xs xis
  let si := BigInt.vecModInverse s cv.order
  let s := BigInt.vecScalar s pf.a
  let si := BigInt.vecScalar si pf.b
  let A := List.replicate (2 * pp.len + 1) (0 : G)
  let A ← blit A pp.vecG 0
  let A ← blit A pp.vecH pp.len
  let A := A.set (2 * pp.len) pp.u
  let a := List.replicate (2 * pp.len + 1) (0 : ℤ)
  let a ← blit a s 0
  let a ← blit a si pp.len
  let a := a.set (2 * pp.len) (pf.a * pf.b)
  let left ← vecMul A a
  let A := resize A (2 * pp.logLen + 1) 0
  let A ← blit A pf.vecL 0
  let A ← blit A pf.vecR pp.logLen
  let a := resize a (2 * pp.logLen + 1) 0
  let a ← blit a xsq 0
  let a ← blit a xisq pp.logLen
  let A := A.set (2 * pp.logLen) P
  let a := a.set (2 * pp.logLen) 1
  let right ← vecMul A a
  return (decide (left = right), tr)

/-- innerproduct_proof.hpp:443-447: the iteration; entry `i` is computed from an earlier one. -/
def fastLoop (q : ℕ) (m : Nat) (xsq : List ℤ) (s0 : ℤ) : Nat → List ℤ
  | 0 => [s0]
  | i + 1 =>
    let s := fastLoop q m xsq s0 i
    let k := (i + 1).log2
    s ++ [BigInt.mod ((s[i + 1 - 2 ^ k]?).getD 0 * (xsq[m - 1 - k]?).getD 0) q]

/-- innerproduct_proof.hpp:416-451 `FastComputeVectorSS`. -/
def fastSS (q : ℕ) (xsq xis : List ℤ) : List ℤ :=
  fastLoop q xis.length xsq (BigInt.mod (xis.foldl (· * ·) 1) q) (2 ^ xis.length - 1)

/-- innerproduct_proof.hpp:455-528 `FastVerify`. -/
def fastVerify (cv : Curve G) (H : Bytes → ℤ) (pp : PP G) (P : G) (tr : Bytes) (pf : Proof G) : Option (Bool × Bytes) := do
  if powerOfTwo pp.len = false then none
  let (xs, tr) ← challenges cv H pp.logLen pf.vecL pf.vecR tr
  let xsq := xs.map fun x => BigInt.modSquare x cv.order
  let xis := xs.map fun x => BigInt.modInverse x cv.order
  let xisq := xis.map fun x => BigInt.modSquare x cv.order
  let s := fastSS cv.order xsq xis
  let si := BigInt.vecModInverse s cv.order
  let s := BigInt.vecScalar s pf.a
  let si := BigInt.vecScalar si pf.b
  let A := List.replicate (2 * pp.len + 2 * pp.logLen + 1) (0 : G)
  let A ← blit A pp.vecG 0
  let A ← blit A pp.vecH pp.len
  let A ← blit A pf.vecL (2 * pp.len)
  let A ← blit A pf.vecR (2 * pp.len + pp.logLen)
  let A := A.set (2 * pp.len + 2 * pp.logLen) pp.u
  let a := List.replicate (2 * pp.len + 2 * pp.logLen + 1) (0 : ℤ)
  let a ← blit a s 0
  let a ← blit a si pp.len
  let a ← blit a xsq (2 * pp.len)
  let a ← blit a xisq (2 * pp.len + pp.logLen)
  let a := a.set (2 * pp.len + 2 * pp.logLen) (pf.a * pf.b)
  let a := a.mapIdx fun i v => if 2 * pp.len ≤ i ∧ i < 2 * pp.len + 2 * pp.logLen then -v else v
  let left ← vecMul A a
  return (decide (left = P), tr)

end InnerProduct

end Kunlun
