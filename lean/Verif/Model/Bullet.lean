import Verif.Model.InnerProduct
/-!
Model of `zkp/bulletproofs/bullet_proof.hpp` (aggregated range proofs) for `g^r h^v` commitments.

As in `Verif.Model.Sigma` the hash is a parameter, the drawn scalars are parameters and `transcript_str` is returned. Vectors whose
entries are written once at consecutive positions are built by concatenation. Lengths are below 2^31 (`int` loop counters).
-/

namespace Kunlun.Bullet

variable {G : Type} [AddCommGroup G] [DecidableEq G]

/-- bullet_proof.hpp:18-28 `PP`. -/
structure PP (G : Type) where
  rangeLen : Nat
  maxAgg : Nat
  g : G
  h : G
  u : G
  vecG : List G
  vecH : List G

/-- bullet_proof.hpp:61-66 `Proof`. -/
structure Proof (G : Type) where
  A : G
  S : G
  T1 : G
  T2 : G
  taux : ℤ
  mu : ℤ
  tx : ℤ
  ip : InnerProduct.Proof G
deriving DecidableEq

/-- The scalars `Prove` draws: `alpha`, `vec_sL`, `vec_sR`, `rho`, `tau1`, `tau2`. -/
structure Coins where
  alpha : ℤ
  sL : List ℤ
  sR : List ℤ
  rho : ℤ
  tau1 : ℤ
  tau2 : ℤ

/-- bullet_proof.hpp:86-95: entry `i` of `GenBigIntPowerVector`. -/
def powEntry (q : ℕ) (a : ℤ) : Nat → ℤ
  | 0 => 1
  | i + 1 => BigInt.mod (powEntry q a i * a) q

/-- bullet_proof.hpp:86-95 `GenBigIntPowerVector`; entry 0 is written unconditionally, so length 0 is undefined (`none`). -/
def powerVec (q : ℕ) (len : Nat) (a : ℤ) : Option (List ℤ) :=
  if len = 0 then none else some ((List.range len).map (powEntry q a))

/-- bullet_proof.hpp:112-119 `ProofToByteString`. -/
def proofToByteString (cv : Curve G) (pf : Proof G) : Bytes :=
  cv.toBytes pf.A ++ cv.toBytes pf.S ++ cv.toBytes pf.T1 ++ cv.toBytes pf.T2 ++
    (BigInt.toByteString pf.taux ++ BigInt.toByteString pf.mu ++ BigInt.toByteString pf.tx) ++
    InnerProduct.proofToByteString cv pf.ip

/-- bullet_proof.hpp:121-136 `Setup` with the drawn points and `h = Hash::StringToECPoint(g)`. -/
def setup (cv : Curve G) (rangeLen maxAgg : Nat) (h u : G) (vecG vecH : List G) : PP G :=
  ⟨rangeLen, maxAgg, cv.gen, h, u, vecG, vecH⟩

/-- bullet_proof.hpp:210-215 / 367-372 / 528-531: `vec_adjust_z_power[j]`. -/
def adjustZ (q : ℕ) (z : ℤ) : Nat → ℤ
  | 0 => z
  | j + 1 => BigInt.mod (z * adjustZ q z j) q

/-- bullet_proof.hpp:151-162: `vec_aL`; position `i * RANGE_LEN + j` holds bit `j` of value `i`. -/
def bits (R n : Nat) (v : List ℤ) : List ℤ :=
  (List.range (R * n)).map fun k => if BigInt.nthBit ((v[k / R]?).getD 0) (k % R) = 1 then 1 else 0

/-- bullet_proof.hpp:236-241: `vec_zz_temp` of round `j`: the powers of two in block `j`, zero elsewhere. -/
def blockPowers (R n j : Nat) (pow2 : List ℤ) : List ℤ :=
  (List.range (R * n)).map fun k => if (j - 1) * R ≤ k ∧ k < j * R then (pow2[k - (j - 1) * R]?).getD 0 else 0

/-- bullet_proof.hpp:234-245: the loop adding `z^{j+1} 2^i` to the blocks of `poly_rr0`, rounds `1 … m`. -/
def rrLoop (q : ℕ) (R n : Nat) (z : ℤ) (pow2 : List ℤ) (rr0 : List ℤ) : Nat → Option (List ℤ)
  | 0 => some rr0
  | j + 1 => do
    let rr ← rrLoop q R n z pow2 rr0 j
    BigInt.vecModAdd rr (BigInt.vecModScalar (blockPowers R n (j + 1) pow2) (adjustZ q z (j + 1)) q) q

/-- bullet_proof.hpp:286-289: adding `z^{j+1} r_j` to `taux`, rounds `1 … m`. -/
def tauLoop (q : ℕ) (z : ℤ) (r : List ℤ) (t : ℤ) : Nat → ℤ
  | 0 => t
  | j + 1 => BigInt.mod (tauLoop q z r t j + adjustZ q z (j + 1) * (r[j]?).getD 0) q

/-- bullet_proof.hpp:146-194, first part of `Prove`: `vec_aL`, `vec_aR`, `A` and `S`. Too few generators or witness values is an
out-of-bounds read (`none`). -/
def proveCommit (q : ℕ) (pp : PP G) (n : Nat) (r v : List ℤ) (c : Coins) : Option (List ℤ × List ℤ × G × G) := do
  let len := pp.rangeLen * n
  if v.length < n ∨ r.length < n ∨ pp.vecG.length < len ∨ pp.vecH.length < len ∨ c.sL.length ≠ len ∨ c.sR.length ≠ len then none
  let aL := bits pp.rangeLen n v
  let aR ← BigInt.vecModSub aL (List.replicate len 1) q
  let vecA := pp.vecG.take len ++ pp.vecH.take len ++ [pp.h]
  let A ← vecMul vecA (aL ++ aR ++ [c.alpha])
  let S ← vecMul vecA (c.sL ++ c.sR ++ [c.rho])
  return (aL, aR, A, S)

/-- bullet_proof.hpp:217-246, second part of `Prove`: `poly_ll0`, `poly_rr0`, `poly_rr1` (`poly_ll1` is `vec_sL`). -/
def provePolys (q : ℕ) (R n : Nat) (aL aR sR : List ℤ) (y z : ℤ) : Option (List ℤ × List ℤ × List ℤ) := do
  let zs := List.replicate (R * n) z
  let ll0 ← BigInt.vecModSub aL zs q
  let yPow ← powerVec q (R * n) y
  let zz ← BigInt.vecModAdd zs aR q
  let rr0 ← BigInt.vecModProduct yPow zz q
  let pow2 ← powerVec q R 2
  let rr0 ← rrLoop q R n z pow2 rr0 n
  let rr1 ← BigInt.vecModProduct yPow sR q
  return (ll0, rr0, rr1)

/-- bullet_proof.hpp:249-267, third part of `Prove`: the commitments `T1`, `T2` to the coefficients of `t(X)`. -/
def proveT (q : ℕ) (pp : PP G) (c : Coins) (ll0 rr0 rr1 : List ℤ) : Option (G × G) := do
  let s1 ← BigInt.vecModInnerProduct c.sL rr0 q
  let s2 ← BigInt.vecModInnerProduct ll0 rr1 q
  let t1 := BigInt.mod (s1 + s2) q
  let t2 ← BigInt.vecModInnerProduct c.sL rr1 q
  let T1 ← vecMul [pp.g, pp.h] [c.tau1, t1]
  let T2 ← vecMul [pp.g, pp.h] [c.tau2, t2]
  return (T1, T2)

/-- bullet_proof.hpp:276-282, fourth part of `Prove`: `llx`, `rrx`, `tx`. -/
def proveEval (q : ℕ) (ll0 sL rr0 rr1 : List ℤ) (x : ℤ) : Option (List ℤ × List ℤ × ℤ) := do
  let llx ← BigInt.vecModAdd ll0 (BigInt.vecModScalar sL x q) q
  let rrx ← BigInt.vecModAdd rr0 (BigInt.vecModScalar rr1 x q) q
  let tx ← BigInt.vecModInnerProduct llx rrx q
  return (llx, rrx, tx)

/-- bullet_proof.hpp:139-331 `Prove`; of the instance only its size `n` is used. `none`: a length that is no power of two (`exit`
in `InnerProduct::Setup`), too few generators or witness values, or no value at all. The point `ip_instance.P` computed in lines
311-324 is not used by `InnerProduct::Prove` and left out. -/
def prove (cv : Curve G) (H : Bytes → ℤ) (pp : PP G) (n : Nat) (r v : List ℤ) (c : Coins) (tr : Bytes) :
    Option (Proof G × Bytes) := do
  let len := pp.rangeLen * n
  let (aL, aR, A, S) ← proveCommit cv.order pp n r v c
  let tr := tr ++ cv.toBytes A
  let y := H tr
  let yInv ← powerVec cv.order len (BigInt.modInverse y cv.order)
  let tr := tr ++ cv.toBytes S
  let z := H tr
  let (ll0, rr0, rr1) ← provePolys cv.order pp.rangeLen n aL aR c.sR y z
  let (T1, T2) ← proveT cv.order pp c ll0 rr0 rr1
  let tr := tr ++ (cv.toBytes T1 ++ cv.toBytes T2)
  let x := H tr
  let xsq := BigInt.modSquare x cv.order
  let (llx, rrx, tx) ← proveEval cv.order ll0 c.sL rr0 rr1 x
  let taux := tauLoop cv.order z r (BigInt.mod (c.tau1 * x + c.tau2 * xsq) cv.order) n
  let mu := BigInt.mod (c.alpha + c.rho * x) cv.order
  let hNew ← ecVecProduct (pp.vecH.take len) yInv
  let tr := tr ++ BigInt.toByteString x
  let e := H tr
  let ipp ← InnerProduct.setup len (pp.vecG.take len) hNew (e • pp.u)
  let (ip, tr) ← InnerProduct.prove cv H ipp llx rrx tr
  return (⟨A, S, T1, T2, taux, mu, tx, ip⟩, tr)

/-- bullet_proof.hpp:374-380 / 534-538: `sum_z`. -/
def sumZ (q : ℕ) (z : ℤ) (n : Nat) : ℤ :=
  BigInt.mod ((List.range n).foldl (fun s j => s + adjustZ q z (j + 1)) 0 * z) q

/-- bullet_proof.hpp:383-390 / 541-548: `delta_yz`. -/
def deltaYZ (q : ℕ) (R n : Nat) (z : ℤ) (yPow pow2 : List ℤ) : Option ℤ := do
  let s1 ← BigInt.vecModInnerProduct (List.replicate (R * n) 1) yPow q
  let s2 ← BigInt.vecModInnerProduct (List.replicate R 1) pow2 q
  let c0 := BigInt.modSub z (BigInt.modSquare z q) q
  return BigInt.modSub (c0 * s1) (sumZ q z n * s2) q

/-- bullet_proof.hpp:450-459 / 625-631: `vec_rr`, rounds `1 … m`. -/
def vecRR (q : ℕ) (R : Nat) (z : ℤ) (pow2 : List ℤ) (rr : List ℤ) : Nat → List ℤ
  | 0 => rr
  | j + 1 => (vecRR q R z pow2 rr j).mapIdx fun k v =>
      if j * R ≤ k ∧ k < (j + 1) * R then
        BigInt.mod (v + ((BigInt.vecModScalar pow2 (adjustZ q z (j + 1)) q)[k - j * R]?).getD 0) q
      else v

/-- The vector `vec_adjust_z_power[1 … n]`. -/
def zPowers (q : ℕ) (z : ℤ) (n : Nat) : List ℤ := (List.range n).map fun j => adjustZ q z (j + 1)

/-- bullet_proof.hpp:333-486 `Verify`. -/
def verify (cv : Curve G) (H : Bytes → ℤ) (pp : PP G) (C : List G) (tr : Bytes) (pf : Proof G) : Option (Bool × Bytes) := do
  let q := cv.order
  let tr := tr ++ cv.toBytes pf.A
  let y := H tr
  let tr := tr ++ cv.toBytes pf.S
  let z := H tr
  let tr := tr ++ (cv.toBytes pf.T1 ++ cv.toBytes pf.T2)
  let x := H tr
  let xsq := BigInt.modSquare x q
  let tr := tr ++ BigInt.toByteString x
  let e := H tr
  let R := pp.rangeLen
  let n := C.length
  let len := R * n
  let pow2long ← powerVec q len 2
  let pow2 ← powerVec q R 2
  let yPow ← powerVec q len y
  let delta ← deltaYZ q R n z yPow pow2
  let left := pf.taux • pp.g + pf.tx • pp.h
  let right ← vecMul (C ++ [pp.h, pf.T1, pf.T2]) (zPowers q z n ++ [delta, x, xsq])
  let v1 := decide (left = right)
  if pp.vecG.length < len ∨ pp.vecH.length < len then none
  let yInv ← powerVec q len (BigInt.modInverse y q)
  let hNew ← ecVecProduct (pp.vecH.take len) yInv
  let ipp ← InnerProduct.setup len (pp.vecG.take len) hNew (e • pp.u)
  let rr := vecRR q R z pow2long (BigInt.vecModScalar yPow z q) n
  let P ← vecMul (ipp.vecG ++ ipp.vecH ++ [pf.A, pf.S, pp.h, ipp.u])
    (List.replicate len (BigInt.modNegate z q) ++ rr ++ [1, x, -pf.mu, pf.tx])
  let (v2, tr) ← InnerProduct.fastVerify cv H ipp P tr pf.ip
  return (v1 && v2, tr)

/-- bullet_proof.hpp:489-680 `FastVerify` with drawn `c`. The points and scalars are written block by block; `vec_L` and `vec_R` go to
the last `2 LOG_VECTOR_LEN` places. -/
def fastVerify (cv : Curve G) (H : Bytes → ℤ) (pp : PP G) (C : List G) (c : ℤ) (tr : Bytes) (pf : Proof G) :
    Option (Bool × Bytes) := do
  let q := cv.order
  let tr := tr ++ cv.toBytes pf.A
  let y := H tr
  let tr := tr ++ cv.toBytes pf.S
  let z := H tr
  let tr := tr ++ (cv.toBytes pf.T1 ++ cv.toBytes pf.T2)
  let x := H tr
  let xsq := BigInt.modSquare x q
  let tr := tr ++ BigInt.toByteString x
  let e := H tr
  let R := pp.rangeLen
  let n := C.length
  let len := R * n
  if powerOfTwo len = false then none
  let logLen := len.log2
  let pow2long ← powerVec q len 2
  let pow2 ← powerVec q R 2
  let yPow ← powerVec q len y
  let delta ← deltaYZ q R n z yPow pow2
  let a1 := (zPowers q z n ++ [x, xsq, -pf.taux, delta - pf.tx]).map (· * c)
  if pp.vecG.length < len ∨ pp.vecH.length < len then none
  let yInv ← powerVec q len (BigInt.modInverse y q)
  let hNew ← ecVecProduct (pp.vecH.take len) yInv
  let (xs, tr) ← InnerProduct.challenges cv H logLen pf.ip.vecL pf.ip.vecR tr
  let vsq := xs.map fun x => BigInt.modSquare x q
  let vi := xs.map fun x => BigInt.modInverse x q
  let visq := vi.map fun x => BigInt.modSquare x q
  let s := InnerProduct.fastSS q vsq vi
  let si := BigInt.vecModInverse s q
  let s := BigInt.vecScalar s pf.ip.a
  let si := BigInt.vecScalar si pf.ip.b
  let a2 := List.zipWith (· + ·) s (List.replicate len z)
  let rr := vecRR q R z pow2long (BigInt.vecModScalar yPow z q) n
  let a3 := List.zipWith (· - ·) si rr
  let LR ← blit (List.replicate (2 * logLen) (0 : G)) pf.ip.vecL 0
  let LR ← blit LR pf.ip.vecR logLen
  let res ← vecMul
    (C ++ [pf.T1, pf.T2, pp.g, pp.h] ++ pp.vecG.take len ++ hNew ++ [pf.A, pf.S, pp.h, e • pp.u] ++ LR)
    (a1 ++ a2 ++ a3 ++ [-1, -x, pf.mu, pf.ip.a * pf.ip.b - pf.tx] ++ vsq.map (fun v => -v) ++ visq.map (fun v => -v))
  return (decide (res = 0), tr)

end Kunlun.Bullet
