import Verif.Model.Pke
/-!
Schnorr signatures, Pedersen commitments and the Σ-protocol based NIZKs of `zkp/nizk/`.

`H : Bytes → ℤ` stands for `Hash::StringToBigInt` (crypto/hash.hpp:91-100): any function (a theorem about every `H` holds for
SHA-256). The random exponents drawn by the prover are parameters. `transcript_str`, passed by reference, is returned.
Debug printing is not modelled.
-/

namespace Kunlun

variable {G : Type} [AddCommGroup G] [DecidableEq G]

/-! ### signature/schnorr.hpp -/

namespace Schnorr

/-- schnorr.hpp:17-21 `SIG`. -/
structure SIG (G : Type) where
  A : G
  z : ℤ
deriving DecidableEq

/-- schnorr.hpp:75-87 `KeyGen`: the public key for the drawn `sk`. -/
def keyGen (cv : Curve G) (sk : ℤ) : G := sk • cv.gen

/-- schnorr.hpp:91-107 `Sign` with drawn nonce `r`. -/
def sign (cv : Curve G) (H : Bytes → ℤ) (sk : ℤ) (msg : Bytes) (r : ℤ) : SIG G :=
  let A := r • cv.gen
  let e := H (cv.toBytes A ++ msg)
  ⟨A, BigInt.mod (r + sk * e) cv.order⟩

/-- schnorr.hpp:111-130 `Verify`. -/
def verify (cv : Curve G) (H : Bytes → ℤ) (pk : G) (msg : Bytes) (sig : SIG G) : Bool :=
  let e := H (cv.toBytes sig.A ++ msg)
  let left := sig.z • cv.gen
  let right := e • pk + sig.A
  decide (left = right)

end Schnorr

/-! ### commitment/pedersen.hpp -/

namespace Pedersen

/-- pedersen.hpp:8-13 `PP`. -/
structure PP (G : Type) where
  g : G
  vecH : List G
  nMax : Nat

/-- pedersen.hpp:16-27 `Setup(N_max)` with the drawn points. -/
def setup (cv : Curve G) (points : List G) (nMax : Nat) : PP G := ⟨cv.gen, points.take nMax, nMax⟩

/-- pedersen.hpp:30-39 `Commit`. The size check only prints; copying the first `LEN` generators of a shorter vector is undefined
(`none`). -/
def commit (pp : PP G) (m : List ℤ) (r : ℤ) : Option G :=
  if pp.vecH.length < m.length then none
  else (vecMul (pp.vecH.take m.length) m).map fun V => r • pp.g + V

end Pedersen

/-! ### zkp/nizk/nizk_dlog_equality.hpp -/

namespace DLOGEquality

/-- nizk_dlog_equality.hpp:21-24 `Instance`. -/
structure Instance (G : Type) where
  g1 : G
  h1 : G
  g2 : G
  h2 : G

/-- nizk_dlog_equality.hpp:32-36 `Proof`. -/
structure Proof (G : Type) where
  A1 : G
  A2 : G
  z : ℤ
deriving DecidableEq

/-- nizk_dlog_equality.hpp:75-79. -/
def proofToByteString (cv : Curve G) (pf : Proof G) : Bytes :=
  cv.toBytes pf.A1 ++ cv.toBytes pf.A2 ++ BigInt.toByteString pf.z

/-- nizk_dlog_equality.hpp:96-97 / 126-127: the transcript after the instance. -/
def initTranscript (cv : Curve G) (x : Instance G) (tr : Bytes) : Bytes :=
  tr ++ (cv.toBytes x.g1 ++ cv.toBytes x.g2 ++ cv.toBytes x.h1 ++ cv.toBytes x.h2)

/-- nizk_dlog_equality.hpp:92-117 `Prove` with witness `w` and drawn `a`. -/
def prove (cv : Curve G) (H : Bytes → ℤ) (x : Instance G) (w a : ℤ) (tr : Bytes) : Proof G × Bytes :=
  let tr := initTranscript cv x tr
  let A1 := a • x.g1
  let A2 := a • x.g2
  let tr := tr ++ (cv.toBytes A1 ++ cv.toBytes A2)
  let e := H tr
  (⟨A1, A2, BigInt.mod (a + e * w) cv.order⟩, tr)

/-- nizk_dlog_equality.hpp:123-163 `Verify`. -/
def verify (cv : Curve G) (H : Bytes → ℤ) (x : Instance G) (tr : Bytes) (pf : Proof G) : Bool × Bytes :=
  let tr := initTranscript cv x tr
  let tr := tr ++ (cv.toBytes pf.A1 ++ cv.toBytes pf.A2)
  let e := H tr
  let c1 := decide (pf.z • x.g1 = pf.A1 + e • x.h1)
  let c2 := decide (pf.z • x.g2 = pf.A2 + e • x.h2)
  (c1 && c2, tr)

end DLOGEquality

/-! ### zkp/nizk/nizk_dlog_knowledge.hpp -/

namespace DLOGKnowledge

/-- nizk_dlog_knowledge.hpp:21-24 `Instance`. -/
structure Instance (G : Type) where
  g : G
  h : G

/-- nizk_dlog_knowledge.hpp:32-36 `Proof`. -/
structure Proof (G : Type) where
  A : G
  z : ℤ
deriving DecidableEq

/-- nizk_dlog_knowledge.hpp:71-75. -/
def proofToByteString (cv : Curve G) (pf : Proof G) : Bytes := cv.toBytes pf.A ++ BigInt.toByteString pf.z

/-- nizk_dlog_knowledge.hpp:88-111 `Prove`. -/
def prove (cv : Curve G) (H : Bytes → ℤ) (x : Instance G) (w a : ℤ) (tr : Bytes) : Proof G × Bytes :=
  let tr := tr ++ (cv.toBytes x.g ++ cv.toBytes x.h)
  let A := a • x.g
  let tr := tr ++ cv.toBytes A
  let e := H tr
  (⟨A, BigInt.mod (a + e * w) cv.order⟩, tr)

/-- nizk_dlog_knowledge.hpp:117-145 `Verify`. -/
def verify (cv : Curve G) (H : Bytes → ℤ) (x : Instance G) (tr : Bytes) (pf : Proof G) : Bool × Bytes :=
  let tr := tr ++ (cv.toBytes x.g ++ cv.toBytes x.h)
  let tr := tr ++ cv.toBytes pf.A
  let e := H tr
  (decide (pf.z • x.g = pf.A + e • x.h), tr)

end DLOGKnowledge

/-! ### zkp/nizk/nizk_plaintext_equality.hpp -/

namespace PlaintextEquality

/-- nizk_plaintext_equality.hpp:25-29 `Instance` (twisted ElGamal multi-recipient ciphertext). -/
structure Instance (G : Type) where
  vecPk : List G
  ct : Twisted.MRCT G

/-- nizk_plaintext_equality.hpp:40-45 `Proof`. -/
structure Proof (G : Type) where
  vecA : List G
  B : G
  z : ℤ
  t : ℤ
deriving DecidableEq

/-- nizk_plaintext_equality.hpp:102-112: the strings of `B`, `z`, `t` are computed and dropped. -/
def proofToByteString (cv : Curve G) (pf : Proof G) : Bytes := (pf.vecA.map cv.toBytes).flatten

/-- The loops `for i < n: transcript_str += v[i].ToByteString()`; reading past the end is undefined (`none`). -/
def addPoints (cv : Curve G) (n : Nat) (v : List G) (tr : Bytes) : Option Bytes :=
  if v.length < n then none else some (tr ++ ((v.take n).map cv.toBytes).flatten)

/-- nizk_plaintext_equality.hpp:129-137 / 176-184. -/
def initTranscript (cv : Curve G) (x : Instance G) (tr : Bytes) : Option Bytes := do
  let n := x.vecPk.length
  let tr ← addPoints cv n x.vecPk tr
  let tr ← addPoints cv n x.ct.vecX tr
  return tr ++ cv.toBytes x.ct.Y

/-- nizk_plaintext_equality.hpp:125-169 `Prove` with witness `(v, r)` and drawn `a`, `b`. -/
def prove (cv : Curve G) (pp : Twisted.PP G) (H : Bytes → ℤ) (x : Instance G) (v r a b : ℤ) (tr : Bytes) :
    Option (Proof G × Bytes) := do
  let tr ← initTranscript cv x tr
  let vecA := x.vecPk.map fun pk => a • pk
  let B := msm [pp.g, pp.h] [a, b]
  let tr ← addPoints cv x.vecPk.length vecA tr
  let tr := tr ++ cv.toBytes B
  let e := H tr
  return (⟨vecA, B, BigInt.mod (a + e * r) cv.order, BigInt.mod (b + e * v) cv.order⟩, tr)

/-- The loop 196-200 over the recipients; undefined when `vec_A` or `vec_X` is shorter. -/
def conditions (e z : ℤ) : List G → List G → List G → Option (List Bool)
  | [], _, _ => some []
  | pk :: pks, A :: As, X :: Xs => (conditions e z pks As Xs).map fun cs => decide (z • pk = A + e • X) :: cs
  | _ :: _, _, _ => none

/-- nizk_plaintext_equality.hpp:173-234 `Verify`. -/
def verify (cv : Curve G) (pp : Twisted.PP G) (H : Bytes → ℤ) (x : Instance G) (tr : Bytes) (pf : Proof G) :
    Option (Bool × Bytes) := do
  let tr ← initTranscript cv x tr
  let tr ← addPoints cv x.vecPk.length pf.vecA tr
  let tr := tr ++ cv.toBytes pf.B
  let e := H tr
  let cs ← conditions e pf.z x.vecPk pf.vecA x.ct.vecX
  let last := decide (msm [pp.g, pp.h] [pf.z, pf.t] = pf.B + e • x.ct.Y)
  return ((cs ++ [last]).all id, tr)

end PlaintextEquality

/-! ### zkp/nizk/nizk_plaintext_knowledge.hpp -/

namespace PlaintextKnowledge

/-- nizk_plaintext_knowledge.hpp:24-28 `Instance`. -/
structure Instance (G : Type) where
  pk : G
  ct : CT G

/-- nizk_plaintext_knowledge.hpp:38-42 `Proof`. -/
structure Proof (G : Type) where
  A : G
  B : G
  z1 : ℤ
  z2 : ℤ
deriving DecidableEq

/-- nizk_plaintext_knowledge.hpp:83-87. -/
def proofToByteString (cv : Curve G) (pf : Proof G) : Bytes :=
  cv.toBytes pf.A ++ cv.toBytes pf.B ++ BigInt.toByteString pf.z1 ++ BigInt.toByteString pf.z2

/-- nizk_plaintext_knowledge.hpp:108-139 `Prove`. -/
def prove (cv : Curve G) (pp : Twisted.PP G) (H : Bytes → ℤ) (x : Instance G) (v r a b : ℤ) (tr : Bytes) : Proof G × Bytes :=
  let tr := tr ++ (cv.toBytes x.pk ++ cv.toBytes x.ct.X ++ cv.toBytes x.ct.Y)
  let A := a • x.pk
  let B := msm [pp.g, pp.h] [a, b]
  let tr := tr ++ (cv.toBytes A ++ cv.toBytes B)
  let e := H tr
  (⟨A, B, BigInt.mod (a + e * r) cv.order, BigInt.mod (b + e * v) cv.order⟩, tr)

/-- nizk_plaintext_knowledge.hpp:143-188 `Verify`. -/
def verify (cv : Curve G) (pp : Twisted.PP G) (H : Bytes → ℤ) (x : Instance G) (tr : Bytes) (pf : Proof G) : Bool × Bytes :=
  let tr := tr ++ (cv.toBytes x.pk ++ cv.toBytes x.ct.X ++ cv.toBytes x.ct.Y)
  let tr := tr ++ (cv.toBytes pf.A ++ cv.toBytes pf.B)
  let e := H tr
  let c0 := decide (pf.z1 • x.pk = pf.A + e • x.ct.X)
  let c1 := decide (msm [pp.g, pp.h] [pf.z1, pf.z2] = pf.B + e • x.ct.Y)
  (c0 && c1, tr)

end PlaintextKnowledge

end Kunlun
