import Verif.Model.AdcpFiles
/-!
Model of the stream operators of keys, ciphertexts, signatures and proofs: `pke/elgamal.hpp`, `pke/exponential_elgamal.hpp`,
`pke/twisted_exponential_elgamal.hpp`, `signature/schnorr.hpp`, `zkp/nizk/*.hpp`, `zkp/bulletproofs/*.hpp`.

`<<` writes the members in the order of `vals`; `>>` reads into the members of an existing object in the same order (a vector takes as many
elements as it has) and stores what was read. The stream comes back with the object, so that several objects can follow each other in one file.
-/

namespace Kunlun.Files

open Kunlun.Ser

variable {G α : Type}

/-- The members of an object in the order of its stream operators, and how members read are stored. -/
structure Layout (G α : Type) where
  vals : α → List (Val G)
  back : α → List (Val G) → α

/-- `fout << a`. -/
def Layout.save (L : Layout G α) (C : PointCodec G) (bnLen : Nat) (g : Nat → Bytes) (a : α) : Bytes := putAll C bnLen g (L.vals a)

/-- `fin >> old`. -/
def Layout.fetch (L : Layout G α) (C : PointCodec G) (bnLen : Nat) (g : Nat → Bytes) (old : α) (s : IStream) : α × IStream :=
  let r := getAll C bnLen g (L.vals old) s
  (L.back old r.1, r.2)

/-- elgamal.hpp:37-47 and schnorr.hpp:36-46, public parameters: the base point. -/
def basePP : Layout G G where
  vals g := [.point g]
  back | _, [.point g] => g
       | old, _ => old

/-- elgamal.hpp:49-59, exponential_elgamal.hpp:52-62, twisted_exponential_elgamal.hpp:102-112 `CT`. -/
def ct : Layout G (CT G) where
  vals c := [.point c.X, .point c.Y]
  back | _, [.point X, .point Y] => ⟨X, Y⟩
       | old, _ => old

/-- exponential_elgamal.hpp:12-18 `PP`. -/
structure ExpPP (G : Type) where
  msgLen : Nat
  msgSize : ℤ
  tradeoff : Nat
  g : G

/-- exponential_elgamal.hpp:35-49. -/
def expPP : Layout G (ExpPP G) where
  vals p := [.size p.msgLen, .size p.tradeoff, .big p.msgSize, .point p.g]
  back | _, [.size l, .size t, .big s, .point g] => ⟨l, s, t, g⟩
       | old, _ => old

/-- twisted_exponential_elgamal.hpp:12-18 `PP`. -/
structure TwistedPP (G : Type) where
  msgLen : Nat
  msgSize : ℤ
  tradeoff : Nat
  g : G
  h : G

/-- twisted_exponential_elgamal.hpp:86-100. -/
def twistedPP : Layout G (TwistedPP G) where
  vals p := [.size p.msgLen, .size p.tradeoff, .big p.msgSize, .point p.g, .point p.h]
  back | _, [.size l, .size t, .big s, .point g, .point h] => ⟨l, s, t, g, h⟩
       | old, _ => old

/-- exponential_elgamal.hpp:64-74 `MRCT`: (`X`, `vec_Y`). -/
def expMrct : Layout G (G × List G) where
  vals c := [.point c.1, .pointVec c.2]
  back | _, [.point X, .pointVec Y] => (X, Y)
       | old, _ => old

/-- twisted_exponential_elgamal.hpp:114-124 `MRCT`. -/
def mrct : Layout G (Twisted.MRCT G) where
  vals c := [.pointVec c.vecX, .point c.Y]
  back | _, [.pointVec X, .point Y] => ⟨X, Y⟩
       | old, _ => old

/-- schnorr.hpp:48-60 `SIG`. -/
def sig : Layout G (Schnorr.SIG G) where
  vals s := [.point s.A, .big s.z]
  back | _, [.point A, .big z] => ⟨A, z⟩
       | old, _ => old

/-- nizk_dlog_knowledge.hpp:38-48 `Proof`. -/
def dlogKnowledge : Layout G (DLOGKnowledge.Proof G) where
  vals p := [.point p.A, .big p.z]
  back | _, [.point A, .big z] => ⟨A, z⟩
       | old, _ => old

/-- nizk_dlog_equality.hpp:39-49 `Proof`. -/
def dlogEquality : Layout G (DLOGEquality.Proof G) where
  vals p := [.point p.A1, .point p.A2, .big p.z]
  back | _, [.point A, .point B, .big z] => ⟨A, B, z⟩
       | old, _ => old

/-- nizk_plaintext_knowledge.hpp:44-54 `Proof`. -/
def plaintextKnowledge : Layout G (PlaintextKnowledge.Proof G) where
  vals p := [.point p.A, .point p.B, .big p.z1, .big p.z2]
  back | _, [.point A, .point B, .big z1, .big z2] => ⟨A, B, z1, z2⟩
       | old, _ => old

/-- nizk_plaintext_equality.hpp:47-59 `Proof`. -/
def plaintextEquality : Layout G (PlaintextEquality.Proof G) where
  vals p := [.pointVec p.vecA, .point p.B, .big p.z, .big p.t]
  back | _, [.pointVec A, .point B, .big z, .big t] => ⟨A, B, z, t⟩
       | old, _ => old

/-- bullet_proof.hpp:68-82 with innerproduct_proof.hpp:49-61 `Proof`. -/
def bullet : Layout G (Bullet.Proof G) where
  vals p := [.point p.A, .point p.S, .point p.T1, .point p.T2, .big p.taux, .big p.mu, .big p.tx, .pointVec p.ip.vecL, .pointVec p.ip.vecR,
    .big p.ip.a, .big p.ip.b]
  back | _, [.point A, .point S, .point T1, .point T2, .big taux, .big mu, .big tx, .pointVec L, .pointVec R, .big a, .big b] =>
          ⟨A, S, T1, T2, taux, mu, tx, ⟨L, R, a, b⟩⟩
       | old, _ => old

end Kunlun.Files
