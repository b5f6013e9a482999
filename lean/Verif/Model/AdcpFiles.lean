import Verif.Model.AdcpMany
import Verif.Model.Serialization
/-!
Model of the files of `adcp/adcp.hpp`: `SaveSP`, `SavePP`, `SaveAccount`, `SaveCTx` and the matching `Fetch` functions.

A file is its list of bytes. Every reader takes the receiving object, because `>>` into a vector reads as many elements as the receiving
vector has. `Val` lists give the order of the stream operators; `of…` puts the values read back into the object.
-/

namespace Kunlun.ADCP

open Kunlun.Ser

variable {G : Type}

/-- The members of `PP` (adcp.hpp:25-35) that are stored, with the members of `Bullet::PP` (bullet_proof.hpp:17-24) and
`TwistedExponentialElGamal::PP` (twisted_exponential_elgamal.hpp:12-18). -/
structure FilePP (G : Type) where
  maxReceivers : Nat
  snLen : Nat
  maxCoins : ℤ
  pka : G
  rangeLen : Nat
  logRangeLen : Nat
  maxAgg : Nat
  g : G
  h : G
  u : G
  vecG : List G
  vecH : List G
  msgLen : Nat
  tradeoff : Nat
  msgSize : ℤ
  encG : G
  encH : G

/-- twisted_exponential_elgamal.hpp:102-106. -/
def ctVals (ct : CT G) : List (Val G) := [.point ct.X, .point ct.Y]

/-- twisted_exponential_elgamal.hpp:114-118. -/
def mrctVals (ct : Twisted.MRCT G) : List (Val G) := [.pointVec ct.vecX, .point ct.Y]

/-- nizk_plaintext_equality.hpp:47-52. -/
def pteqVals (p : PlaintextEquality.Proof G) : List (Val G) := [.pointVec p.vecA, .point p.B, .big p.z, .big p.t]

/-- nizk_dlog_equality.hpp:39-43. -/
def dlogeqVals (p : DLOGEquality.Proof G) : List (Val G) := [.point p.A1, .point p.A2, .big p.z]

/-- nizk_plaintext_knowledge.hpp:44-48. -/
def ptkeVals (p : PlaintextKnowledge.Proof G) : List (Val G) := [.point p.A, .point p.B, .big p.z1, .big p.z2]

/-- bullet_proof.hpp:68-74 and innerproduct_proof.hpp:49-54. -/
def bulletVals (p : Bullet.Proof G) : List (Val G) :=
  [.point p.A, .point p.S, .point p.T1, .point p.T2, .big p.taux, .big p.mu, .big p.tx, .pointVec p.ip.vecL, .pointVec p.ip.vecR,
    .big p.ip.a, .big p.ip.b]

/-- adcp.hpp:192-199: members in the order of `SaveAccount` (and of `FetchAccount`, 206-211). -/
def accountVals (a : Account G) : List (Val G) :=
  [.str a.identity, .point a.pk, .big a.sk, .point a.balance.X, .point a.balance.Y, .big a.m, .big a.sn]

def ofAccountVals (old : Account G) : List (Val G) → Account G
  | [.str i, .point pk, .big sk, .point X, .point Y, .big m, .big sn] => ⟨i, pk, sk, ⟨X, Y⟩, m, sn⟩
  | _ => old

/-- adcp.hpp:188-200 `SaveAccount`. -/
def saveAccount (C : PointCodec G) (bnLen : Nat) (g : Nat → Bytes) (a : Account G) : Bytes := putAll C bnLen g (accountVals a)

/-- adcp.hpp:202-213 `FetchAccount` into `old`. -/
def fetchAccount (C : PointCodec G) (bnLen : Nat) (g : Nat → Bytes) (old : Account G) (file : Bytes) : Account G :=
  ofAccountVals old (getAll C bnLen g (accountVals old) ⟨file, false⟩).1

/-- adcp.hpp:140-146 `SaveSP`. -/
def saveSP (C : PointCodec G) (bnLen : Nat) (g : Nat → Bytes) (ska : ℤ) : Bytes := putAll C bnLen g [.big ska]

/-- adcp.hpp:148-154 `FetchSP` into `old`. -/
def fetchSP (C : PointCodec G) (bnLen : Nat) (g : Nat → Bytes) (old : ℤ) (file : Bytes) : ℤ :=
  match (getAll C bnLen g [.big old] ⟨file, false⟩).1 with
  | [.big ska] => ska
  | _ => old

/-- adcp.hpp:161-164 and bullet_proof.hpp:27-30: what comes before the vectors. -/
def ppHead (p : FilePP G) : List (Val G) :=
  [.size p.maxReceivers, .size p.snLen, .big p.maxCoins, .point p.pka, .size p.rangeLen, .size p.logRangeLen, .size p.maxAgg,
    .point p.g, .point p.h, .point p.u]

/-- bullet_proof.hpp:31-32 and twisted_exponential_elgamal.hpp:86-92. -/
def ppTail (p : FilePP G) : List (Val G) :=
  [.pointVec p.vecG, .pointVec p.vecH, .size p.msgLen, .size p.tradeoff, .big p.msgSize, .point p.encG, .point p.encH]

/-- adcp.hpp:156-170 `SavePP`. -/
def savePP (C : PointCodec G) (bnLen : Nat) (g : Nat → Bytes) (p : FilePP G) : Bytes := putAll C bnLen g (ppHead p ++ ppTail p)

/-- `std::vector<ECPoint>::resize`; new elements are default-constructed points. -/
def resize (fresh : G) (n : Nat) (v : List G) : List G := v.take n ++ List.replicate (n - v.length) fresh

def ofPPHead (old : FilePP G) : List (Val G) → FilePP G
  | [.size a, .size b, .big c, .point k, .size r, .size l, .size m, .point g, .point h, .point u] =>
    { old with maxReceivers := a, snLen := b, maxCoins := c, pka := k, rangeLen := r, logRangeLen := l, maxAgg := m, g := g, h := h, u := u }
  | _ => old

def ofPPTail (old : FilePP G) : List (Val G) → FilePP G
  | [.pointVec vg, .pointVec vh, .size m, .size t, .big s, .point g, .point h] =>
    { old with vecG := vg, vecH := vh, msgLen := m, tradeoff := t, msgSize := s, encG := g, encH := h }
  | _ => old

/-- bullet_proof.hpp:42-43: the vectors are resized to the product of the sizes just read (64-bit arithmetic). -/
def resizePP (fresh : G) (p : FilePP G) : FilePP G :=
  let n := p.rangeLen * p.maxAgg % 2 ^ 64
  { p with vecG := resize fresh n p.vecG, vecH := resize fresh n p.vecH }

/-- adcp.hpp:172-186 `FetchPP` into `old`. -/
def fetchPP (C : PointCodec G) (bnLen : Nat) (g : Nat → Bytes) (fresh : G) (old : FilePP G) (file : Bytes) : FilePP G :=
  let r1 := getAll C bnLen g (ppHead old) ⟨file, false⟩
  let p := resizePP fresh (ofPPHead old r1.1)
  ofPPTail p (getAll C bnLen g (ppTail p) r1.2).1

/-- adcp.hpp:220-232: members in the order of `SaveCTx` (and of `FetchCTx`, 252-265). `sender_balance_ct` is not among them. -/
def ctxVals (t : ToOne G) : List (Val G) :=
  [.big t.sn, .point t.pks, .point t.pkr] ++ mrctVals t.transfer ++ pteqVals t.pteq ++ ctVals t.refresh ++ dlogeqVals t.dlogeq ++
    ptkeVals t.ptke ++ bulletVals t.bullet

def ofCtxVals (old : ToOne G) : List (Val G) → ToOne G
  | [.big sn, .point pks, .point pkr, .pointVec vx, .point y, .pointVec va, .point b, .big z, .big t, .point rx, .point ry,
      .point a1, .point a2, .big dz, .point ka, .point kb, .big kz1, .big kz2, .point bA, .point bS, .point bT1, .point bT2,
      .big taux, .big mu, .big tx, .pointVec vl, .pointVec vr, .big ia, .big ib] =>
    ⟨sn, old.senderBalance, pks, pkr, ⟨vx, y⟩, ⟨va, b, z, t⟩, ⟨bA, bS, bT1, bT2, taux, mu, tx, ⟨vl, vr, ia, ib⟩⟩, ⟨rx, ry⟩,
      ⟨ka, kb, kz1, kz2⟩, ⟨a1, a2, dz⟩⟩
  | _ => old

/-- adcp.hpp:215-241 `SaveCTx` (one receiver). -/
def saveCTx (C : PointCodec G) (bnLen : Nat) (g : Nat → Bytes) (t : ToOne G) : Bytes := putAll C bnLen g (ctxVals t)

/-- adcp.hpp:244-266 `FetchCTx` into `old`. -/
def fetchCTx (C : PointCodec G) (bnLen : Nat) (g : Nat → Bytes) (old : ToOne G) (file : Bytes) : ToOne G :=
  ofCtxVals old (getAll C bnLen g (ctxVals old) ⟨file, false⟩).1

/-- adcp.hpp:971-999 `SaveCTx` (many receivers). There is no reader. -/
def saveMany (C : PointCodec G) (bnLen : Nat) (g : Nat → Bytes) (t : ToMany G) : Bytes :=
  putAll C bnLen g ([.big t.sn, .point t.pks] ++ ctVals t.senderTransfer ++ t.pkrs.map .point ++ (t.transfers.map mrctVals).flatten ++
    (t.pteqs.map pteqVals).flatten ++ ctVals t.refresh ++ dlogeqVals t.dlogeq ++ bulletVals t.bullet ++ ptkeVals t.ptke)

end Kunlun.ADCP
