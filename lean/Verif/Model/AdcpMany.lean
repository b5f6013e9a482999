import Verif.Model.Adcp
/-!
Model of `adcp/adcp.hpp`, lines 950-1472: confidential transactions with many receivers.
-/

namespace Kunlun.ADCP

variable {G : Type} [AddCommGroup G] [DecidableEq G]

/-- adcp.hpp:950-969 `ToManyCTx`. -/
structure ToMany (G : Type) where
  sn : ℤ
  senderBalance : CT G
  pks : G
  senderTransfer : CT G
  pkrs : List G
  transfers : List (Twisted.MRCT G)
  refresh : CT G
  ptke : PlaintextKnowledge.Proof G
  dlogeq : DLOGEquality.Proof G
  pteqs : List (PlaintextEquality.Proof G)
  bullet : Bullet.Proof G
  balance : DLOGKnowledge.Proof G

/-- The scalars drawn for one receiver. -/
structure LegCoins where
  r : ℤ
  eqA : ℤ
  eqB : ℤ

/-- The other scalars drawn by `CreateCTx`. -/
structure ManyCoins where
  legs : List LegCoins
  rStar : ℤ
  knA : ℤ
  knB : ℤ
  bullet : Bullet.Coins
  bal : ℤ
  dl : ℤ

/-- adcp.hpp:1008-1035 `ExtractToSignMessageFromCTx`. -/
def toSignMany (cv : Curve G) (ctx : ToMany G) : Bytes :=
  hexString ctx.sn ++ cv.toBytes ctx.pks ++ (ctx.pkrs.map cv.toBytes).flatten ++ ctBytes cv ctx.senderBalance ++
    ctBytes cv ctx.senderTransfer ++ (ctx.transfers.map (mrctBytes cv)).flatten ++
    (ctx.pteqs.map (PlaintextEquality.proofToByteString cv)).flatten ++ Bullet.proofToByteString cv ctx.bullet ++
    ctBytes cv ctx.refresh ++ PlaintextKnowledge.proofToByteString cv ctx.ptke ++ DLOGKnowledge.proofToByteString cv ctx.balance

/-- adcp.hpp:1076-1085: the receiver ciphertexts; `none` reads past `vec_pkr`. One `LegCoins` is drawn for every amount. -/
def makeLegs (pp : PP G) : List ℤ → List G → List LegCoins → Option (List (Twisted.MRCT G))
  | [], _, _ => some []
  | v :: vs, pkr :: pkrs, c :: cs => do
    let rest ← makeLegs pp vs pkrs cs
    return Twisted.encMulti pp.enc [pkr, pp.pka] v c.r :: rest
  | _, _, _ => none

/-- adcp.hpp:1097-1104: one plaintext-equality proof per receiver, on one transcript. -/
def proveLegs (cv : Curve G) (H : Bytes → ℤ) (pp : PP G) : List ℤ → List G → List (Twisted.MRCT G) → List LegCoins → Bytes →
    Option (List (PlaintextEquality.Proof G) × Bytes)
  | [], _, _, _, tr => some ([], tr)
  | v :: vs, pkr :: pkrs, ct :: cts, c :: cs, tr => do
    let (pf, tr) ← PlaintextEquality.prove cv pp.enc H ⟨[pkr, pp.pka], ct⟩ v c.r c.eqA c.eqB tr
    let (pfs, tr) ← proveLegs cv H pp vs pkrs cts cs tr
    return (pf :: pfs, tr)
  | _, _, _, _, _ => none

/-- adcp.hpp:1228-1235: all proofs are verified; `none` reads past one of the vectors. -/
def verifyLegs (cv : Curve G) (H : Bytes → ℤ) (pp : PP G) : List G → List (Twisted.MRCT G) → List (PlaintextEquality.Proof G) → Bytes →
    Option (Bool × Bytes)
  | [], _, _, tr => some (true, tr)
  | pkr :: pkrs, ct :: cts, pf :: pfs, tr => do
    let (ok, tr) ← PlaintextEquality.verify cv pp.enc H ⟨[pkr, pp.pka], ct⟩ tr pf
    let (oks, tr) ← verifyLegs cv H pp pkrs cts pfs tr
    return (ok && oks, tr)
  | _, _, _, _ => none

/-- adcp.hpp:1165-1170, 1281-1286: the statement of the balance proof. -/
def balanceInstance (pp : PP G) (sY : G) (Ys : List G) : DLOGKnowledge.Instance G := ⟨pp.enc.g, Ys.foldl (· - ·) sY⟩

/-- adcp.hpp:1087-1198, everything after the ciphertexts have been made. Parameters: the transfers, the sender's ciphertext `out`, the
amount `v` subtracted from the recorded balance (1135), and `w`, the witness of the balance proof (1171-1174). -/
def finishCTx (cv : Curve G) (H : Bytes → ℤ) (pp : PP G) (acct : Account G) (vs : List ℤ) (pkrs : List G) (cts : List (Twisted.MRCT G))
    (out : CT G) (v w : ℤ) (c : ManyCoins) : Option (ToMany G) := do
  let (pteqs, tr) ← proveLegs cv H pp vs pkrs cts c.legs []
  let upd := acct.balance.sub out
  let refresh := Twisted.reEnc cv pp.enc acct.pk acct.sk upd c.rStar
  let (ptke, tr) := PlaintextKnowledge.prove cv pp.enc H ⟨acct.pk, refresh⟩ (acct.m - v) c.rStar c.knA c.knB tr
  let (bullet, tr) ← Bullet.prove cv H pp.bullet (vs.length + 1) (c.legs.map LegCoins.r ++ [c.rStar]) (vs ++ [acct.m - v]) c.bullet tr
  let (bal, tr) := DLOGKnowledge.prove cv H (balanceInstance pp out.Y (cts.map (·.Y))) w c.bal tr
  let ctx : ToMany G := ⟨acct.sn, acct.balance, acct.pk, out, pkrs, cts, refresh, ptke, ⟨0, 0, 0⟩, pteqs, bullet, bal⟩
  let tr := tr ++ toSignMany cv ctx
  let (dlogeq, _) := DLOGEquality.prove cv H (refreshInstance pp upd refresh acct.pk) acct.sk c.dl tr
  return { ctx with dlogeq := dlogeq }

/-- adcp.hpp:1040-1208 `CreateCTx` (many receivers). The check on the number of receivers only prints. -/
def createMany (cv : Curve G) (H : Bytes → ℤ) (pp : PP G) (acct : Account G) (vs : List ℤ) (pkrs : List G) (r : ℤ) (c : ManyCoins) :
    Option (ToMany G) := do
  let v := vs.foldl (· + ·) 0
  let out := Twisted.enc pp.enc acct.pk v r
  let cts ← makeLegs pp vs pkrs c.legs
  finishCTx cv H pp acct vs pkrs cts out v ((c.legs.map LegCoins.r).foldl (· - ·) r) c

/-- adcp.hpp:1211-1336 `VerifyCTx` (many receivers). -/
def verifyMany (cv : Curve G) (H : Bytes → ℤ) (pp : PP G) (s : ℤ) (ctx : ToMany G) : Option Bool := do
  let (c1, tr) ← verifyLegs cv H pp ctx.pkrs ctx.transfers ctx.pteqs []
  let (c2, tr) := PlaintextKnowledge.verify cv pp.enc H ⟨ctx.pks, ctx.refresh⟩ tr ctx.ptke
  let Ys := (ctx.transfers.take ctx.pkrs.length).map (·.Y)
  let (c3, tr) ← Bullet.fastVerify cv H pp.bullet (Ys ++ [ctx.refresh.Y]) s tr ctx.bullet
  let (c4, tr) := DLOGKnowledge.verify cv H (balanceInstance pp ctx.senderTransfer.Y Ys) tr ctx.balance
  let upd := ctx.senderBalance.sub ctx.senderTransfer
  let tr := tr ++ toSignMany cv ctx
  let (c5, _) := DLOGEquality.verify cv H (refreshInstance pp upd ctx.refresh ctx.pks) tr ctx.dlogeq
  return c1 && c2 && c3 && c4 && c5

/-- adcp.hpp:1405-1413: the loop over the receivers' accounts, with the thread schedules of the decryptions. The result holds the files
written so far and, unless the program ended, the accounts. -/
def creditAll (cv : Curve G) (env : DecEnv G) : List (List (Nat × Bool)) → List (Account G) → List (Twisted.MRCT G) →
    List (Account G) × Option (List (Account G))
  | _, [], _ => ([], some [])
  | sched :: scheds, a :: as, ct :: cts =>
    match ct.vecX[0]? with
    | none => ([], none)
    | some X =>
      match credit cv ⟨env, sched, sched⟩ a ⟨X, ct.Y⟩ with
      | none => ([], none)
      | some a' =>
        let (files, rest) := creditAll cv env scheds as cts
        (a' :: files, rest.map (a' :: ·))
  | _, _ :: _, _ => ([], none)

/-- adcp.hpp:1396-1416 `UpdateAccount` (many receivers). -/
def updateMany (cv : Curve G) (d : DecRun G) (scheds : List (List (Nat × Bool))) (ctx : ToMany G) (snd : Account G) (rcvs : List (Account G)) :
    List (Account G) × Option (Account G × List (Account G)) :=
  match debit cv d { snd with sn := snd.sn + 1 } ctx.senderTransfer with
  | none => ([], none)
  | some snd' =>
    let (files, r) := creditAll cv d.env scheds rcvs ctx.transfers
    (snd' :: files, r.map (snd', ·))

/-- adcp.hpp:1427-1432: the receivers are compared as far as the caller's list goes; `none` reads past `vec_pkr`. -/
def receiversMatch : List (Account G) → List G → Option Bool
  | [], _ => some true
  | a :: as, pk :: pks => if pk ≠ a.pk then some false else receiversMatch as pks
  | _ :: _, [] => none

/-- adcp.hpp:1420-1444 `Miner` (many receivers). -/
def minerMany (cv : Curve G) (H : Bytes → ℤ) (pp : PP G) (d : DecRun G) (scheds : List (List (Nat × Bool))) (s : ℤ) (ctx : ToMany G)
    (snd : Account G) (rcvs : List (Account G)) : Option (Bool × Account G × List (Account G)) := do
  if ctx.pks ≠ snd.pk then return (false, snd, rcvs)
  let m ← receiversMatch rcvs ctx.pkrs
  if m = false then return (false, snd, rcvs)
  let ok ← verifyMany cv H pp s ctx
  if ok then
    let (snd', rcvs') ← (updateMany cv d scheds ctx snd rcvs).2
    return (true, snd', rcvs')
  else return (false, snd, rcvs)

/-- adcp.hpp:1448-1472 `SuperviseCTx` (many receivers): the loop over `vec_pkr`. -/
def superviseMany (cv : Curve G) (env : DecEnv G) (ska : ℤ) : List (List (Nat × Bool)) → List G → List (Twisted.MRCT G) → Option (List ℤ)
  | _, [], _ => some []
  | sched :: scheds, _ :: pkrs, ct :: cts => do
    let X ← ct.vecX[1]?
    let v ← Twisted.dec cv env sched ska ⟨X, ct.Y⟩
    let vs ← superviseMany cv env ska scheds pkrs cts
    return v :: vs
  | _, _ :: _, _ => none

end Kunlun.ADCP
