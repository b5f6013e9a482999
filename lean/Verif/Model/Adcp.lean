import Verif.Model.Gadget
/-!
Model of `adcp/adcp.hpp`: confidential transactions (one receiver and many receivers), account updates, supervision, policies.

Hash, drawn scalars, thread schedules of the decryptions and the state `env` of the discrete-logarithm tables are parameters. `none` is
`exit` or undefined behaviour. Printing and timing are left out. Accounts are values; the `.account` files written by `UpdateAccount` are
returned in order.
-/

namespace Kunlun.ADCP

variable {G : Type} [AddCommGroup G] [DecidableEq G]

/-- adcp.hpp:25-35 `PP`. -/
structure PP (G : Type) where
  snLen : Nat
  maxReceivers : Nat
  maxCoins : ℤ
  bullet : Bullet.PP G
  enc : Twisted.PP G
  pka : G

/-- adcp.hpp:42-49 `Account`. -/
structure Account (G : Type) where
  identity : Bytes
  pk : G
  sk : ℤ
  balance : CT G
  m : ℤ
  sn : ℤ

/-- adcp.hpp:52-66 `ToOneCTx`. -/
structure ToOne (G : Type) where
  sn : ℤ
  senderBalance : CT G
  pks : G
  pkr : G
  transfer : Twisted.MRCT G
  pteq : PlaintextEquality.Proof G
  bullet : Bullet.Proof G
  refresh : CT G
  ptke : PlaintextKnowledge.Proof G
  dlogeq : DLOGEquality.Proof G

/-- One hexadecimal digit, upper case. -/
def hexDigit (n : Nat) : UInt8 := if n < 10 then UInt8.ofNat (48 + n) else UInt8.ofNat (55 + n)

/-- crypto/bigint.hpp:300-305 `ToHexString`: `BN_bn2hex`, two digits for every byte, `0` for zero, sign first. -/
def hexString (a : ℤ) : Bytes :=
  if a = 0 then [48] else
    (if a < 0 then [45] else []) ++ (BigInt.toByteString a).flatMap fun b => [hexDigit (b.toNat / 16), hexDigit (b.toNat % 16)]

/-- twisted_exponential_elgamal.hpp:68-72. -/
def ctBytes (cv : Curve G) (ct : CT G) : Bytes := cv.toBytes ct.X ++ cv.toBytes ct.Y

/-- twisted_exponential_elgamal.hpp:75-83. -/
def mrctBytes (cv : Curve G) (ct : Twisted.MRCT G) : Bytes := (ct.vecX.map cv.toBytes).flatten ++ cv.toBytes ct.Y

/-- adcp.hpp:268-291 `Setup` with the values drawn by `Bullet::Setup` and the supervisor key `ska`. The check on `MAX_RECEIVER_NUM` only
prints. `h` is `Hash::StringToECPoint` of the generator, the same for both parts. -/
def setup (cv : Curve G) (logMax maxReceivers snLen : Nat) (h u : G) (vecG vecH : List G) (ska : ℤ) : PP G :=
  ⟨snLen, maxReceivers, ((2 ^ logMax % 2 ^ 64 : Nat) : ℤ), Bullet.setup cv logMax (maxReceivers + 1) h u vecG vecH, ⟨cv.gen, h⟩, ska • cv.gen⟩

/-- adcp.hpp:302-326 `CreateAccount` with drawn secret key. -/
def createAccount (H : Bytes → ℤ) (pp : PP G) (identity : Bytes) (balance sn sk : ℤ) : Account G :=
  let pk := Twisted.keyGen pp.enc sk
  ⟨identity, pk, sk, Twisted.enc pp.enc pk balance (H identity), balance, sn⟩

/-- adcp.hpp:379-390 `ExtractToSignMessageFromCTx`. -/
def toSign (cv : Curve G) (ctx : ToOne G) : Bytes :=
  (hexString ctx.sn ++ cv.toBytes ctx.pks ++ cv.toBytes ctx.pkr) ++ ctBytes cv ctx.senderBalance ++ mrctBytes cv ctx.transfer ++
    PlaintextEquality.proofToByteString cv ctx.pteq ++ Bullet.proofToByteString cv ctx.bullet ++ ctBytes cv ctx.refresh ++
    PlaintextKnowledge.proofToByteString cv ctx.ptke

/-- The scalars drawn by `CreateCTx`. -/
structure Coins where
  r : ℤ
  eqA : ℤ
  eqB : ℤ
  rStar : ℤ
  knA : ℤ
  knB : ℤ
  bullet : Bullet.Coins
  dl : ℤ

/-- adcp.hpp:433-436, 556-558: sender's balance minus the transfer. -/
def updated (bal : CT G) (X0 Y : G) : CT G := ⟨bal.X - X0, bal.Y - Y⟩

/-- adcp.hpp:490-497, 564-570: the statement of the refreshing proof. -/
def refreshInstance (pp : PP G) (upd refresh : CT G) (pk : G) : DLOGEquality.Instance G :=
  ⟨upd.Y - refresh.Y, upd.X - refresh.X, pp.enc.g, pk⟩

/-- adcp.hpp:393-521 `CreateCTx` (one receiver). -/
def createCTx (cv : Curve G) (H : Bytes → ℤ) (pp : PP G) (acct : Account G) (v : ℤ) (pkr : G) (c : Coins) : Option (ToOne G) := do
  let transfer := Twisted.encMulti pp.enc [acct.pk, pkr, pp.pka] v c.r
  let (pteq, tr) ← PlaintextEquality.prove cv pp.enc H ⟨[acct.pk, pkr, pp.pka], transfer⟩ v c.r c.eqA c.eqB []
  let X0 ← transfer.vecX[0]?
  let upd := updated acct.balance X0 transfer.Y
  let refresh := Twisted.reEnc cv pp.enc acct.pk acct.sk upd c.rStar
  let (ptke, tr) := PlaintextKnowledge.prove cv pp.enc H ⟨acct.pk, refresh⟩ (acct.m - v) c.rStar c.knA c.knB tr
  let (bullet, tr) ← Bullet.prove cv H pp.bullet 2 [c.r, c.rStar] [v, acct.m - v] c.bullet tr
  let ctx : ToOne G := ⟨acct.sn, acct.balance, acct.pk, pkr, transfer, pteq, bullet, refresh, ptke, ⟨0, 0, 0⟩⟩
  let tr := tr ++ toSign cv ctx
  let (dlogeq, _) := DLOGEquality.prove cv H (refreshInstance pp upd refresh acct.pk) acct.sk c.dl tr
  return { ctx with dlogeq := dlogeq }

/-- adcp.hpp:524-616 `VerifyCTx`; `s` is the scalar drawn by `Bullet::FastVerify`. -/
def verifyCTx (cv : Curve G) (H : Bytes → ℤ) (pp : PP G) (s : ℤ) (ctx : ToOne G) : Option Bool := do
  let (c1, tr) ← PlaintextEquality.verify cv pp.enc H ⟨[ctx.pks, ctx.pkr, pp.pka], ctx.transfer⟩ [] ctx.pteq
  let (c2, tr) := PlaintextKnowledge.verify cv pp.enc H ⟨ctx.pks, ctx.refresh⟩ tr ctx.ptke
  let (c3, tr) ← Bullet.fastVerify cv H pp.bullet [ctx.transfer.Y, ctx.refresh.Y] s tr ctx.bullet
  let X0 ← ctx.transfer.vecX[0]?
  let upd := updated ctx.senderBalance X0 ctx.transfer.Y
  let tr := tr ++ toSign cv ctx
  let (c4, _) := DLOGEquality.verify cv H (refreshInstance pp upd ctx.refresh ctx.pks) tr ctx.dlogeq
  return c1 && c2 && c3 && c4

/-- How decryption is run: tables and the thread schedules of the two calls in `UpdateAccount`. -/
structure DecRun (G : Type) where
  env : DecEnv G
  sched1 : List (Nat × Bool)
  sched2 : List (Nat × Bool)

/-- adcp.hpp:336-338: sender part of `UpdateAccount`. -/
def debit (cv : Curve G) (d : DecRun G) (a : Account G) (out : CT G) : Option (Account G) := do
  let bal := a.balance.sub out
  let m ← Twisted.dec cv d.env d.sched1 a.sk bal
  return { a with balance := bal, m := m }

/-- adcp.hpp:342-344: receiver part of `UpdateAccount`. -/
def credit (cv : Curve G) (d : DecRun G) (a : Account G) (inc : CT G) : Option (Account G) := do
  let bal := a.balance.add inc
  let m ← Twisted.dec cv d.env d.sched2 a.sk bal
  return { a with balance := bal, m := m }

/-- adcp.hpp:329-349 `UpdateAccount`: the account files written, and the two accounts unless decryption ended the program. -/
def updateAccount (cv : Curve G) (d : DecRun G) (ctx : ToOne G) (snd rcv : Account G) : List (Account G) × Option (Account G × Account G) :=
  match ctx.transfer.vecX with
  | X0 :: X1 :: _ =>
    match debit cv d snd ⟨X0, ctx.transfer.Y⟩ with
    | none => ([], none)
    | some snd' =>
      match credit cv d rcv ⟨X1, ctx.transfer.Y⟩ with
      | none => ([snd'], none)
      | some rcv' => ([snd', rcv'], some (snd', rcv'))
  | _ => ([], none)

/-- adcp.hpp:619-642 `Miner`: the verdict and the accounts afterwards. -/
def miner (cv : Curve G) (H : Bytes → ℤ) (pp : PP G) (d : DecRun G) (s : ℤ) (ctx : ToOne G) (snd rcv : Account G) :
    Option (Bool × Account G × Account G) := do
  if ctx.pks ≠ snd.pk then return (false, snd, rcv)
  if ctx.pkr ≠ rcv.pk then return (false, snd, rcv)
  let ok ← verifyCTx cv H pp s ctx
  if ok then
    let (snd', rcv') ← (updateAccount cv d ctx snd rcv).2
    return (true, snd', rcv')
  else return (false, snd, rcv)

/-- `Miner` called on two entries of a list of accounts. `Account` arguments are references (619), so with `i = j` the second half of
`UpdateAccount` sees what the first half wrote. -/
def minerAt (cv : Curve G) (H : Bytes → ℤ) (pp : PP G) (d : DecRun G) (s : ℤ) (ctx : ToOne G) (l : List (Account G)) (i j : Nat) :
    Option (Bool × List (Account G)) := do
  let snd ← l[i]?
  let rcv ← l[j]?
  if ctx.pks ≠ snd.pk then return (false, l)
  if ctx.pkr ≠ rcv.pk then return (false, l)
  let ok ← verifyCTx cv H pp s ctx
  if ok then
    let X0 ← ctx.transfer.vecX[0]?
    let X1 ← ctx.transfer.vecX[1]?
    let snd' ← debit cv d snd ⟨X0, ctx.transfer.Y⟩
    let l1 := l.set i snd'
    let rcv1 ← l1[j]?
    let rcv' ← credit cv d rcv1 ⟨X1, ctx.transfer.Y⟩
    return (true, l1.set j rcv')
  else return (false, l)

/-- adcp.hpp:352-355 `RevealBalance`. -/
def revealBalance (cv : Curve G) (env : DecEnv G) (sched : List (Nat × Bool)) (a : Account G) : Option ℤ :=
  Twisted.dec cv env sched a.sk a.balance

/-- adcp.hpp:358-377 `SuperviseCTx`. -/
def superviseCTx (cv : Curve G) (env : DecEnv G) (sched : List (Nat × Bool)) (ska : ℤ) (ctx : ToOne G) : Option ℤ := do
  let X ← ctx.transfer.vecX[2]?
  Twisted.dec cv env sched ska ⟨X, ctx.transfer.Y⟩

/-! ### Policies -/

/-- adcp.hpp:679-689 / 718-728: the statement of the open policy for the party with key `pk`. -/
def openInstance (pp : PP G) (pk : G) (ctx : ToOne G) (v : ℤ) : Option (DLOGEquality.Instance G) := do
  let g1 := ctx.transfer.Y - v • pp.enc.h
  if pk = ctx.pks then
    let X ← ctx.transfer.vecX[0]?
    return ⟨g1, X, pp.enc.g, ctx.pks⟩
  else
    let X ← ctx.transfer.vecX[1]?
    return ⟨g1, X, pp.enc.g, ctx.pkr⟩

/-- adcp.hpp:662-703 `JustifyPolicy` (open). -/
def justifyOpen (cv : Curve G) (H : Bytes → ℤ) (pp : PP G) (a : Account G) (ctx : ToOne G) (v w : ℤ) : Option (DLOGEquality.Proof G) := do
  if a.pk ≠ ctx.pks ∧ a.pk ≠ ctx.pkr then none
  let x ← openInstance pp a.pk ctx v
  return (DLOGEquality.prove cv H x a.sk w []).1

/-- adcp.hpp:706-748 `AuditPolicy` (open); of the account only the key is used. -/
def auditOpen (cv : Curve G) (H : Bytes → ℤ) (pp : PP G) (pk : G) (ctx : ToOne G) (v : ℤ) (pf : DLOGEquality.Proof G) : Option Bool := do
  if pk ≠ ctx.pks ∧ pk ≠ ctx.pkr then return false
  let x ← openInstance pp pk ctx v
  return (DLOGEquality.verify cv H x [] pf).1

/-- adcp.hpp:766-785 / 815-833: the statement of the rate policy. -/
def rateInstance (pp : PP G) (pk : G) (ctx1 ctx2 : ToOne G) (t1 t2 : ℤ) : Option (DLOGEquality.Instance G) := do
  let Xin ← ctx1.transfer.vecX[1]?
  let Xout ← ctx2.transfer.vecX[0]?
  let ctIn := (CT.mk Xin ctx1.transfer.Y).scale t1
  let ctOut := (CT.mk Xout ctx2.transfer.Y).scale t2
  let diff := ctIn.sub ctOut
  return ⟨pp.enc.g, pk, diff.Y, diff.X⟩

/-- adcp.hpp:755-799 `JustifyPolicy` (rate). -/
def justifyRate (cv : Curve G) (H : Bytes → ℤ) (pp : PP G) (a : Account G) (ctx1 ctx2 : ToOne G) (t1 t2 w : ℤ) :
    Option (DLOGEquality.Proof G) := do
  if a.pk ≠ ctx1.pkr ∨ a.pk ≠ ctx2.pks then none
  let x ← rateInstance pp a.pk ctx1 ctx2 t1 t2
  return (DLOGEquality.prove cv H x a.sk w []).1

/-- adcp.hpp:802-851 `AuditPolicy` (rate). -/
def auditRate (cv : Curve G) (H : Bytes → ℤ) (pp : PP G) (pk : G) (ctx1 ctx2 : ToOne G) (t1 t2 : ℤ) (pf : DLOGEquality.Proof G) :
    Option Bool := do
  if pk ≠ ctx1.pkr ∨ pk ≠ ctx2.pks then return false
  let x ← rateInstance pp pk ctx1 ctx2 t1 t2
  return (DLOGEquality.verify cv H x [] pf).1

/-- adcp.hpp:873-883 / 913-923: the sum of the sender ciphertexts, starting from two points at infinity. -/
def sumLoop : CT G → List (ToOne G) → Option (CT G)
  | acc, [] => some acc
  | acc, ctx :: rest => do
    let X ← ctx.transfer.vecX[0]?
    sumLoop (acc.add ⟨X, ctx.transfer.Y⟩) rest

/-- The scalars drawn by `Gadget::Prove`. -/
structure LimitCoins where
  rStar : ℤ
  w : ℤ
  a : ℤ
  b : ℤ
  bullet : Bullet.Coins

/-- adcp.hpp:861-900 `JustifyPolicy` (limit): `some none` if the claimer does not match. -/
def justifyLimit (cv : Curve G) (H : Bytes → ℤ) (pp : PP G) (env : DecEnv G) (sched : List (Nat × Bool)) (a : Account G)
    (ctxs : List (ToOne G)) (L R : ℤ) (c : LimitCoins) : Option (Option (Gadget.Proof2 G)) := do
  if ctxs.any (fun ctx => decide (a.pk ≠ ctx.pks)) then return none
  let sum ← sumLoop ⟨0, 0⟩ ctxs
  let (pf, _) ← Gadget.prove2 cv H ⟨pp.enc, pp.bullet⟩ env sched ⟨a.pk, sum⟩ L R a.sk c.rStar c.w c.a c.b c.bullet []
  return some pf

/-- adcp.hpp:903-946 `AuditPolicy` (limit). -/
def auditLimit (cv : Curve G) (H : Bytes → ℤ) (pp : PP G) (s : ℤ) (pk : G) (ctxs : List (ToOne G)) (L R : ℤ) (pf : Gadget.Proof2 G) :
    Option Bool := do
  if ctxs.any (fun ctx => decide (pk ≠ ctx.pks)) then return false
  let sum ← sumLoop ⟨0, 0⟩ ctxs
  let (ok, _) ← Gadget.verify2 cv H ⟨pp.enc, pp.bullet⟩ ⟨pk, sum⟩ L R s [] pf
  return ok

end Kunlun.ADCP
