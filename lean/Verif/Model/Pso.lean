import Verif.Model.CwPrf
import Verif.Model.BigInt
/-!
Model of `mpc/pso/`: set operations built from mqRPMT and the ALSZ oblivious transfer extension.

The mqRPMT and OPRF calls are parameters, so the definitions cover every build of these (X25519 or P-256 points, with or without the
Bloom filter); `Verif/Props/Pso.lean` puts the default build in.  The sender plays the mqRPMT client, the receiver the server.
-/

namespace Kunlun.PSO

open Kunlun Proto

variable {G : Type} [AddCommGroup G]

/-- The two sides of mqRPMT: `cwPRFmqRPMT::Client` and `cwPRFmqRPMT::Server`. -/
structure Mq where
  client : CwPRF.Rpmt.PP → List Block → Proc Unit
  server : CwPRF.Rpmt.PP → List Block → Proc Bytes

/-- What the sender of the oblivious transfer extension draws: seed of its selection bits, base-OT secrets. -/
structure SDraw where
  salt : Block
  sk : Nat → ℤ

/-- What the receiver of the oblivious transfer extension draws. -/
structure RDraw where
  salt : Block
  d : ℤ
  r : Nat → ℤ

/-- mqrpmt_psi.hpp:17-26, mqrpmt_psi_card.hpp, mqrpmt_psu.hpp:17-26 -/
structure PP where
  mq : CwPRF.Rpmt.PP
  senderNum : Nat
  receiverNum : Nat

/-- mqrpmt_psi.hpp:28-43, mqrpmt_psi_card.hpp:30-45, mqrpmt_psu.hpp:28-43 `Setup` (the powers of two are exact; ALSZ::Setup always uses 128
base transfers). -/
def setup (stat logS logR : Nat) : PP := ⟨CwPRF.Rpmt.setup stat logR logS, 2 ^ logS, 2 ^ logR⟩

/-- The columns of the extension: alsz_ote.hpp:24, 44-51. -/
def baseLen : Nat := 128

namespace PSI

/-- mqrpmt_psi.hpp:105-125 `Send`. -/
def send (mq : Mq) (e : OTE.Env G) (s : SDraw) (pp : PP) (X : List Block) : Proc Unit :=
  if X.length ≠ pp.senderNum then .fail else
  (mq.client pp.mq X).bind fun _ =>
  OTE.onesidedSend e.net (OTE.ALSZ.randomSend e baseLen s.salt s.sk X.length) baseLen X X.length

/-- mqrpmt_psi.hpp:127-150 `Receive`. -/
def receive (mq : Mq) (e : OTE.Env G) (r : RDraw) (pp : PP) (Y : List Block) : Proc (List Block) :=
  if Y.length ≠ pp.receiverNum then .fail else
  (mq.server pp.mq Y).bind fun bits =>
  OTE.onesidedReceive e.net (OTE.ALSZ.randomReceive e baseLen r.salt r.d r.r bits bits.length) baseLen bits bits.length

end PSI

namespace Card

/-- mqrpmt_psi_card.hpp:104-122 `Send`. -/
def send (mq : Mq) (pp : PP) (X : List Block) : Proc Unit :=
  if X.length ≠ pp.senderNum then .fail else mq.client pp.mq X

/-- mqrpmt_psi_card.hpp:138-141, mqrpmt_psi_card_sum.hpp:194-197: a 64-bit sum of the bits. -/
def count (bits : Bytes) : Nat := bits.foldl (fun c b => (c + b.toNat) % 2 ^ 64) 0

/-- mqrpmt_psi_card.hpp:124-152 `Receive`. -/
def receive (mq : Mq) (pp : PP) (Y : List Block) : Proc Nat :=
  if Y.length ≠ pp.receiverNum then .fail else
  (mq.server pp.mq Y).bind fun bits => .done (count bits)

end Card

namespace CardSum

/-- mqrpmt_psi_card_sum.hpp:17-28 -/
structure PP where
  base : PSO.PP
  logSum : Nat
  logValue : Nat

/-- mqrpmt_psi_card_sum.hpp:30-54 `Setup`. -/
def setup (stat logS logR logSum logValue : Nat) : Option PP :=
  if logSum % 8 ≠ 0 then none else some ⟨PSO.setup stat logS logR, logSum, logValue⟩

/-- `BigInt(pow(2, n))`: the double is converted to `size_t`, which is undefined from `2^64` on. -/
def bigPow2 (n : Nat) : Option ℤ := if n < 64 then some (2 ^ n) else none

/-- mqrpmt_psi_card_sum.hpp:142-144: the caller's vector is overwritten; a short vector is read past its end. -/
def maskAll (bound : ℤ) (r : Nat → ℤ) (n : Nat) (v : List ℤ) : Option (List ℤ) :=
  if v.length < n then none else some (v.mapIdx fun i x => if i < n then BigInt.mod (x + r i) bound else x)

/-- mqrpmt_psi_card_sum.hpp:119-174 `Send`; `r i` is the `i`-th random number drawn.  Besides the tuple the new content of the caller's
`vec_v` is returned. -/
def send (mq : Mq) (e : OTE.Env G) (s : SDraw) (r : Nat → ℤ) (pp : PP) (X : List Block) (v : List ℤ) : Proc ((Nat × ℤ) × List ℤ) :=
  if X.length ≠ pp.base.senderNum then .fail else
  match bigPow2 pp.logValue, bigPow2 pp.logSum with
  | some _, some bound =>
    let n := pp.base.senderNum
    let mask := (List.range n).foldl (fun a i => a + r i) 0
    (mq.client pp.base.mq X).bind fun _ =>
    match maskAll bound r n v with
    | none => .fail
    | some v' =>
      let m0 := (List.range n).map fun i => BigInt.toByteVector (pp.logSum / 8) (r i)
      let m1 := (List.range n).map fun i => BigInt.toByteVector (pp.logSum / 8) (v'.getD i 0)
      (OTE.sendBytesPairs e.net (OTE.ALSZ.randomSend e baseLen s.salt s.sk n) m0 m1 n).bind fun _ =>
      recvInt e.net 8 fun card => recvBig e.net (pp.logSum / 8) fun sum =>
      .done ((card, BigInt.mod (sum - mask) bound), v')
  | _, _ => .fail

/-- mqrpmt_psi_card_sum.hpp:199-205: the loop runs over the receiver's number of items. -/
def maskedSum (bound : ℤ) (m : Nat) (result : List Bytes) : Option ℤ :=
  ((List.range m).mapM fun i => result[i]?.map BigInt.fromByteVector).map fun l => BigInt.mod (l.foldl (· + ·) 0) bound

/-- mqrpmt_psi_card_sum.hpp:176-221 `Receive`. -/
def receive (mq : Mq) (e : OTE.Env G) (d : RDraw) (pp : PP) (Y : List Block) : Proc Nat :=
  if Y.length ≠ pp.base.receiverNum then .fail else
  (mq.server pp.base.mq Y).bind fun bits =>
  (OTE.receiveBytes e.net (OTE.ALSZ.randomReceive e baseLen d.salt d.d d.r bits bits.length) bits bits.length).bind fun result =>
  match bigPow2 pp.logSum with
  | none => .fail
  | some bound =>
    match maskedSum bound pp.base.receiverNum result with
    | none => .fail
    | some ms =>
      sendInt e.net 8 (Card.count bits) <| sendBig e.net (pp.logSum / 8) ms <| .done (Card.count bits)

end CardSum

namespace PSU

/-- mqrpmt_psu.hpp:140-143: flip the indication bits. -/
def flip (bits : Bytes) : Bytes := bits.map (· ^^^ 1)

/-- mqrpmt_psu.hpp:103-125 `Send` for blocks. -/
def send (mq : Mq) (e : OTE.Env G) (s : SDraw) (pp : PP) (X : List Block) : Proc Unit :=
  if X.length ≠ pp.senderNum then .fail else
  (mq.client pp.mq X).bind fun _ =>
  OTE.onesidedSend e.net (OTE.ALSZ.randomSend e baseLen s.salt s.sk pp.senderNum) baseLen X pp.senderNum

/-- mqrpmt_psu.hpp:127-162 `Receive` for blocks. -/
def receive (mq : Mq) (e : OTE.Env G) (r : RDraw) (pp : PP) (Y : List Block) : Proc (List Block) :=
  if Y.length ≠ pp.receiverNum then .fail else
  (mq.server pp.mq Y).bind fun bits =>
  (OTE.onesidedReceive e.net (OTE.ALSZ.randomReceive e baseLen r.salt r.d r.r (flip bits) (flip bits).length) baseLen (flip bits) (flip bits).length).bind
    fun diff => .done (Y ++ diff)

/-- mqrpmt_psu.hpp:186, 236 -/
def padded (n : Nat) : Nat := (n + 127) / 128 * 128

/-- `std::vector::resize(n, x)` to a size not smaller than the present one. -/
def resize {α : Type} (n : Nat) (x : α) (l : List α) : List α := l ++ List.replicate (n - l.length) x

/-- mqrpmt_psu.hpp:165-205 `Send` for byte strings; `HB` is `Hash::BytesToBlock`. -/
def sendBytes (mq : Mq) (e : OTE.Env G) (HB : Bytes → Block) (s : SDraw) (pp : PP) (itemLen : Nat) (X : List Bytes) : Proc Unit :=
  if X.length ≠ pp.senderNum then .fail else
  (mq.client pp.mq (X.map HB)).bind fun _ =>
  let Xp := resize (padded X.length) (List.replicate itemLen 0) X
  OTE.onesidedSendBytes e.net (OTE.ALSZ.randomSend e baseLen s.salt s.sk Xp.length) Xp Xp.length

/-- mqrpmt_psu.hpp:207-257 `Receive` for byte strings. -/
def receiveBytes (mq : Mq) (e : OTE.Env G) (HB : Bytes → Block) (r : RDraw) (pp : PP) (Y : List Bytes) : Proc (List Bytes) :=
  if Y.length ≠ pp.receiverNum then .fail else
  (mq.server pp.mq (Y.map HB)).bind fun bits =>
  let n := padded (flip bits).length
  let fb := resize n 0 (flip bits)
  (OTE.onesidedReceiveBytes e.net (OTE.ALSZ.randomReceive e baseLen r.salt r.d r.r fb n) fb n).bind fun diff => .done (Y ++ diff)

end PSU

/-- The three OPRF calls: `Server`, `Evaluate`, `Client` (mqrpmt_private_id.hpp uses one `OPRF` namespace). -/
structure Oprf (K : Type) where
  server : Proc K
  eval : K → List Block → Option (List Bytes)
  client : List Block → Proc (List Bytes)

namespace PrivateID

variable {K : Type}

/-- mqrpmt_private_id.hpp:20-29 -/
structure PP where
  psu : PSO.PP
  senderNum : Nat
  receiverNum : Nat

/-- mqrpmt_private_id.hpp:32-49 `Setup` without the OPRF part, which belongs to the parameter `Oprf`. -/
def setup (stat logS logR : Nat) : PP := ⟨PSO.setup stat logS logR, 2 ^ logS, 2 ^ logR⟩

/-- mqrpmt_private_id.hpp:115-119, 157-161: item-wise XOR; missing entries are out-of-range reads. -/
def combine (n : Nat) (a b : List Bytes) : Option (List Bytes) :=
  (List.range n).mapM fun i => a[i]?.bind fun x => b[i]?.bind fun y => PRG.xorBytes x y

/-- mqrpmt_private_id.hpp:96-133 `Send`: returns union and own identifiers.  `o1` and `o2` are the two executions of the OPRF. -/
def send (mq : Mq) (e : OTE.Env G) (HB : Bytes → Block) (s : SDraw) (o1 o2 : Oprf K) (pp : PP) (itemLen : Nat) (X : List Block) :
    Proc (List Bytes × List Bytes) :=
  if X.length ≠ pp.senderNum then .fail else
  o1.server.bind fun k1 =>
  match o1.eval k1 X with
  | none => .fail
  | some F1X =>
    (o2.client X).bind fun F2X =>
    match combine pp.senderNum F1X F2X with
    | none => .fail
    | some ids =>
      (PSU.sendBytes mq e HB s pp.psu itemLen ids).bind fun _ =>
      recvBytesVector e.net fun u => .done (u, ids)

/-- mqrpmt_private_id.hpp:136-185 `Receive`; `shuf` is what `std::shuffle` does. -/
def receive (mq : Mq) (e : OTE.Env G) (HB : Bytes → Block) (r : RDraw) (shuf : List Bytes → List Bytes) (o1 o2 : Oprf K) (pp : PP) (Y : List Block) :
    Proc (List Bytes × List Bytes) :=
  if Y.length ≠ pp.receiverNum then .fail else
  (o1.client Y).bind fun F1Y =>
  o2.server.bind fun k2 =>
  match o2.eval k2 Y with
  | none => .fail
  | some F2Y =>
    match combine pp.receiverNum F1Y F2Y with
    | none => .fail
    | some ids =>
      (PSU.receiveBytes mq e HB r pp.psu ids).bind fun u =>
      sendBytesVector e.net (shuf u) <| .done (shuf u, ids)

end PrivateID

end Kunlun.PSO
