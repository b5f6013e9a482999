import Verif.Model.Serialization
import Verif.Model.Block
import Mathlib.Data.Nat.Digits.Defs
/-!
Model of the parameter files of the two-party protocols: the stream operators of the `PP` types in `mpc/` with `SavePP` and `FetchPP`.

Which `operator<<` a number goes through is decided by name lookup. A namespace that declares its own `operator<<` for `PP` hides the
global `using namespace Serialization`; with `using Serialization::operator<<` in the namespace numbers are written as eight bytes, without
it the members of `std::ostream` are the only candidates and numbers are written in decimal, without any separator. The latter holds in
`NPOT` (no number is written there), `IKNPOTE`, `ALSZOTE`, `DDHOPRF` and `PRG`.
-/

namespace Kunlun.ParamFiles

open Kunlun.Ser

variable {G : Type}

/-- One value written by `<<`. -/
inductive Item (G : Type) where
  /-- the operators of `Serialization`, `BigInt`, `ECPoint` -/
  | bin (v : Val G)
  /-- `size_t` through `std::ostream` and `std::istream`: decimal digits -/
  | dec (v : Nat)
  /-- `uint8_t` through `std::ostream` and `std::istream`: one character -/
  | chr (c : UInt8)

/-- The decimal digits of a number, most significant first. -/
def decBytes (n : Nat) : Bytes := if n = 0 then [48] else (Nat.digits 10 n).reverse.map fun d => UInt8.ofNat (48 + d)

/-- White space of the "C" locale, skipped by formatted input. -/
def isSpace (c : UInt8) : Bool := c = 32 || (9 ≤ c && c ≤ 13)

def isDigit (c : UInt8) : Bool := 48 ≤ c && c ≤ 57

/-- The value of a string of digits. -/
def decVal (b : Bytes) : Nat := b.foldl (fun a c => 10 * a + (c.toNat - 48)) 0

/-- `std::istream::operator>>(unsigned long&)`: skips white space, takes an optional sign and all digits that follow. Nothing is stored when
the file is at its end; 0 is stored when there is no digit, and the largest number when the value does not fit. A stream at its end
accepts no further input, which the failure flag of the next read shows. -/
def getDec (old : Nat) (s : IStream) : Nat × IStream :=
  if s.fail then (old, s)
  else match s.rest.dropWhile isSpace with
    | [] => (old, ⟨[], true⟩)
    | c :: t =>
      let b := if c = 45 ∨ c = 43 then t else c :: t
      let ds := b.takeWhile isDigit
      let r := b.dropWhile isDigit
      if ds = [] then (0, ⟨r, true⟩)
      else if 2 ^ 64 ≤ decVal ds then (2 ^ 64 - 1, ⟨r, true⟩)
      else (if c = 45 then (2 ^ 64 - decVal ds) % 2 ^ 64 else decVal ds, ⟨r, false⟩)

/-- `operator>>(std::istream&, unsigned char&)`: skips white space, takes one character. -/
def getChr (old : UInt8) (s : IStream) : UInt8 × IStream :=
  if s.fail then (old, s)
  else match s.rest.dropWhile isSpace with
    | [] => (old, ⟨[], true⟩)
    | c :: t => (c, ⟨t, false⟩)

def putItem (C : PointCodec G) (bnLen : Nat) (g : Nat → Bytes) : Item G → Bytes
  | .bin v => put C bnLen g v
  | .dec v => decBytes v
  | .chr c => [c]

def getItem (C : PointCodec G) (bnLen : Nat) (g : Nat → Bytes) : Item G → IStream → Item G × IStream
  | .bin v, s => let (v, s) := get C bnLen g v s; (.bin v, s)
  | .dec v, s => let (v, s) := getDec v s; (.dec v, s)
  | .chr c, s => let (c, s) := getChr c s; (.chr c, s)

/-- A sequence of `<<`. -/
def putItems (C : PointCodec G) (bnLen : Nat) (g : Nat → Bytes) (vs : List (Item G)) : Bytes := (vs.map (putItem C bnLen g)).flatten

/-- A sequence of `>>`. -/
def getItems (C : PointCodec G) (bnLen : Nat) (g : Nat → Bytes) : List (Item G) → IStream → List (Item G) × IStream
  | [], s => ([], s)
  | d :: ds, s =>
    let (v, s) := getItem C bnLen g d s
    let (vs, s) := getItems C bnLen g ds s
    (v :: vs, s)

abbrev sz (n : Nat) : Item G := .bin (.size n)

/-! ### Oblivious transfer -/

/-- naor_pinkas_ot.hpp:37-48. -/
def npotItems (g : G) : List (Item G) := [.bin (.point g)]

def ofNpot (old : G) : List (Item G) → G
  | [.bin (.point g)] => g
  | _ => old

/-- iknp_ote.hpp:24-29, alsz_ote.hpp:27-32. -/
structure OtePP (G : Type) where
  baseOT : G
  malicious : UInt8
  baseLen : Nat

/-- iknp_ote.hpp:40-56, alsz_ote.hpp:42-58. -/
def OtePP.items (p : OtePP G) : List (Item G) := npotItems p.baseOT ++ [.chr p.malicious, .dec p.baseLen]

def OtePP.ofItems (old : OtePP G) : List (Item G) → OtePP G
  | [.bin (.point g), .chr m, .dec b] => ⟨g, m, b⟩
  | _ => old

/-! ### OPRFs -/

/-- ddh_oprf.hpp:19-23. -/
structure DdhPP where
  keySize : Nat
  rangeSize : Nat
deriving DecidableEq

/-- ddh_oprf.hpp:26-39. -/
def DdhPP.items (p : DdhPP) : List (Item G) := [.dec p.keySize, .dec p.rangeSize]

def DdhPP.ofItems (old : DdhPP) : List (Item G) → DdhPP
  | [.dec k, .dec r] => ⟨k, r⟩
  | _ => old

/-- ddh_oprf.hpp:41-47 `Setup`: `BN_BYTE_LEN` (bigint.hpp) and `HASH_OUTPUT_LEN` (hash.hpp) are both 32. -/
def ddhSetup : DdhPP := ⟨32, 32⟩

/-- prg.hpp:22-25 with aes.hpp:20-23: the members of a seed. -/
structure SeedObj where
  counter : Nat
  roundkey : List Block
  roundNum : Nat

/-- prg.hpp:35-49: the counter in decimal; the key with the operators of aes.hpp:34-53, which are those of `Serialization`. -/
def SeedObj.items (s : SeedObj) : List (Item G) := .dec s.counter :: (s.roundkey.map fun k => .bin (.pod (Block.toBytes k))) ++ [sz s.roundNum]

/-- ote_oprf.hpp:35-51. -/
structure OtePrfPP (G : Type) where
  keySize : Nat
  rangeSize : Nat
  stat : Nat
  inputNum : Nat
  height : Nat
  logHeight : Nat
  width : Nat
  batch : Nat
  seed : SeedObj
  npot : G

/-- ote_oprf.hpp:84-121. -/
def OtePrfPP.items (p : OtePrfPP G) : List (Item G) :=
  [sz p.keySize, sz p.rangeSize, sz p.stat, sz p.inputNum, sz p.height, sz p.logHeight, sz p.width, sz p.batch] ++ p.seed.items ++
    npotItems p.npot

/-! ### Set operations -/

/-- cwprf_psi.hpp:36-45. -/
structure CwPsiPP where
  stat : Nat
  comp : Nat
  logSender : Nat
  senderNum : Nat
  logReceiver : Nat
  receiverNum : Nat
  truncateLen : Nat
deriving DecidableEq

/-- cwprf_psi.hpp:49-73. -/
def CwPsiPP.items (p : CwPsiPP) : List (Item G) :=
  [sz p.stat, sz p.comp, sz p.logSender, sz p.senderNum, sz p.logReceiver, sz p.receiverNum, sz p.truncateLen]

def CwPsiPP.ofItems (old : CwPsiPP) : List (Item G) → CwPsiPP
  | [.bin (.size a), .bin (.size b), .bin (.size c), .bin (.size d), .bin (.size e), .bin (.size f), .bin (.size t)] => ⟨a, b, c, d, e, f, t⟩
  | _ => old

/-- cwprf_mqrpmt.hpp:25-32, rrpke_mqrpmt.hpp:35-42. -/
structure RpmtPP where
  stat : Nat
  logServer : Nat
  serverLen : Nat
  logClient : Nat
  clientLen : Nat
deriving DecidableEq

/-- cwprf_mqrpmt.hpp:35-56, rrpke_mqrpmt.hpp:45-70. -/
def RpmtPP.items (p : RpmtPP) : List (Item G) := [sz p.stat, sz p.logServer, sz p.serverLen, sz p.logClient, sz p.clientLen]

def RpmtPP.ofItems (old : RpmtPP) : List (Item G) → RpmtPP
  | [.bin (.size a), .bin (.size b), .bin (.size c), .bin (.size d), .bin (.size e)] => ⟨a, b, c, d, e⟩
  | _ => old

/-- cwprf_mqrpmt.hpp:58-67, rrpke_mqrpmt.hpp:72-83 `Setup` (the powers of two are exact). -/
def rpmtSetup (stat logServer logClient : Nat) : RpmtPP := ⟨stat, logServer, 2 ^ logServer, logClient, 2 ^ logClient⟩

/-- mqrpmt_psi.hpp:18-26, mqrpmt_psi_card.hpp:17-25, mqrpmt_psu.hpp:17-26. -/
structure PsoPP (G : Type) where
  ote : OtePP G
  mq : RpmtPP
  logSender : Nat
  logReceiver : Nat
  senderNum : Nat
  receiverNum : Nat

/-- mqrpmt_psi.hpp:47-59, 78-90, mqrpmt_psi_card.hpp:46-57, 76-87, mqrpmt_psu.hpp:46-57, 76-87. -/
def PsoPP.items (p : PsoPP G) : List (Item G) :=
  p.ote.items ++ p.mq.items ++ [sz p.logSender, sz p.logReceiver, sz p.senderNum, sz p.receiverNum]

def PsoPP.ofItems (old : PsoPP G) : List (Item G) → PsoPP G
  | [.bin (.point g), .chr m, .dec b, .bin (.size a1), .bin (.size a2), .bin (.size a3), .bin (.size a4), .bin (.size a5),
      .bin (.size b1), .bin (.size b2), .bin (.size b3), .bin (.size b4)] => ⟨⟨g, m, b⟩, ⟨a1, a2, a3, a4, a5⟩, b1, b2, b3, b4⟩
  | _ => old

/-- mqrpmt_psi.hpp:28-43, mqrpmt_psi_card.hpp:28-43, mqrpmt_psu.hpp:29-44 `Setup`, with alsz_ote.hpp:61-67, which leaves `BASE_LEN` at its default 128. -/
def psoSetup (g : G) (stat logS logR : Nat) : PsoPP G := ⟨⟨g, 0, 128⟩, rpmtSetup stat logR logS, logS, logR, 2 ^ logS, 2 ^ logR⟩

/-- mqrpmt_psi_card_sum.hpp:17-28. -/
structure SumPP (G : Type) where
  base : PsoPP G
  logSum : Nat
  logValue : Nat

/-- mqrpmt_psi_card_sum.hpp:57-70, 89-103. -/
def SumPP.items (p : SumPP G) : List (Item G) := p.base.items ++ [sz p.logSum, sz p.logValue]

def SumPP.ofItems (old : SumPP G) (l : List (Item G)) : SumPP G :=
  match l.drop 12 with
  | [.bin (.size a), .bin (.size b)] => ⟨old.base.ofItems (l.take 12), a, b⟩
  | _ => old

/-- mqrpmt_private_id.hpp:20-29. The OPRF part is `VOLEOPRF::PP` (vole_oprf.hpp:45-66), which has no stream operators and no pointers, so
`Serialization` copies its object representation. -/
structure IdPP (G : Type) where
  oprf : Bytes
  psu : PsoPP G
  logSender : Nat
  logReceiver : Nat
  senderNum : Nat
  receiverNum : Nat

/-- mqrpmt_private_id.hpp:52-92. -/
def IdPP.items (p : IdPP G) : List (Item G) :=
  .bin (.pod p.oprf) :: p.psu.items ++ [sz p.logSender, sz p.logReceiver, sz p.senderNum, sz p.receiverNum]

def IdPP.ofItems (old : IdPP G) : List (Item G) → IdPP G
  | .bin (.pod o) :: l =>
    match l.drop 12 with
    | [.bin (.size a), .bin (.size b), .bin (.size c), .bin (.size d)] => ⟨o, old.psu.ofItems (l.take 12), a, b, c, d⟩
    | _ => old
  | _ => old

/-! ### Files -/

/-- `SavePP` of every protocol: the stream operators into an empty file. -/
def save (C : PointCodec G) (bnLen : Nat) (g : Nat → Bytes) (vs : List (Item G)) : Bytes := putItems C bnLen g vs

/-- `FetchPP` of every protocol: the stream operators from the start of the file, into an object that holds `old`. -/
def load (C : PointCodec G) (bnLen : Nat) (g : Nat → Bytes) (old : List (Item G)) (file : Bytes) : List (Item G) :=
  (getItems C bnLen g old ⟨file, false⟩).1

end Kunlun.ParamFiles
