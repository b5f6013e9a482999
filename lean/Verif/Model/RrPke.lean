import Verif.Model.VoleOprf
import Verif.Model.Pke
/-!
Model of `mpc/rpmt/rrpke_mqrpmt.hpp`: the membership test in which the server hides encryptions of one message under its keys and the client
sends back re-randomised ciphertexts. The code exists only when `ENABLE_X25519_ACCELERATION` is off; `ECPOINT_COMPRESSED` is taken to be off.
-/

namespace Kunlun.RrPke

open Kunlun Kunlun.Proto Kunlun.OKVS Kunlun.Baxos

variable {G : Type} [AddCommGroup G] [DecidableEq G]

/-- A `BlockArrayValue` (okvs_utility.hpp:18-21). -/
abbrev Arr := Fin 9 → Block

/-- rrpke_mqrpmt.hpp:36-43 `PP`; the two lengths are powers of two, see `Setup` (70-82). -/
structure PP where
  ssp : Nat
  logS : Nat
  logC : Nat

def PP.serverLen (pp : PP) : Nat := 2 ^ pp.logS
def PP.clientLen (pp : PP) : Nat := 2 ^ pp.logC

/-- elgamal.hpp:176-191 `CTtoByteArray`: two encodings in a buffer of zeros. -/
def ctBytes (C : Ser.PointCodec G) (ct : CT G) : Bytes :=
  Ser.putPoint C (List.replicate C.byteLen 0) ct.X ++ Ser.putPoint C (List.replicate C.byteLen 0) ct.Y

/-- A point read into a new `ECPoint`, which is infinity, with the result of `oct2point` ignored. -/
def getPt (C : Ser.PointCodec G) (b : Bytes) : G := (C.dec b).getD C.inf

/-- elgamal.hpp:193-206 `ByteArraytoCT`. -/
def ctOfBytes (C : Ser.PointCodec G) (b : Bytes) : CT G := ⟨getPt C (b.take C.byteLen), getPt C ((b.drop C.byteLen).take C.byteLen)⟩

/-- The object representation of a `BlockArrayValue`. -/
def arrBytes (v : Arr) : Bytes := (List.ofFn fun i => (v i).toBytes).flatten

/-- A `BlockArrayValue` from its object representation. -/
def arrOf (b : Bytes) : Arr := fun i => Block.ofBytes ((b.drop (16 * i.val)).take 16)

/-- rrpke_mqrpmt.hpp:104-110 `CTtoBlockArrayValue`; a longer encoding would overflow the buffer of 144 bytes. -/
def toArr (C : Ser.PointCodec G) (ct : CT G) : Option Arr :=
  if 144 < 2 * C.byteLen then none else some (arrOf (ctBytes C ct ++ List.replicate (144 - 2 * C.byteLen) 0))

/-- rrpke_mqrpmt.hpp:112-117 `BlockArrayValueToCT`. -/
def ofArr (C : Ser.PointCodec G) (v : Arr) : CT G := ctOfBytes C (arrBytes v)

/-- The bytes of a vector of `BlockArrayValue`. -/
def arrsBytes (l : List Arr) : Bytes := (l.map arrBytes).flatten

/-- Element `i` of such a vector, read from the bytes. -/
def arrAt (b : Bytes) (i : Nat) : Arr := arrOf ((b.drop (144 * i)).take 144)

/-- rrpke_mqrpmt.hpp:157, 216 `1 << (pp.LOG_SERVER_LEN-7)`: a shift of an `int`, whose amount wraps around below 7. -/
def binSize (logS : Nat) : Option Nat := if logS < 7 ∨ 38 ≤ logS then none else some (2 ^ (logS - 7))

/-- The sizes that the constructor of `Baxos` computes with floating point numbers. -/
structure Sizes where
  s : Nat
  gLim : Nat
  perBin : Nat
  cap : Nat

/-- rrpke_mqrpmt.hpp:158, 217 with baxos.hpp:49-93: `Baxos<gf_128, BlockArrayValue>(SERVER_LEN, bin_size, 3, ssp)`. -/
def cfgOf (pp : PP) (z : Sizes) : Option BCfg :=
  (binSize pp.logS).map fun b => ⟨false, 3, z.s, z.gLim, pp.ssp, (pp.serverLen + b - 1) / b, z.perBin, z.cap⟩

/-- The hash values of keys: both parties construct `Baxos` without a seed and so use `fixed_seed` (baxos.hpp:56). -/
def hashes (fs : Block) (X : List Block) : List Block := VOLEOPRF.hashes fs X

/-- What the program is built and run with: connection, generator, `fixed_seed`, `NUMBER_OF_THREADS`, sizes, old content of the
linked-list nodes. -/
structure Env (G : Type) where
  net : Net G
  g : G
  fs : Block
  threads : Nat
  sizes : Sizes
  junk : Nat → Nat → OKVS.Node

/-- rrpke_mqrpmt.hpp:119-192 `Server`, with what it makes of the bytes it gets back. `sk`, `m` and `r` are what `KeyGen`, `GenRandomECPoint` and
the encryptions draw. -/
def serverThen {α : Type} (e : Env G) (pp : PP) (sk : ℤ) (m : G) (r : Nat → ℤ) (Y : List Block) (fin : Bytes → α) : Proc α :=
  if pp.serverLen ≠ Y.length then .fail
  else sendPoints e.net [ElGamal.keyGen e.g sk] <|
    match cfgOf pp e.sizes with
    | none => .fail
    | some c =>
      match (List.range pp.serverLen).mapM fun i => toArr e.net.C (ElGamal.enc e.g (ElGamal.keyGen e.g sk) m (r i)) with
      | none => .fail
      | some vals =>
        match solve arrayOps c (e.threads % 256) e.junk (fun _ => none) (hashes e.fs Y) vals fun _ => arrayOps.zero with
        | none => .fail
        | some out =>
          sendBytes e.net (arrsBytes ((List.range (VOLEOPRF.size c)).map out)) <| recvBytes e.net (pp.clientLen * 144) fun b => .done (fin b)

/-- rrpke_mqrpmt.hpp:179-187: the bits. -/
def bits (e : Env G) (pp : PP) (sk : ℤ) (m : G) (b : Bytes) : Bytes :=
  (List.range pp.clientLen).map fun i => if m = ElGamal.dec sk (ofArr e.net.C (arrAt b i)) then 1 else 0

/-- rrpke_mqrpmt.hpp:119-192 `Server`. -/
def server (e : Env G) (pp : PP) (sk : ℤ) (m : G) (r : Nat → ℤ) (Y : List Block) : Proc Bytes := serverThen e pp sk m r Y (bits e pp sk m)

/-- The server, returning the ciphertexts that it sees. -/
def serverKeeps (e : Env G) (pp : PP) (sk : ℤ) (m : G) (r : Nat → ℤ) (Y : List Block) : Proc (List (CT G)) :=
  serverThen e pp sk m r Y fun b => (List.range pp.clientLen).map fun i => ofArr e.net.C (arrAt b i)

/-- rrpke_mqrpmt.hpp:194-243 `Client`, returning also the vector `vec_decode` that it holds. `r` is what the re-randomisations draw. -/
def clientKeeps (e : Env G) (pp : PP) (r : Nat → ℤ) (X : List Block) : Proc (List Arr) :=
  if pp.clientLen ≠ X.length then .fail
  else recvPoints e.net 1 fun ps =>
    match ps[0]? with
    | none => .fail
    | some pk =>
      match cfgOf pp e.sizes with
      | none => .fail
      | some c => recvBytes e.net (VOLEOPRF.size c * 144) fun b =>
        match decodeAll arrayOps c (e.threads % 256) (arrAt b) (fun _ => arrayOps.zero) (hashes e.fs X) with
        | none => .fail
        | some ds =>
          match (List.range pp.clientLen).mapM fun i => toArr e.net.C (ElGamal.reRand e.g pk (ofArr e.net.C (ds.getD i arrayOps.zero)) (r i)) with
          | none => .fail
          | some back => sendBytes e.net (arrsBytes back) (.done ds)

/-- rrpke_mqrpmt.hpp:194-243 `Client`. -/
def client (e : Env G) (pp : PP) (r : Nat → ℤ) (X : List Block) : Proc Unit := (clientKeeps e pp r X).bind fun _ => .done ()

end Kunlun.RrPke
