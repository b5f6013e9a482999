import Verif.Model.Hash
import Verif.Model.OtExt
import Verif.Model.Bloom
/-!
Model of `mpc/psi/cwprf_psi.hpp` and `mpc/rpmt/cwprf_mqrpmt.hpp`.

`x25519_scalar_mulx` (an OpenSSL function, ec_25519.hpp:13-16) is a parameter `mul scalar point`.  The mqRPMT code exists twice, for
P-256 points and for X25519 points; the two texts differ only in the type of points, its wire format, and how the key is drawn, so one
definition takes these as a parameter `Pts`.
-/

namespace Kunlun.CwPRF

open Kunlun Proto

variable {G P : Type}

/-- crypto/prg.hpp:18 `fixed_seed`. -/
def fixedSeed : Block := Block.ofBytes [0x61, 0x7e, 0x8d, 0xa2, 0xa0, 0x51, 0x1e, 0x96, 0x5e, 0x41, 0xc2, 0x9b, 0x15, 0x3f, 0xc7, 0x7a]

/-- cwprf_psi.hpp:131-133, 186-188, cwprf_mqrpmt.hpp:252-254, 325-327: the key a party draws. -/
def fixedKey : Option Bytes := (PRG.genRandomBytes OTE.uninit (PRG.setSeed fixedSeed 0) 32).map (·.1)

/-- `Hash::BlockToBytes` on every item. -/
def hashAll (X : List Block) : Option (List Bytes) := X.mapM Hash.blockToBytes

namespace PSI

/-- cwprf_psi.hpp:22-38 -/
structure PP where
  senderNum : Nat
  receiverNum : Nat
  truncateLen : Nat

/-- cwprf_psi.hpp:75-95 `Setup` (the powers of two are exact). -/
def setup (stat logS logR : Nat) : PP := ⟨2 ^ logS, 2 ^ logR, (stat + logS + logR + 7) / 8⟩

/-- cwprf_psi.hpp:159-160, 217: a string of the first `TRUNCATE_LEN` bytes of a point; a point has 32 bytes. -/
def truncate (len : Nat) (p : Bytes) : Option Bytes := load p 0 len

/-- cwprf_psi.hpp:120-173 `Send` after the key `k1` is drawn. -/
def sendWith (net : Net G) (mul : Bytes → Bytes → Bytes) (k1 : Bytes) (pp : PP) (Y : List Block) : Proc Unit :=
  match hashAll Y with
  | none => .fail
  | some HY =>
    sendX25519 net (HY.map (mul k1)) <| recvX25519 net pp.receiverNum fun F2X =>
    match (F2X.map (mul k1)).mapM (truncate pp.truncateLen) with
    | none => .fail
    | some T => sendStringVector net pp.truncateLen T <| .done ()

/-- cwprf_psi.hpp:120-173 `Send`. -/
def send (net : Net G) (mul : Bytes → Bytes → Bytes) (pp : PP) (Y : List Block) : Proc Unit :=
  if Y.length ≠ pp.senderNum then .fail else
  match fixedKey with
  | none => .fail
  | some k1 => sendWith net mul k1 pp Y

/-- cwprf_psi.hpp:175-236 `Receive` after the key `k2` is drawn. -/
def receiveWith (net : Net G) (mul : Bytes → Bytes → Bytes) (k2 : Bytes) (pp : PP) (X : List Block) : Proc (List Block) :=
  match hashAll X with
  | none => .fail
  | some HX =>
    recvX25519 net pp.senderNum fun F1Y => sendX25519 net (HX.map (mul k2)) <|
    recvStringVector net pp.truncateLen fun TX =>
    match (F1Y.map (mul k2)).mapM (truncate pp.truncateLen) with
    | none => .fail
    | some S =>
      Proc.ofOption (((List.range pp.receiverNum).mapM fun i =>
        TX[i]?.bind fun t => if t ∈ S then X[i]?.map some else some none).map fun l => l.filterMap id)

/-- cwprf_psi.hpp:175-236 `Receive`. -/
def receive (net : Net G) (mul : Bytes → Bytes → Bytes) (pp : PP) (X : List Block) : Proc (List Block) :=
  if X.length ≠ pp.receiverNum then .fail else
  match fixedKey with
  | none => .fail
  | some k2 => receiveWith net mul k2 pp X

end PSI

/-- The two kinds of curve points: wire format, and the bytes the Bloom filter hashes. -/
structure Pts (G P : Type) where
  msg : List P → Chan.Msg G
  shape : Nat → Chan.Shape
  back : Chan.Msg G → Option (List P)
  key : P → Bytes

/-- X25519 points (default build): stream_channel.hpp:323-341, bloom_filter.hpp:283-286, 307-310. -/
def x25519Pts : Pts G Bytes := ⟨.x25519, .x25519, fun | .x25519 ps => some ps | _ => none, id⟩

/-- P-256 points: stream_channel.hpp:279-320, bloom_filter.hpp:153-169 (encoding in a zeroed buffer of `POINT_BYTE_LEN` bytes). -/
def ecPts (C : Ser.PointCodec G) : Pts G G :=
  ⟨.points, .points, fun | .points ps => some ps | _ => none, fun p => C.enc p ++ List.replicate (C.byteLen - (C.enc p).length) 0⟩

def sendPts (net : Net G) (pt : Pts G P) (ps : List P) (k : Proc α) : Proc α := sendM net (pt.msg ps) k

def recvPts (net : Net G) (pt : Pts G P) (n : Nat) (k : List P → Proc α) : Proc α :=
  recvM net (pt.shape n) fun m => match pt.back m with | some ps => k ps | none => .fail

/-- What the Bloom filter constructor and hash depend on. -/
structure BloomEnv where
  /-- `FastKeyedHash` -/
  h : UInt32 → Bytes → UInt32
  /-- stream of `rand()` for more than 128 hash functions -/
  rnd : List UInt32
  /-- `static_cast<uint32_t>(n * (1.44 * stat))`, a floating-point product -/
  raw : Nat → Nat → UInt32
  /-- the default-constructed receiving object -/
  blank : Bloom.Filter

namespace Rpmt

/-- cwprf_mqrpmt.hpp:24-32 -/
structure PP where
  stat : Nat
  serverLen : Nat
  clientLen : Nat

/-- cwprf_mqrpmt.hpp:58-67 `Setup`. -/
def setup (stat logServer logClient : Nat) : PP := ⟨stat, 2 ^ logServer, 2 ^ logClient⟩

/-- cwprf_mqrpmt.hpp:133-144, 283-294, bloom_filter.hpp:259-272, 315-327: the filter sent is asked about every point. -/
def indicationBits (b : BloomEnv) (pt : Pts G P) (buf : Bytes) (ps : List P) : Option Bytes :=
  (Bloom.readObject b.rnd b.blank buf).bind fun f =>
    ps.mapM fun p => (Bloom.contain b.h f (pt.key p)).map fun c => if c then 1 else 0

/-- cwprf_mqrpmt.hpp:94-167 and 242-317 `Server` with `BLOOMFILTER` defined (line 18); `F` is multiplication by the key `k1`. -/
def server (net : Net G) (b : BloomEnv) (pt : Pts G P) (H : Block → P) (F : P → P) (pp : PP) (Y : List Block) : Proc Bytes :=
  if pp.serverLen ≠ Y.length then .fail else
  sendPts net pt (Y.map fun y => F (H y)) <| recvPts net pt pp.clientLen fun F2X =>
  recvInt net 8 fun size => recvBytes net size fun buf =>
  Proc.ofOption (indicationBits b pt buf (F2X.map F))

/-- cwprf_mqrpmt.hpp:208-218, 360-370: the filter object of the points, as bytes. -/
def filterBytes (b : BloomEnv) (pt : Pts G P) (g : Nat → Bytes) (stat : Nat) (ps : List P) : Option (Nat × Bytes) := do
  let f ← Bloom.new b.rnd ps.length stat (b.raw ps.length stat)
  let f ← Bloom.insertAll b.h f (ps.map pt.key)
  let buf ← Bloom.writeObject f (g (Bloom.objectSize f))
  return (Bloom.objectSize f, buf)

/-- cwprf_mqrpmt.hpp:169-238 and 319-385 `Client` with `BLOOMFILTER` defined; `F` is multiplication by the key `k2`. -/
def client (net : Net G) (b : BloomEnv) (pt : Pts G P) (H : Block → P) (F : P → P) (pp : PP) (X : List Block) : Proc Unit :=
  if pp.clientLen ≠ X.length then .fail else
  recvPts net pt pp.serverLen fun F1Y => sendPts net pt (X.map fun x => F (H x)) <|
  match filterBytes b pt net.g pp.stat (F1Y.map F) with
  | none => .fail
  | some (size, buf) => sendInt net 8 size <| sendBytes net buf <| .done ()

/-- cwprf_mqrpmt.hpp:145-157 and 295-307: `Server` without `BLOOMFILTER`. -/
def serverShuffle [DecidableEq P] (net : Net G) (pt : Pts G P) (H : Block → P) (F : P → P) (pp : PP) (Y : List Block) : Proc Bytes :=
  if pp.serverLen ≠ Y.length then .fail else
  sendPts net pt (Y.map fun y => F (H y)) <| recvPts net pt pp.clientLen fun F2X =>
  recvPts net pt pp.serverLen fun S =>
  .done ((F2X.map F).map fun p => if p ∈ S then 1 else 0)

/-- cwprf_mqrpmt.hpp:219-229 and 371-376: `Client` without `BLOOMFILTER`; `shuf` is what `std::shuffle` does to the vector. -/
def clientShuffle (net : Net G) (pt : Pts G P) (H : Block → P) (F : P → P) (shuf : List P → List P) (pp : PP) (X : List Block) : Proc Unit :=
  if pp.clientLen ≠ X.length then .fail else
  recvPts net pt pp.serverLen fun F1Y => sendPts net pt (X.map fun x => F (H x)) <|
  sendPts net pt (shuf (F1Y.map F)) <| .done ()

/-- cwprf_mqrpmt.hpp:242-317: the server of the default build. -/
def server25519 (net : Net G) (b : BloomEnv) (mul : Bytes → Bytes → Bytes) (pp : PP) (Y : List Block) : Proc Bytes :=
  if pp.serverLen ≠ Y.length then .fail else
  match fixedKey with
  | none => .fail
  | some k1 => server net b x25519Pts (fun y => (Hash.blockToBytes y).getD []) (mul k1) pp Y

/-- cwprf_mqrpmt.hpp:319-385: the client of the default build. -/
def client25519 (net : Net G) (b : BloomEnv) (mul : Bytes → Bytes → Bytes) (pp : PP) (X : List Block) : Proc Unit :=
  if pp.clientLen ≠ X.length then .fail else
  match fixedKey with
  | none => .fail
  | some k2 => client net b x25519Pts (fun x => (Hash.blockToBytes x).getD []) (mul k2) pp X

end Rpmt

end Kunlun.CwPRF
