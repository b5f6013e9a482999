import Verif.Model.BigInt
/-!
Model of `utility/serialization.hpp` together with the stream operators of `BigInt` (crypto/bigint.hpp:628-660) and `ECPoint`
(crypto/ec_point.hpp:277-330), Linux build, uncompressed points.

An output file stream is the list of bytes written so far.  An input stream is the list of bytes not yet read together with the
failure flag that a short read sets (after which `read` does nothing).
-/

namespace Kunlun.Ser

open Kunlun

/-- State of a `std::ifstream`. -/
structure IStream where
  rest : Bytes
  fail : Bool
deriving DecidableEq, Repr

/-- `std::istream::read` into an object whose bytes are `old`: a short read stores what there is and sets the failure flag. -/
def readInto (s : IStream) (old : Bytes) : Bytes × IStream :=
  if s.fail then (old, s)
  else if s.rest.length < old.length then (s.rest ++ old.drop s.rest.length, ⟨[], true⟩)
  else (s.rest.take old.length, ⟨s.rest.drop old.length, false⟩)

/-- The elliptic-curve library calls used for points: `point2oct` (uncompressed, the encoding of infinity has one byte) and
`oct2point`, which leaves the point unchanged when it fails. -/
structure PointCodec (G : Type) where
  byteLen : Nat
  enc : G → Bytes
  dec : Bytes → Option G
  /-- the distinguished point at infinity -/
  inf : G
  enc_len : ∀ p, p ≠ inf → (enc p).length = byteLen
  dec_enc : ∀ p, p ≠ inf → dec (enc p) = some p
  enc_inf : enc inf = [0]
  byteLen_pos : 1 < byteLen
  /-- a longer string starting with 0 is not a valid encoding -/
  dec_zero : ∀ t, (0 :: t).length = byteLen → dec (0 :: t) = none

/-- Typed objects that the code streams. -/
inductive Val (G : Type) where
  /-- `size_t`, serialization.hpp:16-26 -/
  | size (v : Nat)
  /-- any POD object given by its object representation, serialization.hpp:29-41 -/
  | pod (b : Bytes)
  /-- `std::vector` of POD elements, each given by its object representation, serialization.hpp:44-56 -/
  | podVec (es : List Bytes)
  /-- `std::string`, serialization.hpp:58-75 -/
  | str (b : Bytes)
  /-- `BigInt`, bigint.hpp:628-642 -/
  | big (v : Int)
  /-- `std::vector<BigInt>`, bigint.hpp:644-658 -/
  | bigVec (vs : List Int)
  /-- `ECPoint`, ec_point.hpp:277-307 -/
  | point (p : G)
  /-- `std::vector<ECPoint>`, ec_point.hpp:315-330 -/
  | pointVec (ps : List G)

variable {G : Type}

/-- ec_point.hpp:277-291: `POINT_BYTE_LEN` bytes of a local array whose previous content is `garbage`. -/
def putPoint (C : PointCodec G) (garbage : Bytes) (p : G) : Bytes := C.enc p ++ garbage.drop (C.enc p).length

/-- `operator<<`: the bytes appended to the file. `bnLen` is `BN_BYTE_LEN`; `g` is the content of the uninitialised local buffers. -/
def put (C : PointCodec G) (bnLen : Nat) (g : Nat → Bytes) : Val G → Bytes
  | .size v => leBytes 8 v
  | .pod b => b
  | .podVec es => es.flatten
  | .str b => leBytes 8 b.length ++ b
  | .big v => BigInt.put (g bnLen) v
  | .bigVec vs => (vs.map (BigInt.put (g bnLen))).flatten
  | .point p => putPoint C (g C.byteLen) p
  | .pointVec ps => (ps.map (putPoint C (g C.byteLen))).flatten

/-- Cut a byte string into pieces of the lengths of the given elements (memory layout of a vector of PODs). -/
def cutLike : List Bytes → Bytes → List Bytes
  | [], _ => []
  | e :: es, b => b.take e.length :: cutLike es (b.drop e.length)

/-- bigint.hpp:636-642: read into an uninitialised buffer, then convert. -/
def getBig (g : Nat → Bytes) (bnLen : Nat) (s : IStream) : Int × IStream :=
  let (b, s) := readInto s (g bnLen)
  (BigInt.get b, s)

/-- ec_point.hpp:293-307 -/
def getPoint (C : PointCodec G) (g : Nat → Bytes) (old : G) (s : IStream) : G × IStream :=
  let (b, s) := readInto s (g C.byteLen)
  ((C.dec b).getD old, s)

/-- bigint.hpp:652-658: one element after the other. -/
def getBigs (g : Nat → Bytes) (bnLen : Nat) : List Int → IStream → List Int × IStream
  | [], s => ([], s)
  | _ :: vs, s =>
    let (v, s) := getBig g bnLen s
    let (vs, s) := getBigs g bnLen vs s
    (v :: vs, s)

/-- ec_point.hpp:323-329 -/
def getPoints (C : PointCodec G) (g : Nat → Bytes) : List G → IStream → List G × IStream
  | [], s => ([], s)
  | p :: ps, s =>
    let (p, s) := getPoint C g p s
    let (ps, s) := getPoints C g ps s
    (p :: ps, s)

/-- `operator>>` into an existing object. -/
def get (C : PointCodec G) (bnLen : Nat) (g : Nat → Bytes) : Val G → IStream → Val G × IStream
  | .size v, s =>
    let (b, s) := readInto s (leBytes 8 v)
    (.size (ofLE b), s)
  | .pod old, s =>
    let (b, s) := readInto s old
    (.pod b, s)
  | .podVec es, s =>
    let (b, s) := readInto s es.flatten
    (.podVec (cutLike es b), s)
  | .str old, s =>
    let (b, s) := readInto s (g 8)
    let len := ofLE b
    let (b, s) := readInto s (old.take len ++ List.replicate (len - old.length) 0)
    (.str b, s)
  | .big _, s =>
    let (v, s) := getBig g bnLen s
    (.big v, s)
  | .bigVec vs, s =>
    let (vs, s) := getBigs g bnLen vs s
    (.bigVec vs, s)
  | .point p, s =>
    let (p, s) := getPoint C g p s
    (.point p, s)
  | .pointVec ps, s =>
    let (ps, s) := getPoints C g ps s
    (.pointVec ps, s)

/-- A sequence of `<<`. -/
def putAll (C : PointCodec G) (bnLen : Nat) (g : Nat → Bytes) (vs : List (Val G)) : Bytes := (vs.map (put C bnLen g)).flatten

/-- A sequence of `>>`. -/
def getAll (C : PointCodec G) (bnLen : Nat) (g : Nat → Bytes) : List (Val G) → IStream → List (Val G) × IStream
  | [], s => ([], s)
  | d :: ds, s =>
    let (v, s) := get C bnLen g d s
    let (vs, s) := getAll C bnLen g ds s
    (v :: vs, s)

end Kunlun.Ser
