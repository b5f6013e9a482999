import Verif.Model.BloomLemmas
import Verif.Model.Murmur64
/-!
Model of the overloads of `Insert` and `Contain` of `filter/bloom_filter.hpp` for single objects and containers (lines 132-335), on top of
`PlainInsert` and `PlainContain`.
-/

namespace Kunlun.Bloom

open Kunlun

/-- What can be given to `Insert` and `Contain`. -/
inductive Elem where
  /-- an object without pointers, by its bytes (bloom_filter.hpp:132-136, 224-228) -/
  | pod (b : Bytes)
  /-- `std::string` (142-145, 230-233) -/
  | str (b : Bytes)
  /-- `ECPoint` (154-168, 239-253) -/
  | point (P : P256.Pt)
  /-- `EC25519Point` (296-299, 318-321) by its member `px` -/
  | x25519 (px : Bytes)

/-- The bytes handed to `PlainInsert` and `PlainContain`. A point is written over zeros: 33 bytes with `ECPOINT_COMPRESSED`, else 65. -/
def Elem.key (compressed : Bool) : Elem → Bytes
  | .pod b => b
  | .str b => b
  | .point P => if compressed then Murmur64.buffer P else P256.enc P ++ List.replicate (65 - (P256.enc P).length) 0
  | .x25519 px => px.take 32

/-- bloom_filter.hpp:263-266, 281-284, 333-336: the iteration for element `i`, in which the loop of `PlainContain` runs in the order `sched`. -/
def containAt (H : UInt32 → Bytes → UInt32) (f : Filter) (keys : List Bytes) (out : Bytes) (p : Nat × List (Nat × Bool)) : Option Bytes := do
  let k ← keys[p.1]?
  let b ← containSched H f k p.2
  if p.1 < out.length then pure (out.set p.1 (if b = true then 1 else 0)) else none

/-- bloom_filter.hpp:258-269, 275-287, 327-339: `Contain` of a container. `order` is the order in which the threads execute the iterations (each
writes a cell of its own). -/
def containMany (H : UInt32 → Bytes → UInt32) (f : Filter) (keys : List Bytes) (order : List (Nat × List (Nat × Bool))) : Option Bytes :=
  order.foldlM (containAt H f keys) (List.replicate keys.length 0)

end Kunlun.Bloom
