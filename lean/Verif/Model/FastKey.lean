import Verif.Model.AesLemmas
import Verif.Model.Murmur64
/-!
Model of `ECPoint::FastToUint64` (crypto/ec_point.hpp:253-274) on P-256 with the real AES-128. `k` is the global `AES::fixed_enc_key`.
Line 263 and 264 load blocks with the instruction for aligned memory from an array of bytes; here the load always works.
-/

namespace Kunlun.FastKey

open Kunlun Kunlun.AES

/-- ec_point.hpp:262-273 on the buffer: the first sixteen bytes are encrypted in place by `FastECBEnc`, added to the next sixteen, and the first
eight bytes of the sum are copied. -/
def ofBuffer (k : Key) (b : Bytes) : Option (BitVec 64) :=
  let d0 := Block.ofBytes (b.take 16)
  let d1 := Block.ofBytes ((b.drop 16).take 16)
  (fastECBEnc k ⟨true, [d0, d1], [d0, d1]⟩ 1).bind fun r => do
    let e0 ← r.dst[0]?
    let e1 ← r.dst[1]?
    some ((e1 ^^^ e0).extractLsb' 0 64)

/-- ec_point.hpp:254-274 `FastToUint64` -/
def fastToUint64 (k : Key) (P : P256.Pt) : Option (BitVec 64) := ofBuffer k (Murmur64.buffer P)

end Kunlun.FastKey
