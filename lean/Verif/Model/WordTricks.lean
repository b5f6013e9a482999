/-!
Models of `utility/bit_operation.hpp` and of `IsPowerOfTwo` in `utility/routines.hpp`.
-/

namespace Kunlun.Word

/-- bit_operation.hpp:7 `haszero4` (all macros operate on 64-bit unsigned words). -/
def haszero4 (x : BitVec 64) : BitVec 64 := (x - 0x1111#64) &&& (~~~x) &&& 0x8888#64
/-- bit_operation.hpp:8 -/
def hasvalue4 (x : BitVec 64) (n : Nat) : BitVec 64 := haszero4 (x ^^^ (0x1111#64 * BitVec.ofNat 64 n))
/-- bit_operation.hpp:10 -/
def haszero8 (x : BitVec 64) : BitVec 64 := (x - 0x01010101#64) &&& (~~~x) &&& 0x80808080#64
/-- bit_operation.hpp:11 -/
def hasvalue8 (x : BitVec 64) (n : Nat) : BitVec 64 := haszero8 (x ^^^ (0x01010101#64 * BitVec.ofNat 64 n))
/-- bit_operation.hpp:13 -/
def haszero12 (x : BitVec 64) : BitVec 64 := (x - 0x001001001001#64) &&& (~~~x) &&& 0x800800800800#64
/-- bit_operation.hpp:14 -/
def hasvalue12 (x : BitVec 64) (n : Nat) : BitVec 64 := haszero12 (x ^^^ (0x001001001001#64 * BitVec.ofNat 64 n))
/-- bit_operation.hpp:16-17 -/
def haszero16 (x : BitVec 64) : BitVec 64 := (x - 0x0001000100010001#64) &&& (~~~x) &&& 0x8000800080008000#64
/-- bit_operation.hpp:18 -/
def hasvalue16 (x : BitVec 64) (n : Nat) : BitVec 64 := haszero16 (x ^^^ (0x0001000100010001#64 * BitVec.ofNat 64 n))

/-- bit_operation.hpp:20-29 `upperpower2`, on 32-bit unsigned words. -/
def upperpower2 (x : BitVec 32) : BitVec 32 :=
  let x := x - 1#32
  let x := x ||| (x >>> 1)
  let x := x ||| (x >>> 2)
  let x := x ||| (x >>> 4)
  let x := x ||| (x >>> 8)
  let x := x ||| (x >>> 16)
  x + 1#32

/-- routines.hpp:40-43 `IsPowerOfTwo` on `size_t`. -/
def isPowerOfTwo (x : BitVec 64) : Bool := (x != 0#64) && ((x &&& (x - 1#64)) == 0#64)

end Kunlun.Word
