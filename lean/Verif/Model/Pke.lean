import Verif.Model.Dlog
import Verif.Model.Prg
/-!
Models of `pke/elgamal.hpp` (both variants), `pke/exponential_elgamal.hpp`, `pke/twisted_exponential_elgamal.hpp`.

Randomness drawn inside a function (`GenRandomBigIntLessThan(order)`) is an explicit argument.
-/

namespace Kunlun

/-- elgamal.hpp:30-34, exponential_elgamal.hpp:21-25, twisted_exponential_elgamal.hpp:21-25 `CT`. -/
structure CT (G : Type) where
  X : G
  Y : G
  deriving DecidableEq

variable {G : Type} [AddCommGroup G] [DecidableEq G]

namespace ElGamal

/-- elgamal.hpp:98-110 `KeyGen`: the public key for secret `sk`. -/
def keyGen (g : G) (sk : ℤ) : G := sk • g
/-- elgamal.hpp:114-146 `Enc` (both overloads). -/
def enc (g pk m : G) (r : ℤ) : CT G := ⟨r • g, r • pk + m⟩
/-- elgamal.hpp:152-167 `ReRand`. -/
def reRand (g pk : G) (ct : CT G) (r : ℤ) : CT G := ⟨ct.X + r • g, ct.Y + r • pk⟩
/-- elgamal.hpp:170-173 `Dec`. -/
def dec (sk : ℤ) (ct : CT G) : G := ct.Y - sk • ct.X

end ElGamal

namespace ElGamal25519

/-! elgamal.hpp:209-339, the variant selected by `ENABLE_X25519_ACCELERATION` (the default configuration). A point is its 32-byte
x-coordinate; `mul s p` is `x25519_scalar_mulx`. -/

/-- ec_25519.hpp:90-98 `XOR`. -/
def xor32 (a b : Bytes) : Bytes := List.zipWith (· ^^^ ·) a b

/-- elgamal.hpp:217-221 `CT`. -/
structure CT where
  X : Bytes
  Y : Bytes

/-- elgamal.hpp:319-332 `Enc` with explicit randomness. -/
def enc (mul : Bytes → Bytes → Bytes) (g pk m r : Bytes) : CT := ⟨mul r g, xor32 (mul r pk) m⟩
/-- elgamal.hpp:335-338 `Dec`. -/
def dec (mul : Bytes → Bytes → Bytes) (sk : Bytes) (ct : CT) : Bytes := xor32 ct.Y (mul sk ct.X)

/-- The 32 bytes drawn from a generator freshly seeded with the constant `fixed_seed` (lines 267-268, 283-284, 303-304).
`temp` is the uninitialised scratch array of the generator. -/
def fixedBytes (temp : List Block) (fixedSeed : Block) : Option Bytes :=
  (PRG.genRandomBytes temp (PRG.setSeed fixedSeed 0) 32).map Prod.fst

/-- elgamal.hpp:263-276 `Setup`. -/
def setup (temp : List Block) (fixedSeed : Block) : Option Bytes := fixedBytes temp fixedSeed
/-- elgamal.hpp:280-294 `KeyGen`: (public, secret). -/
def keyGen (mul : Bytes → Bytes → Bytes) (temp : List Block) (fixedSeed : Block) (g : Bytes) : Option (Bytes × Bytes) :=
  (fixedBytes temp fixedSeed).map fun sk => (mul sk g, sk)
/-- elgamal.hpp:298-316 `Enc` drawing its own randomness. -/
def encRnd (mul : Bytes → Bytes → Bytes) (temp : List Block) (fixedSeed : Block) (g pk m : Bytes) : Option CT :=
  (fixedBytes temp fixedSeed).map fun r => enc mul g pk m r

end ElGamal25519

/-! ### Homomorphic operations, the same code in both exponential schemes -/

/-- exponential_elgamal.hpp:291-297, twisted_exponential_elgamal.hpp:317-323 `HomoAdd`. -/
def CT.add (a b : CT G) : CT G := ⟨a.X + b.X, a.Y + b.Y⟩
/-- exponential_elgamal.hpp:300-306, twisted_exponential_elgamal.hpp:326-332 `HomoSub`. -/
def CT.sub (a b : CT G) : CT G := ⟨a.X - b.X, a.Y - b.Y⟩
/-- exponential_elgamal.hpp:309-315, twisted_exponential_elgamal.hpp:335-341 `ScalarMul`. -/
def CT.scale (a : CT G) (k : ℤ) : CT G := ⟨k • a.X, k • a.Y⟩

/-- The public parameters used by `Dec`, with the process state of the discrete-logarithm tables. -/
structure DecEnv (G : Type) where
  gl : Dlog.Globals G
  key : G → BitVec 64
  msgLen : Nat
  tradeoff : Nat

/-- The tail of both `Dec` functions: search, and `exit` (here `none`) if the logarithm is not in range. `sched` is the thread
schedule; an unfinished schedule is also `none`. The fresh `BigInt m` is zero. -/
def DecEnv.search (env : DecEnv G) (sched : List (Nat × Bool)) (M : G) : Option ℤ :=
  match Dlog.shanks env.gl env.key M env.msgLen env.tradeoff 0 sched with
  | some (true, x) => some x
  | _ => none

namespace ExpElGamal

/-- exponential_elgamal.hpp:173-185 `KeyGen`. -/
def keyGen (g : G) (sk : ℤ) : G := sk • g
/-- exponential_elgamal.hpp:189-227 `Enc` (both overloads). -/
def enc (g pk : G) (m r : ℤ) : CT G := ⟨r • g, msm [pk, g] [r, m]⟩
/-- exponential_elgamal.hpp:234: the group element handed to the discrete-logarithm search. -/
def decPoint (sk : ℤ) (ct : CT G) : G := ct.Y - sk • ct.X
/-- exponential_elgamal.hpp:230-243 `Dec`. -/
def dec (env : DecEnv G) (sched : List (Nat × Bool)) (sk : ℤ) (ct : CT G) : Option ℤ := env.search sched (decPoint sk ct)
/-- exponential_elgamal.hpp:250-266 `ReEnc`. -/
def reEnc (g pk : G) (sk : ℤ) (ct : CT G) (r : ℤ) : CT G :=
  let M := ct.Y - sk • ct.X
  ⟨r • g, r • pk + M⟩
/-- exponential_elgamal.hpp:272-287 `ReRand`. -/
def reRand (g pk : G) (ct : CT G) (r : ℤ) : CT G := ⟨ct.X + r • g, ct.Y + r • pk⟩
/-- exponential_elgamal.hpp:325-340 multi-recipient `Enc`: (`X`, `vec_Y`). -/
def encMulti (g : G) (pks : List G) (m r : ℤ) : G × List G :=
  let M := m • g
  (r • g, pks.map fun pk => r • pk + M)

end ExpElGamal

namespace Twisted

/-- twisted_exponential_elgamal.hpp:12-18: the two bases. -/
structure PP (G : Type) where
  g : G
  h : G

/-- twisted_exponential_elgamal.hpp:29-33 `MRCT`. -/
structure MRCT (G : Type) where
  vecX : List G
  Y : G
  deriving DecidableEq

/-- twisted_exponential_elgamal.hpp:179-191 `KeyGen`. -/
def keyGen (pp : PP G) (sk : ℤ) : G := sk • pp.g
/-- twisted_exponential_elgamal.hpp:195-234 `Enc` (both overloads). -/
def enc (pp : PP G) (pk : G) (m r : ℤ) : CT G := ⟨r • pk, msm [pp.g, pp.h] [r, m]⟩
/-- twisted_exponential_elgamal.hpp:255-262 `Enc` of a group element. -/
def encPoint (pp : PP G) (pk m : G) (r : ℤ) : CT G := ⟨r • pk, r • pp.g + m⟩
/-- twisted_exponential_elgamal.hpp:266-269 `DecECPoint`, and line 242. -/
def decPoint (cv : Curve G) (sk : ℤ) (ct : CT G) : G := ct.Y - BigInt.modInverse sk cv.order • ct.X
/-- twisted_exponential_elgamal.hpp:238-251 `Dec`. -/
def dec (cv : Curve G) (env : DecEnv G) (sched : List (Nat × Bool)) (sk : ℤ) (ct : CT G) : Option ℤ :=
  env.search sched (decPoint cv sk ct)
/-- twisted_exponential_elgamal.hpp:276-292 `ReEnc`. -/
def reEnc (cv : Curve G) (pp : PP G) (pk : G) (sk : ℤ) (ct : CT G) (r : ℤ) : CT G :=
  let M := ct.Y - BigInt.modInverse sk cv.order • ct.X
  ⟨r • pk, r • pp.g + M⟩
/-- twisted_exponential_elgamal.hpp:298-313 `ReRand`. -/
def reRand (pp : PP G) (pk : G) (ct : CT G) (r : ℤ) : CT G := ⟨ct.X + r • pk, ct.Y + r • pp.g⟩
/-- twisted_exponential_elgamal.hpp:351-367 multi-recipient `Enc`. -/
def encMulti (pp : PP G) (pks : List G) (m r : ℤ) : MRCT G := ⟨pks.map fun pk => r • pk, r • pp.g + m • pp.h⟩

end Twisted

end Kunlun
