import Verif.Model.EncRelation
/-!
Model of `signature/accountable_ring_sig.hpp`.
-/

namespace Kunlun.RingSig

open Kunlun

variable {G : Type} [AddCommGroup G] [DecidableEq G]

/-- accountable_ring_sig.hpp:16-21 `PP`. -/
structure PP (G : Type) where
  com : Pedersen.PP G
  enc : Twisted.PP G
  ek : G

/-- accountable_ring_sig.hpp:36-41 `Signature`. -/
structure Signature (G : Type) where
  proof : EncRelation.Proof G
  zs : ℤ
  zt : ℤ
  ctVk : CT G
  ctS : CT G

/-- accountable_ring_sig.hpp:44-57 `Setup` with drawn points and drawn opening key. -/
def setup (cv : Curve G) (points : List G) (enc : Twisted.PP G) (nMax : Nat) (dk : ℤ) : PP G × ℤ :=
  (⟨Pedersen.setup cv points nMax, enc, Twisted.keyGen enc dk⟩, dk)

/-- accountable_ring_sig.hpp:59-64 `KeyGen` (the verification key). -/
def keyGen (pp : PP G) (sk : ℤ) : G := sk • pp.enc.g

/-- accountable_ring_sig.hpp:73-79 / 174-180: the position of `vk`, `N` if absent. -/
def position (ring : List G) (vk : G) : Nat := ring.findIdx fun R => decide (R = vk)

/-- accountable_ring_sig.hpp:90-94 / 125-129: the ciphertexts of the statement. -/
def statement (pp : PP G) (ring : List G) (ctVk : CT G) : EncRelation.Instance G :=
  ⟨ring.map fun R => ctVk.sub (Twisted.encPoint pp.enc pp.ek R 0), pp.ek⟩

/-- The random values drawn by `Sign`. -/
structure Rand where
  r : ℤ
  t : ℤ
  s : ℤ
  rel : EncRelation.Rand

/-- accountable_ring_sig.hpp:67-117 `Sign`. The position check only prints. -/
def sign (cv : Curve G) (flog : Nat → Nat → Nat) (H : Bytes → ℤ) (pp : PP G) (sk : ℤ) (ring : List G) (msg : Bytes) (rnd : Rand) :
    Option (Signature G) := do
  let vk := sk • pp.enc.g
  let l := position ring vk
  let ctVk := Twisted.encPoint pp.enc pp.ek vk rnd.r
  let ctS := Twisted.encPoint pp.enc pp.ek (rnd.s • pp.enc.g) rnd.t
  let (pf, tr) ← EncRelation.prove cv flog ⟨pp.com, pp.enc, 2⟩ H (statement pp ring ctVk) l rnd.r rnd.rel msg
  let x := H tr
  return ⟨pf, BigInt.mod (sk * x + rnd.s) cv.order, BigInt.mod (rnd.r * x + rnd.t) cv.order, ctVk, ctS⟩

/-- accountable_ring_sig.hpp:121-167 `Verify`. -/
def verify (cv : Curve G) (flog : Nat → Nat → Nat) (H : Bytes → ℤ) (pp : PP G) (ring : List G) (msg : Bytes) (sig : Signature G) :
    Option Bool := do
  let (c0, tr) ← EncRelation.verify cv flog ⟨pp.com, pp.enc, 2⟩ H (statement pp ring sig.ctVk) msg sig.proof
  let x := H tr
  let left := (sig.ctVk.scale x).add sig.ctS
  let right := Twisted.encPoint pp.enc pp.ek (sig.zs • pp.enc.g) sig.zt
  let c1 := decide (left = right)
  return c0 && c1

/-- accountable_ring_sig.hpp:184-188 / 209-213: the statement of the opening proof. -/
def openInstance (pp : PP G) (sig : Signature G) (vk : G) : DLOGEquality.Instance G :=
  ⟨pp.enc.g, pp.ek, sig.ctVk.Y - vk, sig.ctVk.X⟩

/-- accountable_ring_sig.hpp:169-200 `Open` with drawn `a`. A key outside the ring is only reported on the terminal. -/
def «open» (cv : Curve G) (H : Bytes → ℤ) (pp : PP G) (dk : ℤ) (sig : Signature G) (a : ℤ) : G × DLOGEquality.Proof G :=
  let vk := Twisted.decPoint cv dk sig.ctVk
  (vk, (DLOGEquality.prove cv H (openInstance pp sig vk) dk a []).1)

/-- accountable_ring_sig.hpp:203-226 `Justify`; the ring is not used. -/
def justify (cv : Curve G) (H : Bytes → ℤ) (pp : PP G) (sig : Signature G) (vk : G) (pf : DLOGEquality.Proof G) : Bool :=
  (DLOGEquality.verify cv H (openInstance pp sig vk) [] pf).1

end Kunlun.RingSig
