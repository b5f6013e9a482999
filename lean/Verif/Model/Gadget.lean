import Verif.Model.Bullet
import Verif.Model.Sigma
/-!
Model of `gadget/range_proof.hpp`: proofs that an encrypted value lies in `[LEFT_BOUND, RIGHT_BOUND)`.

Conventions of `Verif.Model.Sigma` and `Verif.Model.Bullet`: hash, drawn scalars and thread schedule are parameters, `transcript_str` is
returned, `none` is `exit` or undefined behaviour.
-/

namespace Kunlun.Gadget

variable {G : Type} [AddCommGroup G] [DecidableEq G]

/-- range_proof.hpp:24-28 `PP`. -/
structure PP (G : Type) where
  enc : Twisted.PP G
  bullet : Bullet.PP G

/-- range_proof.hpp:30-33 `Instance`. -/
structure Instance (G : Type) where
  pk : G
  ct : CT G

/-- range_proof.hpp:39-42 `Proof_type1`. -/
structure Proof1 (G : Type) where
  ptke : PlaintextKnowledge.Proof G
  bullet : Bullet.Proof G

/-- range_proof.hpp:49-54 `Proof_type2`. -/
structure Proof2 (G : Type) where
  refresh : CT G
  dlogeq : DLOGEquality.Proof G
  ptke : PlaintextKnowledge.Proof G
  bullet : Bullet.Proof G

/-- range_proof.hpp:62-69 `AdjustBulletInstance`; both callers pass two commitments. -/
def adjustInstance (bp : Bullet.PP G) (L R : ℤ) (C0 C1 : G) : List G :=
  [C0 - (L - 0) • bp.h, C1 + (2 ^ bp.rangeLen - R) • bp.h]

/-- range_proof.hpp:72-79 `AdjustBulletWitness`. -/
def adjustWitness (rangeLen : Nat) (L R : ℤ) (v0 v1 : ℤ) : List ℤ := [v0 - (L - 0), v1 + (2 ^ rangeLen - R)]

/-- range_proof.hpp:81-88 `CheckRange`. -/
def checkRange (L R : ℤ) (rangeLen : Nat) : Bool := !(decide (R < L) || decide ((2 : ℤ) ^ rangeLen < R))

/-- range_proof.hpp:99-136 `Prove` for a prover who knows `m` and `r`; `a`, `b` are drawn by `PlaintextKnowledge::Prove`. -/
def prove1 (cv : Curve G) (H : Bytes → ℤ) (pp : PP G) (x : Instance G) (L R r m a b : ℤ) (c : Bullet.Coins) (tr : Bytes) :
    Option (Proof1 G × Bytes) := do
  if checkRange L R pp.bullet.rangeLen = false then none
  let (ptke, tr) := PlaintextKnowledge.prove cv pp.enc H ⟨x.pk, x.ct⟩ m r a b tr
  let (bullet, tr) ← Bullet.prove cv H pp.bullet (adjustInstance pp.bullet L R x.ct.Y x.ct.Y).length [r, r]
    (adjustWitness pp.bullet.rangeLen L R m m) c tr
  return (⟨ptke, bullet⟩, tr)

/-- range_proof.hpp:139-160 `Verify`; `s` is the scalar drawn by `Bullet::FastVerify`. -/
def verify1 (cv : Curve G) (H : Bytes → ℤ) (pp : PP G) (x : Instance G) (L R s : ℤ) (tr : Bytes) (pf : Proof1 G) :
    Option (Bool × Bytes) := do
  let (v1, tr) := PlaintextKnowledge.verify cv pp.enc H ⟨x.pk, x.ct⟩ tr pf.ptke
  let (v2, tr) ← Bullet.fastVerify cv H pp.bullet (adjustInstance pp.bullet L R x.ct.Y x.ct.Y) s tr pf.bullet
  return (v1 && v2, tr)

/-- range_proof.hpp:171-198: the statement of the refreshing proof. -/
def refreshInstance (pp : PP G) (x : Instance G) (refresh : CT G) : DLOGEquality.Instance G :=
  ⟨pp.enc.g, x.pk, refresh.Y - x.ct.Y, refresh.X - x.ct.X⟩

/-- range_proof.hpp:162-218 `Prove` for a prover who knows the secret key. The tables of `env` are those present when `Dec` runs
(lines 171-175 build them if the map is empty). `rStar`, `w`, `a`, `b`: drawn scalars. -/
def prove2 (cv : Curve G) (H : Bytes → ℤ) (pp : PP G) (env : DecEnv G) (sched : List (Nat × Bool)) (x : Instance G)
    (L R sk rStar w a b : ℤ) (c : Bullet.Coins) (tr : Bytes) : Option (Proof2 G × Bytes) := do
  if checkRange L R pp.bullet.rangeLen = false then none
  let refresh := Twisted.reEnc cv pp.enc x.pk sk x.ct rStar
  let m ← Twisted.dec cv env sched sk x.ct
  let (dlogeq, tr) := DLOGEquality.prove cv H (refreshInstance pp x refresh) sk w tr
  let (ptke, tr) := PlaintextKnowledge.prove cv pp.enc H ⟨x.pk, refresh⟩ m rStar a b tr
  let (bullet, tr) ← Bullet.prove cv H pp.bullet (adjustInstance pp.bullet L R refresh.Y refresh.Y).length [rStar, rStar]
    (adjustWitness pp.bullet.rangeLen L R m m) c tr
  return (⟨refresh, dlogeq, ptke, bullet⟩, tr)

/-- range_proof.hpp:221-251 `Verify`. -/
def verify2 (cv : Curve G) (H : Bytes → ℤ) (pp : PP G) (x : Instance G) (L R s : ℤ) (tr : Bytes) (pf : Proof2 G) :
    Option (Bool × Bytes) := do
  let (v1, tr) := DLOGEquality.verify cv H (refreshInstance pp x pf.refresh) tr pf.dlogeq
  let (v2, tr) := PlaintextKnowledge.verify cv pp.enc H ⟨x.pk, pf.refresh⟩ tr pf.ptke
  let (v3, tr) ← Bullet.fastVerify cv H pp.bullet (adjustInstance pp.bullet L R pf.refresh.Y pf.refresh.Y) s tr pf.bullet
  return (v1 && v2 && v3, tr)

end Kunlun.Gadget
