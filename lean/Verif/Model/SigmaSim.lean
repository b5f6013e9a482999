import Verif.Model.BulletSim
import Verif.Model.Oracle
import Verif.Props.FiatShamir
/-!
Simulators for the proofs of plaintext equality, plaintext knowledge and discrete-log equality, and the range proof, as sums over everything
that is drawn: the proofs of the code, summed over the scalars of the prover, are the simulated proofs, summed over challenges and answers,
restricted to challenges that the hash gives.
-/

namespace Kunlun

open Finset Bullet Oracle

variable {G V : Type} [AddCommGroup G] [DecidableEq G] [Fintype V] [DecidableEq V]

omit [DecidableEq G] in
theorem Curve.ofF_smul (cv : Curve G) (a : ZMod cv.order) (P : G) :
    haveI := cv.fact
    letI := cv.toModule
    ofF cv a • P = a • P := by
  haveI := cv.fact
  letI := cv.toModule
  rw [cv.cast_smul, cast_ofF]

theorem Curve.mod_ofF (cv : Curve G) (a : ZMod cv.order) (e w : ℤ) :
    BigInt.mod (ofF cv a + e * w) cv.order = ofF cv (a + (e : ZMod cv.order) * w) := by
  refine canon_eq_one cv (cv.mod_range _) (ofF_range cv _) ?_
  rw [cv.cast_mod, cast_ofF]
  push_cast
  rw [cast_ofF]

/-- The simulated proof of plaintext equality for challenge `e` and answers `z`, `t`. -/
def simEq (pp : Twisted.PP G) (x : PlaintextEquality.Instance G) (e z t : ℤ) : PlaintextEquality.Proof G :=
  ⟨List.zipWith (fun pk X => z • pk - e • X) x.vecPk x.ct.vecX, z • pp.g + t • pp.h - e • x.ct.Y, z, t⟩

/-- What is hashed for a proof of plaintext equality. -/
def eqPoint (cv : Curve G) (x : PlaintextEquality.Instance G) (tr : Bytes) (pf : PlaintextEquality.Proof G) : Bytes :=
  tr ++ (x.vecPk.map cv.toBytes).flatten ++ (x.ct.vecX.map cv.toBytes).flatten ++ cv.toBytes x.ct.Y ++ (pf.vecA.map cv.toBytes).flatten ++
    cv.toBytes pf.B

/-- The simulated proof of plaintext knowledge. -/
def simKn (pp : Twisted.PP G) (x : PlaintextKnowledge.Instance G) (e z1 z2 : ℤ) : PlaintextKnowledge.Proof G :=
  ⟨z1 • x.pk - e • x.ct.X, z1 • pp.g + z2 • pp.h - e • x.ct.Y, z1, z2⟩

/-- What is hashed for a proof of plaintext knowledge. -/
def knPoint (cv : Curve G) (x : PlaintextKnowledge.Instance G) (tr : Bytes) (pf : PlaintextKnowledge.Proof G) : Bytes :=
  tr ++ (cv.toBytes x.pk ++ cv.toBytes x.ct.X ++ cv.toBytes x.ct.Y) ++ (cv.toBytes pf.A ++ cv.toBytes pf.B)

/-- The simulated proof of discrete-log equality. -/
def simDl (x : DLOGEquality.Instance G) (e z : ℤ) : DLOGEquality.Proof G := ⟨z • x.g1 - e • x.h1, z • x.g2 - e • x.h2, z⟩

/-- What is hashed for a proof of discrete-log equality. -/
def dlPoint (cv : Curve G) (x : DLOGEquality.Instance G) (tr : Bytes) (pf : DLOGEquality.Proof G) : Bytes :=
  DLOGEquality.initTranscript cv x tr ++ (cv.toBytes pf.A1 ++ cv.toBytes pf.A2)

/-- Adding a constant. -/
def addEquiv {F : Type} [AddCommGroup F] (c d : F) : F × F ≃ F × F where
  toFun p := (p.1 + c, p.2 + d)
  invFun p := (p.1 - c, p.2 - d)
  left_inv p := by simp
  right_inv p := by simp

theorem sum_dl (cv : Curve G) [Fintype (ZMod cv.order)] (O : Bytes → V) (val : V → ℤ) (x : DLOGEquality.Instance G) (w : ℤ) (h1 : x.h1 = w • x.g1) (h2 : x.h2 = w • x.g2)
    (tr : Bytes) (g : DLOGEquality.Proof G → ℝ) :
    ∑ a : ZMod cv.order, g (DLOGEquality.prove cv (fun b => val (O b)) x w (ofF cv a) tr).1 =
      ∑ e, ∑ z : ZMod cv.order, if O (dlPoint cv x tr (simDl x (val e) (ofF cv z))) = e then g (simDl x (val e) (ofF cv z)) else 0 := by
  haveI := cv.fact
  letI := cv.toModule
  have := sum_read O (fun a : ZMod cv.order => DLOGEquality.initTranscript cv x tr ++ (cv.toBytes (ofF cv a • x.g1) ++ cv.toBytes (ofF cv a • x.g2)))
    (fun a e => g ⟨ofF cv a • x.g1, ofF cv a • x.g2, BigInt.mod (ofF cv a + val e * w) cv.order⟩)
  refine Eq.trans this (sum_congr rfl fun e _ => ?_)
  conv_rhs => rw [← Equiv.sum_comp (Equiv.addRight ((val e : ZMod cv.order) * w))]
  refine sum_congr rfl fun a _ => ?_
  have key : simDl x (val e) (ofF cv (a + (val e : ZMod cv.order) * w)) =
      ⟨ofF cv a • x.g1, ofF cv a • x.g2, BigInt.mod (ofF cv a + val e * w) cv.order⟩ := by
    rw [simDl, cv.mod_ofF, h1, h2]
    simp only [cv.ofF_smul, cv.cast_smul, DLOGEquality.Proof.mk.injEq, and_true]
    constructor <;> module
  simp only [Equiv.coe_addRight, key]
  rfl

theorem sum_kn (cv : Curve G) [Fintype (ZMod cv.order)] (O : Bytes → V) (val : V → ℤ) (pp : Twisted.PP G) (pk : G) (v r : ℤ) (tr : Bytes)
    (g : PlaintextKnowledge.Proof G × Bytes → ℝ) :
    let x : PlaintextKnowledge.Instance G := ⟨pk, Twisted.enc pp pk v r⟩
    ∑ a : ZMod cv.order × ZMod cv.order, g (PlaintextKnowledge.prove cv pp (fun b => val (O b)) x v r (ofF cv a.1) (ofF cv a.2) tr) =
      ∑ e, ∑ z : ZMod cv.order × ZMod cv.order,
        if O (knPoint cv x tr (simKn pp x (val e) (ofF cv z.1) (ofF cv z.2))) = e then
          g (simKn pp x (val e) (ofF cv z.1) (ofF cv z.2), knPoint cv x tr (simKn pp x (val e) (ofF cv z.1) (ofF cv z.2))) else 0 := by
  intro x
  haveI := cv.fact
  letI := cv.toModule
  have := sum_read O (fun a : ZMod cv.order × ZMod cv.order => tr ++ (cv.toBytes x.pk ++ cv.toBytes x.ct.X ++ cv.toBytes x.ct.Y) ++
      (cv.toBytes (ofF cv a.1 • x.pk) ++ cv.toBytes (msm [pp.g, pp.h] [ofF cv a.1, ofF cv a.2])))
    (fun a e => g (⟨ofF cv a.1 • x.pk, msm [pp.g, pp.h] [ofF cv a.1, ofF cv a.2], BigInt.mod (ofF cv a.1 + val e * r) cv.order,
      BigInt.mod (ofF cv a.2 + val e * v) cv.order⟩, tr ++ (cv.toBytes x.pk ++ cv.toBytes x.ct.X ++ cv.toBytes x.ct.Y) ++
      (cv.toBytes (ofF cv a.1 • x.pk) ++ cv.toBytes (msm [pp.g, pp.h] [ofF cv a.1, ofF cv a.2]))))
  refine Eq.trans this (sum_congr rfl fun e _ => ?_)
  conv_rhs => rw [← Equiv.sum_comp (addEquiv ((val e : ZMod cv.order) * r) ((val e : ZMod cv.order) * v))]
  refine sum_congr rfl fun a _ => ?_
  have key : simKn pp x (val e) (ofF cv (a.1 + (val e : ZMod cv.order) * r)) (ofF cv (a.2 + (val e : ZMod cv.order) * v)) =
      ⟨ofF cv a.1 • x.pk, msm [pp.g, pp.h] [ofF cv a.1, ofF cv a.2], BigInt.mod (ofF cv a.1 + val e * r) cv.order,
        BigInt.mod (ofF cv a.2 + val e * v) cv.order⟩ := by
    rw [simKn, cv.mod_ofF, cv.mod_ofF]
    simp only [x, Twisted.enc, msm_two, cv.ofF_smul, cv.cast_smul, PlaintextKnowledge.Proof.mk.injEq, and_true]
    constructor <;> module
  simp only [addEquiv, Equiv.coe_fn_mk, key]
  rfl

theorem sum_eq (cv : Curve G) [Fintype (ZMod cv.order)] (O : Bytes → V) (val : V → ℤ) (pp : Twisted.PP G) (pks : List G) (v r : ℤ) (tr : Bytes)
    (g : Option (PlaintextEquality.Proof G × Bytes) → ℝ) :
    let x : PlaintextEquality.Instance G := ⟨pks, Twisted.encMulti pp pks v r⟩
    ∑ a : ZMod cv.order × ZMod cv.order, g (PlaintextEquality.prove cv pp (fun b => val (O b)) x v r (ofF cv a.1) (ofF cv a.2) tr) =
      ∑ e, ∑ z : ZMod cv.order × ZMod cv.order,
        if O (eqPoint cv x tr (simEq pp x (val e) (ofF cv z.1) (ofF cv z.2))) = e then
          g (some (simEq pp x (val e) (ofF cv z.1) (ofF cv z.2), eqPoint cv x tr (simEq pp x (val e) (ofF cv z.1) (ofF cv z.2)))) else 0 := by
  intro x
  haveI := cv.fact
  letI := cv.toModule
  have hX : x.ct.vecX.length = pks.length := by simp [x, Twisted.encMulti]
  have hp : ∀ a b : ℤ, PlaintextEquality.prove cv pp (fun b => val (O b)) x v r a b tr =
      some (⟨pks.map fun pk => a • pk, a • pp.g + b • pp.h,
        BigInt.mod (a + val (O (eqPoint cv x tr ⟨pks.map fun pk => a • pk, a • pp.g + b • pp.h, 0, 0⟩)) * r) cv.order,
        BigInt.mod (b + val (O (eqPoint cv x tr ⟨pks.map fun pk => a • pk, a • pp.g + b • pp.h, 0, 0⟩)) * v) cv.order⟩,
        eqPoint cv x tr ⟨pks.map fun pk => a • pk, a • pp.g + b • pp.h, 0, 0⟩) := by
    intro a b
    have hA : (pks.map fun pk => a • pk).length = pks.length := by simp
    simp only [PlaintextEquality.prove, PlaintextEquality.initTranscript, x, PlaintextEquality.addPoints_full cv pks _ _ rfl,
      PlaintextEquality.addPoints_full cv _ _ _ hX, PlaintextEquality.addPoints_full cv _ _ _ hA,
      Option.bind_eq_bind, Option.bind_some, Option.pure_def, msm_two, eqPoint]
  simp only [hp]
  have := sum_read O (fun a : ZMod cv.order × ZMod cv.order => eqPoint cv x tr ⟨pks.map fun pk => ofF cv a.1 • pk, ofF cv a.1 • pp.g + ofF cv a.2 • pp.h, 0, 0⟩)
    (fun a e => g (some (⟨pks.map fun pk => ofF cv a.1 • pk, ofF cv a.1 • pp.g + ofF cv a.2 • pp.h, BigInt.mod (ofF cv a.1 + val e * r) cv.order,
      BigInt.mod (ofF cv a.2 + val e * v) cv.order⟩, eqPoint cv x tr ⟨pks.map fun pk => ofF cv a.1 • pk, ofF cv a.1 • pp.g + ofF cv a.2 • pp.h, 0, 0⟩)))
  refine Eq.trans this (sum_congr rfl fun e _ => ?_)
  conv_rhs => rw [← Equiv.sum_comp (addEquiv ((val e : ZMod cv.order) * r) ((val e : ZMod cv.order) * v))]
  refine sum_congr rfl fun a _ => ?_
  have key : simEq pp x (val e) (ofF cv (a.1 + (val e : ZMod cv.order) * r)) (ofF cv (a.2 + (val e : ZMod cv.order) * v)) =
      ⟨pks.map fun pk => ofF cv a.1 • pk, ofF cv a.1 • pp.g + ofF cv a.2 • pp.h, BigInt.mod (ofF cv a.1 + val e * r) cv.order,
      BigInt.mod (ofF cv a.2 + val e * v) cv.order⟩ := by
    rw [simEq, cv.mod_ofF, cv.mod_ofF]
    simp only [x, Twisted.encMulti, List.zipWith_map_right, List.zipWith_self, msm_two, cv.ofF_smul, cv.cast_smul,
      PlaintextEquality.Proof.mk.injEq, and_true]
    refine ⟨List.map_congr_left fun pk _ => ?_, ?_⟩ <;> module
  simp only [addEquiv, Equiv.coe_fn_mk, key]
  rfl

namespace Bullet

/-- Four scalars and two vectors of scalars: what the prover or the simulator draws. -/
abbrev Shape (q len : ℕ) : Type := ZMod q × ZMod q × ZMod q × ZMod q × (Fin len → ZMod q) × (Fin len → ZMod q)

variable (cv : Curve G)

/-- As scalars of the prover. -/
def coinsOf {len : ℕ} (c : Shape cv.order len) : Coins :=
  ⟨ofF cv c.1, List.ofFn fun i => ofF cv (c.2.2.2.2.1 i), List.ofFn fun i => ofF cv (c.2.2.2.2.2 i), ofF cv c.2.1, ofF cv c.2.2.1, ofF cv c.2.2.2.1⟩

/-- As scalars of the simulator. -/
def simOf {len : ℕ} (c : Shape cv.order len) : SimCoins :=
  ⟨ofF cv c.1, ofF cv c.2.1, ofF cv c.2.2.1, ofF cv c.2.2.2.1, List.ofFn fun i => ofF cv (c.2.2.2.2.1 i), List.ofFn fun i => ofF cv (c.2.2.2.2.2 i)⟩

def ofCoins (len : ℕ) (c : Coins) : Shape cv.order len :=
  (c.alpha, c.rho, c.tau1, c.tau2, (fun i => seqF cv c.sL i), fun i => seqF cv c.sR i)

def ofSim (len : ℕ) (c : SimCoins) : Shape cv.order len :=
  (c.a, c.mu, c.taux, c.t2, (fun i => seqF cv c.l i), fun i => seqF cv c.r i)

omit [DecidableEq G] in
theorem seqF_ofFn {len : ℕ} (f : Fin len → ZMod cv.order) (i : Fin len) : seqF cv (List.ofFn fun i => ofF cv (f i)) i = f i := by
  unfold seqF
  rw [List.getElem?_ofFn, dif_pos i.2, Option.getD_some, cast_ofF]

omit [DecidableEq G] in
theorem canon_ofFn {len : ℕ} (f : Fin len → ZMod cv.order) : Canon cv.order (List.ofFn fun i => ofF cv (f i)) := by
  intro a ha
  rw [List.mem_ofFn] at ha
  obtain ⟨i, rfl⟩ := ha
  exact ofF_range cv _

theorem coinsOf_ok {len : ℕ} (c : Shape cv.order len) : (coinsOf cv c).Ok cv.order len := by
  refine ⟨by simp [coinsOf], by simp [coinsOf], canon_ofFn cv _, canon_ofFn cv _, ?_⟩
  intro a ha
  simp only [coinsOf, List.mem_cons, List.not_mem_nil, or_false] at ha
  rcases ha with rfl | rfl | rfl | rfl <;> exact ofF_range cv _

theorem simOf_ok {len : ℕ} (c : Shape cv.order len) : (simOf cv c).Ok cv.order len := by
  refine ⟨by simp [simOf], by simp [simOf], canon_ofFn cv _, canon_ofFn cv _, ?_⟩
  intro a ha
  simp only [simOf, List.mem_cons, List.not_mem_nil, or_false] at ha
  rcases ha with rfl | rfl | rfl | rfl <;> exact ofF_range cv _

theorem ofCoins_coinsOf {len : ℕ} (c : Shape cv.order len) : ofCoins cv len (coinsOf cv c) = c := by
  simp only [ofCoins, coinsOf, cast_ofF, seqF_ofFn]

theorem ofSim_simOf {len : ℕ} (c : Shape cv.order len) : ofSim cv len (simOf cv c) = c := by
  simp only [ofSim, simOf, cast_ofF, seqF_ofFn]

theorem coinsOf_ofCoins {len : ℕ} (c : Coins) (h : c.Ok cv.order len) : coinsOf cv (ofCoins cv len c) = c := by
  obtain ⟨o1, o2, o3, o4, o5⟩ := coinsOf_ok cv (ofCoins cv len c)
  obtain ⟨s1, s2, s3, s4, s5⟩ := h
  have f : ∀ a : ℤ, 0 ≤ a ∧ a < cv.order → ofF cv (a : ZMod cv.order) = a := fun a ha => canon_eq_one cv (ofF_range cv _) ha (cast_ofF cv _)
  have el : (coinsOf cv (ofCoins cv len c)).sL = c.sL := canon_eq_seq cv o3 s3 o1 s1 fun i hi => seqF_ofFn cv _ ⟨i, hi⟩
  have er : (coinsOf cv (ofCoins cv len c)).sR = c.sR := canon_eq_seq cv o4 s4 o2 s2 fun i hi => seqF_ofFn cv _ ⟨i, hi⟩
  have e1 := f c.alpha (s5 _ (by simp))
  have e2 := f c.rho (s5 _ (by simp))
  have e3 := f c.tau1 (s5 _ (by simp))
  have e4 := f c.tau2 (s5 _ (by simp))
  simp only [coinsOf, ofCoins] at el er ⊢
  rw [el, er, e1, e2, e3, e4]

theorem simOf_ofSim {len : ℕ} (c : SimCoins) (h : c.Ok cv.order len) : simOf cv (ofSim cv len c) = c := by
  obtain ⟨o1, o2, o3, o4, o5⟩ := simOf_ok cv (ofSim cv len c)
  obtain ⟨s1, s2, s3, s4, s5⟩ := h
  have f : ∀ a : ℤ, 0 ≤ a ∧ a < cv.order → ofF cv (a : ZMod cv.order) = a := fun a ha => canon_eq_one cv (ofF_range cv _) ha (cast_ofF cv _)
  have el : (simOf cv (ofSim cv len c)).l = c.l := canon_eq_seq cv o3 s3 o1 s1 fun i hi => seqF_ofFn cv _ ⟨i, hi⟩
  have er : (simOf cv (ofSim cv len c)).r = c.r := canon_eq_seq cv o4 s4 o2 s2 fun i hi => seqF_ofFn cv _ ⟨i, hi⟩
  have e1 := f c.a (s5 _ (by simp))
  have e2 := f c.mu (s5 _ (by simp))
  have e3 := f c.taux (s5 _ (by simp))
  have e4 := f c.t2 (s5 _ (by simp))
  simp only [simOf, ofSim] at el er ⊢
  rw [el, er, e1, e2, e3, e4]

/-- The correspondence of the prover's scalars with the simulator's. -/
def simEquiv (R len : ℕ) (y z x : ZMod cv.order) (b : ℕ → ZMod cv.order) (ρ η κ : ZMod cv.order) (hy : y ≠ 0) (hx : x ≠ 0) :
    Shape cv.order len ≃ Shape cv.order len where
  toFun c := ofSim cv len (tosim cv R len y z x b ρ η κ (coinsOf cv c))
  invFun s := ofCoins cv len (unsim cv R len y z x b ρ η κ (simOf cv s))
  left_inv c := by
    beta_reduce
    rw [simOf_ofSim cv _ (tosim_ok cv _ _ _ _ _ _ _ _ _ _), unsim_tosim cv _ _ _ _ _ _ _ _ _ _ (coinsOf_ok cv c) hy hx, ofCoins_coinsOf]
  right_inv s := by
    beta_reduce
    rw [coinsOf_ofCoins cv _ (unsim_ok cv _ _ _ _ _ _ _ _ _ _), tosim_unsim cv _ _ _ _ _ _ _ _ _ _ (simOf_ok cv s) hy hx, ofSim_simOf]

theorem simOf_simEquiv (R len : ℕ) (y z x : ZMod cv.order) (b : ℕ → ZMod cv.order) (ρ η κ : ZMod cv.order) (hy : y ≠ 0) (hx : x ≠ 0)
    (c : Shape cv.order len) : simOf cv (simEquiv cv R len y z x b ρ η κ hy hx c) = tosim cv R len y z x b ρ η κ (coinsOf cv c) :=
  simOf_ofSim cv _ (tosim_ok cv _ _ _ _ _ _ _ _ _ _)

/-- The three strings hashed for a simulated range proof. -/
def pointY (pp : PP G) (s : SimCoins) (tr : Bytes) : Bytes := tr ++ cv.toBytes (simA pp s)

def pointZ (pp : PP G) (n : ℕ) (y z x : ℤ) (s : SimCoins) (tr : Bytes) : Bytes := pointY cv pp s tr ++ cv.toBytes (simS cv pp n y z x s)

def pointX (pp : PP G) (n : ℕ) (C : List G) (y z x : ℤ) (s : SimCoins) (tr : Bytes) : Bytes :=
  pointZ cv pp n y z x s tr ++ (cv.toBytes (simT1 cv pp C y z x s) ++ cv.toBytes (simT2 pp s))

theorem sum_bullet [Fintype (ZMod cv.order)] (O : Bytes → V) (val : V → ℤ) (hval : ∀ e, ¬ (cv.order : ℤ) ∣ val e)
    (pp : PP G) (n k : Nat) (r : List ℤ) (v : List ℕ) (C : List G) (tr : Bytes)
    (hpow : pp.rangeLen * n = 2 ^ k) (hk : k < 64) (hg : pp.rangeLen * n ≤ pp.vecG.length) (hh : pp.rangeLen * n ≤ pp.vecH.length)
    (hv : v.length = n) (hr : r.length = n) (hb : ∀ a ∈ v, a < 2 ^ pp.rangeLen)
    (hcyc : ∀ P : G, ∃ a : ℤ, P = a • pp.g) (hh0 : pp.h ≠ 0)
    (hC : C = List.zipWith (fun (a : ℤ) (m : ℕ) => a • pp.g + m • pp.h) r v) (g : Option (Proof G × Bytes) → ℝ) :
    ∑ c : Shape cv.order (pp.rangeLen * n), g (prove cv (fun b => val (O b)) pp n r (v.map (Nat.cast : ℕ → ℤ)) (coinsOf cv c) tr) =
      ∑ y, ∑ z, ∑ x, ∑ s : Shape cv.order (pp.rangeLen * n),
        if O (pointY cv pp (simOf cv s) tr) = y ∧ O (pointZ cv pp n (val y) (val z) (val x) (simOf cv s) tr) = z ∧
          O (pointX cv pp n C (val y) (val z) (val x) (simOf cv s) tr) = x then
          g (simulate cv (fun b => val (O b)) pp C (val y) (val z) (val x) (simOf cv s) tr) else 0 := by
  haveI := cv.fact
  letI := cv.toModule
  have hne : pp.rangeLen * n ≠ 0 := by rw [hpow]; positivity
  have hR : 0 < pp.rangeLen := Nat.pos_of_ne_zero fun h => hne (by rw [h, zero_mul])
  have hb' : ∀ j < n, (v[j]?).getD 0 < 2 ^ pp.rangeLen := by
    intro j _
    rcases hj : v[j]? with _ | a
    · simp
    · exact hb a (List.mem_of_getElem? hj)
  obtain ⟨η0, hη0⟩ := hcyc pp.h
  have hη : pp.h = (η0 : ZMod cv.order) • pp.g := by rw [← cv.cast_smul]; exact hη0
  have hηne : (η0 : ZMod cv.order) ≠ 0 := by
    intro h
    rw [h, zero_smul] at hη
    exact hh0 hη
  obtain ⟨κ0, hκ0⟩ := hcyc ((∑ i ∈ Finset.range (pp.rangeLen * n), bitV cv pp.rangeLen v i • (pp.vecG[i]?).getD 0) +
        ∑ i ∈ Finset.range (pp.rangeLen * n), (bitV cv pp.rangeLen v i - 1) • (pp.vecH[i]?).getD 0)
  obtain ⟨κ, hκ'⟩ : ∃ κ : ZMod cv.order, κ = (κ0 : ZMod cv.order) * (η0 : ZMod cv.order)⁻¹ := ⟨_, rfl⟩
  have hκ : κ • pp.h = (∑ i ∈ Finset.range (pp.rangeLen * n),
      bitV cv pp.rangeLen v i • (pp.vecG[i]?).getD 0) +
        ∑ i ∈ Finset.range (pp.rangeLen * n), (bitV cv pp.rangeLen v i - 1) • (pp.vecH[i]?).getD 0 := by
    rw [hκ0, hκ', hη, smul_smul, mul_assoc, inv_mul_cancel₀ hηne, mul_one, cv.cast_smul]
  have hCl : C.length = n := by rw [hC]; simp [hv, hr]
  have hCj : ∀ j < n, (C[j]?).getD 0 = (r[j]?).getD 0 • pp.g + (v[j]?).getD 0 • pp.h := by
    intro j hj
    rw [hC, List.getElem?_zipWith, List.getElem?_eq_getElem (hr ▸ hj : j < r.length), List.getElem?_eq_getElem (hv ▸ hj : j < v.length)]
    simp
  have hv0 : ∀ e, ((val e : ℤ) : ZMod cv.order) ≠ 0 := fun e => cv.cast_ne_zero (hval e)
  set ρ : V → ZMod cv.order := fun z => ∑ j ∈ Finset.range n, (val z : ZMod cv.order) ^ (j + 2) * (((r[j]?).getD 0 : ℤ) : ZMod cv.order) with hρ
  -- the points made by the prover
  set A : Shape cv.order (pp.rangeLen * n) → G := fun c =>
    comV cv pp (pp.rangeLen * n) (bitV cv pp.rangeLen v) (fun i => bitV cv pp.rangeLen v i - 1) (coinsOf cv c).alpha with hA
  set S : Shape cv.order (pp.rangeLen * n) → G := fun c =>
    comV cv pp (pp.rangeLen * n) (seqF cv (coinsOf cv c).sL) (seqF cv (coinsOf cv c).sR) (coinsOf cv c).rho with hS
  set T1 : V → V → Shape cv.order (pp.rangeLen * n) → G := fun y z c =>
    comT cv pp (coinsOf cv c).tau1 (t1F pp.rangeLen (pp.rangeLen * n) (val y : ZMod cv.order) (val z) (bitV cv pp.rangeLen v)
      (seqF cv (coinsOf cv c).sL) (seqF cv (coinsOf cv c).sR)) with hT1
  set T2 : V → Shape cv.order (pp.rangeLen * n) → G := fun y c =>
    comT cv pp (coinsOf cv c).tau2 (t2F (pp.rangeLen * n) (val y : ZMod cv.order) (seqF cv (coinsOf cv c).sL) (seqF cv (coinsOf cv c).sR)) with hT2
  have step : ∀ y z x : V, ∑ s : Shape cv.order (pp.rangeLen * n),
        (if O (pointY cv pp (simOf cv s) tr) = y ∧ O (pointZ cv pp n (val y) (val z) (val x) (simOf cv s) tr) = z ∧
          O (pointX cv pp n C (val y) (val z) (val x) (simOf cv s) tr) = x then
          g (simulate cv (fun b => val (O b)) pp C (val y) (val z) (val x) (simOf cv s) tr) else 0) =
      ∑ c : Shape cv.order (pp.rangeLen * n), if O (tr ++ cv.toBytes (A c)) = y ∧ O (tr ++ cv.toBytes (A c) ++ cv.toBytes (S c)) = z ∧
          O (tr ++ cv.toBytes (A c) ++ cv.toBytes (S c) ++ (cv.toBytes (T1 y z c) ++ cv.toBytes (T2 y c))) = x then
          g (prove cv (fun b => val (O b)) pp n r (v.map (Nat.cast : ℕ → ℤ)) (coinsOf cv c) tr) else 0 := by
    intro y z x
    rw [← Equiv.sum_comp (simEquiv cv pp.rangeLen (pp.rangeLen * n) (val y) (val z) (val x) (bitV cv pp.rangeLen v) (ρ z) η0 κ (hv0 y) (hv0 x))]
    refine sum_congr rfl fun c _ => ?_
    rw [simOf_simEquiv]
    obtain ⟨-, -, -, -, p1, p2, p3, p4⟩ := tosim_points cv pp n r v C (coinsOf cv c) _ (val y) (val z) (val x) (ρ z) η0 κ hR hCl hb' rfl hη hκ hCj
      (hv0 y) (hv0 x) rfl
    have hu := unsim_tosim cv pp.rangeLen (pp.rangeLen * n) (val y : ZMod cv.order) (val z) (val x) (bitV cv pp.rangeLen v) (ρ z) η0 κ _
      (coinsOf_ok cv c) (hv0 y) (hv0 x)
    have ho := tosim_ok cv pp.rangeLen (pp.rangeLen * n) (val y : ZMod cv.order) (val z) (val x) (bitV cv pp.rangeLen v) (ρ z) η0 κ (coinsOf cv c)
    generalize tosim cv pp.rangeLen (pp.rangeLen * n) (val y : ZMod cv.order) (val z) (val x) (bitV cv pp.rangeLen v) (ρ z) η0 κ (coinsOf cv c) = s at *
    have q : (O (pointY cv pp s tr) = y ∧ O (pointZ cv pp n (val y) (val z) (val x) s tr) = z ∧
          O (pointX cv pp n C (val y) (val z) (val x) s tr) = x) ↔ (O (tr ++ cv.toBytes (A c)) = y ∧ O (tr ++ cv.toBytes (A c) ++ cv.toBytes (S c)) = z ∧
          O (tr ++ cv.toBytes (A c) ++ cv.toBytes (S c) ++ (cv.toBytes (T1 y z c) ++ cv.toBytes (T2 y c))) = x) := by
      simp only [pointX, pointZ, pointY, p1, p2, p3, p4, hA, hS, hT1, hT2]
    by_cases hc : O (pointY cv pp s tr) = y ∧ O (pointZ cv pp n (val y) (val z) (val x) s tr) = z ∧
          O (pointX cv pp n C (val y) (val z) (val x) s tr) = x
    · rw [if_pos hc, if_pos (q.1 hc)]
      obtain ⟨pf, tr', h1, h2⟩ := unsim_prove cv (fun b => val (O b)) pp n k r v C s tr (val y) (val z) (val x) hpow hk hg hh hv hr hCl ho hb' η0 κ
        hη hκ hCj (hval y) (hval x) (congrArg val hc.1) (congrArg val hc.2.1) (congrArg val hc.2.2)
      rw [h1, ← h2]
      congr 2
    · rw [if_neg hc, if_neg fun h => hc (q.2 h)]
  simp only [step]
  simp only [sum_comm (s := (univ : Finset V)) (t := (univ : Finset (Shape cv.order (pp.rangeLen * n))))]
  refine sum_congr rfl fun c _ => ?_
  rw [sum_eq_single (O (tr ++ cv.toBytes (A c))), sum_eq_single (O (tr ++ cv.toBytes (A c) ++ cv.toBytes (S c))),
    sum_eq_single (O (tr ++ cv.toBytes (A c) ++ cv.toBytes (S c) ++ (cv.toBytes (T1 (O (tr ++ cv.toBytes (A c)))
      (O (tr ++ cv.toBytes (A c) ++ cv.toBytes (S c))) c) ++ cv.toBytes (T2 (O (tr ++ cv.toBytes (A c))) c)))), if_pos ⟨rfl, rfl, rfl⟩]
  · exact fun x _ hx => if_neg fun h => hx h.2.2.symm
  · exact fun h => absurd (mem_univ _) h
  · exact fun z _ hz => sum_eq_zero fun x _ => if_neg fun h => hz h.2.1.symm
  · exact fun h => absurd (mem_univ _) h
  · exact fun y _ hy => sum_eq_zero fun z _ => sum_eq_zero fun x _ => if_neg fun h => hy h.1.symm
  · exact fun h => absurd (mem_univ _) h

end Bullet

end Kunlun
