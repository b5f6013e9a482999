import Verif.Model.SigmaSim
import Verif.Props.BulletBind
import Verif.Props.Adcp
/-!
A simulator for the confidential transactions of `adcp/adcp.hpp` (one receiver). It is not part of the code: it is given what everybody sees
(keys, balance, the two new ciphertexts) and values it may set in a random oracle, and is what `CreateCTx` is compared with.
-/

namespace Kunlun

open Finset Bullet Oracle

variable {G V : Type} [AddCommGroup G] [DecidableEq G]

namespace InnerProduct

theorem proveLoop_canon (cv : Curve G) (H : Bytes → ℤ) (u : G) : ∀ (k : Nat) (g h : List G) (a b : List ℤ) (tr tr' : Bytes) (pf : Proof G),
    proveLoop cv H u k g h a b tr = some (pf, tr') → Canon cv.order a → Canon cv.order b →
    (0 ≤ pf.a ∧ pf.a < cv.order) ∧ (0 ≤ pf.b ∧ pf.b < cv.order)
  | 0, g, h, a, b, tr, tr', pf, hp, ha, hb => by
    simp only [proveLoop, Option.bind_eq_bind, Option.bind_eq_some_iff, Option.pure_def, Option.some.injEq, Prod.mk.injEq] at hp
    obtain ⟨a0, h1, b0, h2, rfl, _⟩ := hp
    exact ⟨ha _ (List.mem_of_getElem? h1), hb _ (List.mem_of_getElem? h2)⟩
  | k + 1, g, h, a, b, tr, tr', pf, hp, ha, hb => by
    simp only [proveLoop, Option.bind_eq_bind, Option.bind_eq_some_iff, Option.pure_def, Option.some.injEq, Prod.mk.injEq] at hp
    obtain ⟨cL, h1, cR, h2, L, h3, R, h4, g', h5, h', h6, a', h7, b', h8, ⟨pf0, t⟩, h9, rfl, rfl⟩ := hp
    exact proveLoop_canon cv H u k g' h' a' b' _ _ pf0 h9 (canon_modAdd cv h7) (canon_modAdd cv h8)

end InnerProduct

namespace Bullet

/-- The simulator of the range proof never fails; it asks the hash function only at strings not longer than the transcript it returns. -/
theorem simulate_local (cv : Curve G) {W : Nat} (hE : cv.Encodes W) (H : Bytes → ℤ) (pp : PP G) (C : List G) (k : Nat) (s : SimCoins)
    (tr : Bytes) (y z x : ℤ) (hpow : pp.rangeLen * C.length = 2 ^ k) (hk : k < 64) (hg : pp.rangeLen * C.length ≤ pp.vecG.length)
    (hs : s.Ok cv.order (pp.rangeLen * C.length)) :
    ∃ pf tr', simulate cv H pp C y z x s tr = some (pf, tr') ∧
      tr'.length = (pointX cv pp C.length C y z x s tr).length + (BigInt.toByteString x).length + 2 * W * k ∧
      pf.ip.vecL.length = k ∧ pf.ip.vecR.length = k ∧ Canon cv.order [pf.taux, pf.mu, pf.tx, pf.ip.a, pf.ip.b] ∧
      ∀ H' : Bytes → ℤ, (∀ b, b.length ≤ tr'.length → H b = H' b) → simulate cv H' pp C y z x s tr = some (pf, tr') := by
  obtain ⟨s1, s2, s3, s4, s5⟩ := hs
  have hp2 : powerOfTwo (pp.rangeLen * C.length) = true := by
    rw [powerOfTwo_iff _ (by rw [hpow]; exact Nat.pow_lt_pow_right (by omega) hk)]
    exact ⟨k, hpow⟩
  have hlog : (pp.rangeLen * C.length).log2 = k := by rw [hpow, Nat.log2_two_pow]
  obtain ⟨tx, htx, hres⟩ := (BigInt.vecModInnerProduct_spec s.l s.r (m := cv.order) (by exact_mod_cast cv.order_pos)).2 (by rw [s1, s2])
  set t4 := tr ++ cv.toBytes (simA pp s) ++ cv.toBytes (simS cv pp C.length y z x s) ++
    (cv.toBytes (simT1 cv pp C y z x s) ++ cv.toBytes (simT2 pp s)) ++ BigInt.toByteString x with ht4
  obtain ⟨ip, tr', xs, hip, l1, l2, -, -⟩ := InnerProduct.proveLoop_spec cv H (H t4 • pp.u) k (pp.vecG.take (pp.rangeLen * C.length))
    (hVec cv pp (pp.rangeLen * C.length) y) s.l s.r t4 (by simp [hg]; omega) (by rw [hVec_length, hpow]) (by rw [s1, hpow]) (by rw [s2, hpow])
  have e20 : InnerProduct.prove cv H (ipPP cv pp C.length y (H t4)) s.l s.r t4 = some (ip, tr') := by
    unfold InnerProduct.prove
    rw [if_neg]
    · show InnerProduct.proveLoop cv H _ (pp.rangeLen * C.length).log2 _ _ _ _ _ = _
      rw [hlog]
      exact hip
    · simp only [ipPP, hVec_length, List.length_take, hp2, s1, s2]
      simp [hg]
  have htr := (InnerProduct.innerProduct_prove_queries cv H H _ _ _ _ _ _ e20 fun _ _ => rfl).2
  have hlen : (ipPP cv pp C.length y (H t4)).len.log2 = k := hlog
  rw [hlen] at htr
  have hl : tr'.length = t4.length + 2 * W * k := by
    rw [htr, List.length_append, InnerProduct.pairBytes_length hE _ _ _ (by omega) (by omega)]
  have hc := InnerProduct.proveLoop_canon cv H _ _ _ _ _ _ _ _ _ hip s3 s4
  refine ⟨⟨simA pp s, simS cv pp C.length y z x s, simT1 cv pp C y z x s, simT2 pp s, s.taux, s.mu, tx, ip⟩, tr', ?_, ?_, l1, l2, ?_, ?_⟩
  · unfold simulate
    simp only [Option.bind_eq_bind, Option.pure_def, htx, Option.bind_some, ← ht4, e20]
  · rw [hl, ht4, List.length_append]
    rfl
  · intro a ha
    simp only [List.mem_cons, List.not_mem_nil, or_false] at ha
    rcases ha with rfl | rfl | rfl | rfl | rfl
    · exact s5 _ (by simp)
    · exact s5 _ (by simp)
    · exact ⟨hres.1, hres.2.1⟩
    · exact hc.1
    · exact hc.2
  · intro H' hH
    have e4 : H' t4 = H t4 := (hH _ (by rw [hl]; omega)).symm
    have e21 := (InnerProduct.innerProduct_prove_queries cv H H' _ _ _ _ _ _ e20 fun j hj => hH _ (by
      rw [hlen] at hj
      rw [InnerProduct.roundQuery, List.length_append, InnerProduct.pairBytes_length hE _ _ _ (by omega) (by omega), hl]
      have : 2 * W * (j + 1) ≤ 2 * W * k := Nat.mul_le_mul_left _ (by omega)
      omega)).1
    unfold simulate
    simp only [Option.bind_eq_bind, Option.pure_def, htx, Option.bind_some, ← ht4, e4, e21]

end Bullet

namespace ADCP

/-- What everybody sees of a transaction apart from the proofs. -/
structure Statement (G : Type) where
  sn : ℤ
  balance : CT G
  pks : G
  pkr : G
  transfer : Twisted.MRCT G
  refresh : CT G

namespace Statement

variable (pp : PP G) (st : Statement G)

def eq : PlaintextEquality.Instance G := ⟨[st.pks, st.pkr, pp.pka], st.transfer⟩

def kn : PlaintextKnowledge.Instance G := ⟨st.pks, st.refresh⟩

def dl : DLOGEquality.Instance G :=
  refreshInstance pp (updated st.balance ((st.transfer.vecX[0]?).getD 0) st.transfer.Y) st.refresh st.pks

def C : List G := [st.transfer.Y, st.refresh.Y]

def ctx (pteq : PlaintextEquality.Proof G) (bp : Bullet.Proof G) (ptke : PlaintextKnowledge.Proof G) (d : DLOGEquality.Proof G) : ToOne G :=
  ⟨st.sn, st.balance, st.pks, st.pkr, st.transfer, pteq, bp, st.refresh, ptke, d⟩

/-- What is hashed for the last proof. -/
def lastPoint (cv : Curve G) (pteq : PlaintextEquality.Proof G) (bp : Bullet.Proof G) (ptke : PlaintextKnowledge.Proof G) (tr : Bytes)
    (d : DLOGEquality.Proof G) : Bytes := dlPoint cv (st.dl pp) (tr ++ toSign cv (st.ctx pteq bp ptke ⟨0, 0, 0⟩)) d

end Statement

/-- The statement of the transaction `CreateCTx` makes. -/
def statement (pp : PP G) (a : Account G) (v : ℤ) (pkr : G) (r rStar : ℤ) : Statement G :=
  ⟨a.sn, a.balance, a.pk, pkr, Twisted.encMulti pp.enc [a.pk, pkr, pp.pka] v r, Twisted.enc pp.enc a.pk (a.m - v) rStar⟩

/-- `CreateCTx` for an account in order, with the parts named. -/
theorem createCTx_eq (cv : Curve G) (H : Bytes → ℤ) (pp : PP G) (a : Account G) (v : ℤ) (pkr : G) (c : Coins) (ha : Sane cv pp a) :
    createCTx cv H pp a v pkr c =
      (PlaintextEquality.prove cv pp.enc H ((statement pp a v pkr c.r c.rStar).eq pp) v c.r c.eqA c.eqB []).bind fun p1 =>
        let p2 := PlaintextKnowledge.prove cv pp.enc H (statement pp a v pkr c.r c.rStar).kn (a.m - v) c.rStar c.knA c.knB p1.2
        (Bullet.prove cv H pp.bullet 2 [c.r, c.rStar] [v, a.m - v] c.bullet p2.2).bind fun p3 =>
          some ((statement pp a v pkr c.r c.rStar).ctx p1.1 p3.1 p2.1
            (DLOGEquality.prove cv H ((statement pp a v pkr c.r c.rStar).dl pp) a.sk c.dl
              (p3.2 ++ toSign cv ((statement pp a v pkr c.r c.rStar).ctx p1.1 p3.1 p2.1 ⟨0, 0, 0⟩))).1) := by
  obtain ⟨hkey, hne, hbal⟩ := ha
  have hupd := updated_holds cv pp.enc a.sk a.m v c.r hne a.balance hbal
  have hre := Gadget.reEnc_eq_enc cv pp.enc a.pk a.sk (a.m - v) c.rStar _ hupd
  have hX0 : (Twisted.encMulti pp.enc [a.pk, pkr, pp.pka] v c.r).vecX[0]? = some (c.r • a.sk • pp.enc.g) := by
    simp [Twisted.encMulti, hkey]
  have hY : (Twisted.encMulti pp.enc [a.pk, pkr, pp.pka] v c.r).Y = c.r • pp.enc.g + v • pp.enc.h := rfl
  unfold createCTx
  simp only [Option.bind_eq_bind, Option.pure_def, Statement.eq, Statement.kn, Statement.dl, Statement.ctx, statement, hX0, Option.bind_some, Option.getD_some,
    hY, hre]

/-- The secret key is the exponent of the last proof. -/
theorem dl_statement (cv : Curve G) (pp : PP G) (a : Account G) (v : ℤ) (pkr : G) (r rStar : ℤ) (ha : Sane cv pp a) :
    ((statement pp a v pkr r rStar).dl pp).h1 = a.sk • ((statement pp a v pkr r rStar).dl pp).g1 ∧
      ((statement pp a v pkr r rStar).dl pp).h2 = a.sk • ((statement pp a v pkr r rStar).dl pp).g2 := by
  obtain ⟨hkey, hne, hbal⟩ := ha
  have hupd := updated_holds cv pp.enc a.sk a.m v r hne a.balance hbal
  have hst := Gadget.refresh_statement cv pp.enc a.sk (a.m - v) rStar hne _ hupd
  have hkk : Twisted.keyGen pp.enc a.sk = a.pk := by rw [hkey]; rfl
  rw [hkk] at hst
  have hX0 : (Twisted.encMulti pp.enc [a.pk, pkr, pp.pka] v r).vecX[0]? = some (r • a.sk • pp.enc.g) := by
    simp [Twisted.encMulti, hkey]
  have hY : (Twisted.encMulti pp.enc [a.pk, pkr, pp.pka] v r).Y = r • pp.enc.g + v • pp.enc.h := rfl
  constructor
  · simp only [Statement.dl, statement, refreshInstance, hX0, Option.getD_some, hY]
    rw [← neg_sub, hst, ← smul_neg]
    congr 1
    abel
  · simp only [Statement.dl, statement, refreshInstance]
    exact hkey

variable [Fintype V] [DecidableEq V] {Q : Finset Bytes}

/-- The hash function that an oracle gives. -/
def hash (val : V → ℤ) (v0 : V) (o : Q → V) : Bytes → ℤ := fun b => val (ext v0 o b)

/-- All answers of `D` to transactions with fixed amount and encryption randomness, summed over the oracle and the scalars of the proofs. -/
noncomputable def realSum (cv : Curve G) [Fintype (ZMod cv.order)] (pp : PP G) (val : V → ℤ) (v0 : V) (D : (Q → V) → Option (ToOne G) → ℝ)
    (a : Account G) (v : ℤ) (pkr : G) (r rStar : ℤ) : ℝ :=
  ∑ o, ∑ c1 : ZMod cv.order × ZMod cv.order, ∑ c2 : ZMod cv.order × ZMod cv.order, ∑ c3 : Shape cv.order (pp.bullet.rangeLen * 2),
    ∑ c4 : ZMod cv.order, D o (createCTx cv (hash val v0 o) pp a v pkr
      ⟨r, ofF cv c1.1, ofF cv c1.2, rStar, ofF cv c2.1, ofF cv c2.2, coinsOf cv c3, ofF cv c4⟩)

/-- The end of the simulation: the values at the points `l` are set, the range proof is simulated, the value at the point of the last proof
is set. -/
noncomputable def simLast (cv : Curve G) (pp : PP G) (val : V → ℤ) (v0 : V) (D : (Q → V) → Option (ToOne G) → ℝ) (st : Statement G)
    (l : List (Bytes × V)) (pf1 : PlaintextEquality.Proof G) (pf2 : PlaintextKnowledge.Proof G) (tr : Bytes) (y z x : V) (s : SimCoins)
    (e : V) (d : ZMod cv.order) (o : Q → V) : ℝ :=
  match simulate cv (hash val v0 (prog l o)) pp.bullet st.C (val y) (val z) (val x) s tr with
  | none => 0
  | some (bp, t) =>
    D (prog l (put o (st.lastPoint pp cv pf1 bp pf2 t (simDl (st.dl pp) (val e) (ofF cv d))) e))
      (some (st.ctx pf1 bp pf2 (simDl (st.dl pp) (val e) (ofF cv d))))

/-- All answers of `D` to simulated transactions. Only the statement is used, no secret key, amount or encryption randomness. -/
noncomputable def simSum (cv : Curve G) [Fintype (ZMod cv.order)] (pp : PP G) (val : V → ℤ) (v0 : V) (D : (Q → V) → Option (ToOne G) → ℝ)
    (st : Statement G) : ℝ :=
  ∑ e1, ∑ w1 : ZMod cv.order × ZMod cv.order,
    let pf1 := simEq pp.enc (st.eq pp) (val e1) (ofF cv w1.1) (ofF cv w1.2)
    let p1 := eqPoint cv (st.eq pp) [] pf1
    ∑ e2, ∑ w2 : ZMod cv.order × ZMod cv.order,
      let pf2 := simKn pp.enc st.kn (val e2) (ofF cv w2.1) (ofF cv w2.2)
      let p2 := knPoint cv st.kn p1 pf2
      ∑ y, ∑ z, ∑ x, ∑ s : Shape cv.order (pp.bullet.rangeLen * 2),
        let l := [(p1, e1), (p2, e2), (pointY cv pp.bullet (simOf cv s) p2, y),
          (pointZ cv pp.bullet 2 (val y) (val z) (val x) (simOf cv s) p2, z),
          (pointX cv pp.bullet 2 st.C (val y) (val z) (val x) (simOf cv s) p2, x)]
        ∑ e, ∑ d : ZMod cv.order, ∑ o : Q → V, simLast cv pp val v0 D st l pf1 pf2 p2 y z x (simOf cv s) e d o

/-- What is left to draw after the range proof. -/
noncomputable def realLast (cv : Curve G) [Fintype (ZMod cv.order)] (pp : PP G) (val : V → ℤ) (v0 : V) (D : (Q → V) → Option (ToOne G) → ℝ)
    (st : Statement G) (sk : ℤ) (pf1 : PlaintextEquality.Proof G) (pf2 : PlaintextKnowledge.Proof G) (o : Q → V)
    (p3 : Option (Bullet.Proof G × Bytes)) : ℝ :=
  ∑ c4 : ZMod cv.order, D o (p3.bind fun p3 => some (st.ctx pf1 p3.1 pf2 (DLOGEquality.prove cv (hash val v0 o) (st.dl pp) sk (ofF cv c4)
    (p3.2 ++ toSign cv (st.ctx pf1 p3.1 pf2 ⟨0, 0, 0⟩))).1))

theorem last_step (cv : Curve G) [Fintype (ZMod cv.order)] {W : Nat} (hE : cv.Encodes W) (hW : 0 < W) (pp : PP G) (val : V → ℤ) (v0 : V)
    (D : (Q → V) → Option (ToOne G) → ℝ) (st : Statement G) (sk : ℤ) (h1 : (st.dl pp).h1 = sk • (st.dl pp).g1)
    (h2 : (st.dl pp).h2 = sk • (st.dl pp).g2) (k : Nat)
    (hpow : pp.bullet.rangeLen * 2 = 2 ^ k) (hk : k < 64) (hg : pp.bullet.rangeLen * 2 ≤ pp.bullet.vecG.length)
    (l : List (Bytes × V)) (pf1 : PlaintextEquality.Proof G) (pf2 : PlaintextKnowledge.Proof G) (tr : Bytes) (y z x : V) (s : SimCoins)
    (hs : s.Ok cv.order (pp.bullet.rangeLen * 2))
    (hl : ∀ b ∈ l.map Prod.fst, b.length ≤ (pointX cv pp.bullet 2 st.C (val y) (val z) (val x) s tr).length)
    (hQ : ∀ (o : Q → V) bp t (d : DLOGEquality.Proof G), simulate cv (hash val v0 o) pp.bullet st.C (val y) (val z) (val x) s tr = some (bp, t) →
      st.lastPoint pp cv pf1 bp pf2 t d ∈ Q) :
    (Fintype.card V : ℝ) * ∑ o : Q → V, realLast cv pp val v0 D st sk pf1 pf2 (prog l o)
        (simulate cv (hash val v0 (prog l o)) pp.bullet st.C (val y) (val z) (val x) s tr) =
      ∑ e, ∑ d : ZMod cv.order, ∑ o : Q → V, simLast cv pp val v0 D st l pf1 pf2 tr y z x s e d o := by
  have hC : st.C.length = 2 := rfl
  have loc := fun H => simulate_local cv hE H pp.bullet st.C k s tr (val y) (val z) (val x) (by rw [hC]; exact hpow) hk (by rw [hC]; exact hg)
    (by rw [hC]; exact hs)
  rw [hC] at loc
  have e1 : ∀ o : Q → V, realLast cv pp val v0 D st sk pf1 pf2 (prog l o)
        (simulate cv (hash val v0 (prog l o)) pp.bullet st.C (val y) (val z) (val x) s tr) =
      ∑ e, ∑ d : ZMod cv.order, if ext v0 (prog l o) (match simulate cv (hash val v0 (prog l o)) pp.bullet st.C (val y) (val z) (val x) s tr with
          | none => [] | some (bp, t) => st.lastPoint pp cv pf1 bp pf2 t (simDl (st.dl pp) (val e) (ofF cv d))) = e then
          (match simulate cv (hash val v0 (prog l o)) pp.bullet st.C (val y) (val z) (val x) s tr with
            | none => 0 | some (bp, t) => D (prog l o) (some (st.ctx pf1 bp pf2 (simDl (st.dl pp) (val e) (ofF cv d))))) else 0 := by
    intro o
    obtain ⟨bp, t, hsim, -⟩ := loc (hash val v0 (prog l o))
    simp only [hsim, realLast, Option.bind_some]
    exact sum_dl cv (ext v0 (prog l o)) val (st.dl pp) sk h1 h2 (t ++ toSign cv (st.ctx pf1 bp pf2 ⟨0, 0, 0⟩))
      fun d => D (prog l o) (some (st.ctx pf1 bp pf2 d))
  simp only [e1]
  rw [sum_comm, mul_sum]
  refine sum_congr rfl fun e _ => ?_
  rw [sum_comm, mul_sum]
  refine sum_congr rfl fun d _ => ?_
  have lenP : ∀ (bp : Bullet.Proof G) (t : Bytes) (dd : DLOGEquality.Proof G), t.length < (st.lastPoint pp cv pf1 bp pf2 t dd).length := by
    intro bp t dd
    simp only [Statement.lastPoint, dlPoint, DLOGEquality.initTranscript, List.length_append, hE.len]
    omega
  rw [sum_step v0 l (fun o' => match simulate cv (hash val v0 o') pp.bullet st.C (val y) (val z) (val x) s tr with
          | none => [] | some (bp, t) => st.lastPoint pp cv pf1 bp pf2 t (simDl (st.dl pp) (val e) (ofF cv d)))
      (fun o' => match simulate cv (hash val v0 o') pp.bullet st.C (val y) (val z) (val x) s tr with
          | none => 0 | some (bp, t) => D o' (some (st.ctx pf1 bp pf2 (simDl (st.dl pp) (val e) (ofF cv d))))) e]
  · refine sum_congr rfl fun o _ => ?_
    obtain ⟨bp, t, hsim, ht, -, -, -, hcongr⟩ := loc (hash val v0 (prog l o))
    have hnot : st.lastPoint pp cv pf1 bp pf2 t (simDl (st.dl pp) (val e) (ofF cv d)) ∉ l.map Prod.fst := by
      intro hm
      have := hl _ hm
      have := lenP bp t (simDl (st.dl pp) (val e) (ofF cv d))
      omega
    have hsim' := hcongr (hash val v0 (prog l (put o (st.lastPoint pp cv pf1 bp pf2 t (simDl (st.dl pp) (val e) (ofF cv d))) e))) (by
      intro b hb
      have hne : b ≠ st.lastPoint pp cv pf1 bp pf2 t (simDl (st.dl pp) (val e) (ofF cv d)) := by
        rintro rfl
        have := lenP bp t (simDl (st.dl pp) (val e) (ofF cv d))
        omega
      rw [hash, hash, prog_put _ _ _ _ hnot, ext_put_ne _ _ _ _ _ hne])
    simp only [simLast, hsim, hsim']
  · intro o
    obtain ⟨bp, t, hsim, -⟩ := loc (hash val v0 (prog l o))
    simp only [hsim]
    exact hQ _ _ _ _ hsim
  · intro o hm
    obtain ⟨bp, t, hsim, ht, -⟩ := loc (hash val v0 (prog l o))
    simp only [hsim] at hm
    have := hl _ hm
    have := lenP bp t (simDl (st.dl pp) (val e) (ofF cv d))
    omega
  · intro o e'
    obtain ⟨bp, t, hsim, ht, -, -, -, hcongr⟩ := loc (hash val v0 (prog l o))
    have hnot : st.lastPoint pp cv pf1 bp pf2 t (simDl (st.dl pp) (val e) (ofF cv d)) ∉ l.map Prod.fst := by
      intro hm
      have := hl _ hm
      have := lenP bp t (simDl (st.dl pp) (val e) (ofF cv d))
      omega
    have hsim' := hcongr (hash val v0 (prog l (put o (st.lastPoint pp cv pf1 bp pf2 t (simDl (st.dl pp) (val e) (ofF cv d))) e'))) (by
      intro b hb
      have hne : b ≠ st.lastPoint pp cv pf1 bp pf2 t (simDl (st.dl pp) (val e) (ofF cv d)) := by
        rintro rfl
        have := lenP bp t (simDl (st.dl pp) (val e) (ofF cv d))
        omega
      rw [hash, hash, prog_put _ _ _ _ hnot, ext_put_ne _ _ _ _ _ hne])
    simp only [hsim, hsim']

/-- The strings hashed for a transaction are not longer than this: `W` bytes for a point, at most `B` for a number below the order or a
challenge, `2^k` bits in the range proof. -/
def hashedLen (W B k : ℕ) (sn : ℤ) : ℕ := (45 + 4 * k) * W + 8 * B + (hexString sn).length

/-- What the comparison needs: sizes of the parameters, an oracle for all strings that are hashed, challenges that are no multiples of the
order. -/
structure Setting (cv : Curve G) (pp : PP G) (val : V → ℤ) (Q : Finset Bytes) (W B k : ℕ) (sn : ℤ) : Prop where
  base_g : pp.bullet.g = pp.enc.g
  base_h : pp.bullet.h = pp.enc.h
  pow : pp.bullet.rangeLen * 2 = 2 ^ k
  small : k < 64
  lenG : pp.bullet.rangeLen * 2 ≤ pp.bullet.vecG.length
  lenH : pp.bullet.rangeLen * 2 ≤ pp.bullet.vecH.length
  gen : ∀ P : G, ∃ a : ℤ, P = a • pp.enc.g
  ne : pp.enc.h ≠ 0
  enc : cv.Encodes W
  pos : 0 < W
  chal : ∀ e, ¬ (cv.order : ℤ) ∣ val e
  bytes : ∀ a : ℤ, 0 ≤ a → a < cv.order → (BigInt.toByteString a).length ≤ B
  bytesV : ∀ e, (BigInt.toByteString (val e)).length ≤ B
  all : ∀ b : Bytes, b.length ≤ hashedLen W B k sn → b ∈ Q

/-- What is left to draw after the proof of plaintext knowledge. -/
noncomputable def realB (cv : Curve G) [Fintype (ZMod cv.order)] (pp : PP G) (val : V → ℤ) (v0 : V) (D : (Q → V) → Option (ToOne G) → ℝ)
    (st : Statement G) (sk v m r rStar : ℤ) (pf1 : PlaintextEquality.Proof G) (o : Q → V) (p2 : PlaintextKnowledge.Proof G × Bytes) : ℝ :=
  ∑ c3 : Shape cv.order (pp.bullet.rangeLen * 2), realLast cv pp val v0 D st sk pf1 p2.1 o
    (Bullet.prove cv (hash val v0 o) pp.bullet 2 [r, rStar] [v, m - v] (coinsOf cv c3) p2.2)

/-- What is left to draw after the proof of plaintext equality. -/
noncomputable def realK (cv : Curve G) [Fintype (ZMod cv.order)] (pp : PP G) (val : V → ℤ) (v0 : V) (D : (Q → V) → Option (ToOne G) → ℝ)
    (st : Statement G) (sk v m r rStar : ℤ) (o : Q → V) (p1 : PlaintextEquality.Proof G × Bytes) : ℝ :=
  ∑ c2 : ZMod cv.order × ZMod cv.order, realB cv pp val v0 D st sk v m r rStar p1.1 o
    (PlaintextKnowledge.prove cv pp.enc (hash val v0 o) st.kn (m - v) rStar (ofF cv c2.1) (ofF cv c2.2) p1.2)

section lengths

variable (cv : Curve G) {W : ℕ} (hE : cv.Encodes W) (pp : PP G) (st : Statement G)
include hE

omit [DecidableEq G] in
theorem len_eq (hvX : st.transfer.vecX.length = 3) (e z t : ℤ) :
    (eqPoint cv (st.eq pp) [] (simEq pp.enc (st.eq pp) e z t)).length = 11 * W := by
  have h3 : ((st.eq pp).vecPk).length = 3 := rfl
  have h4 : ((st.eq pp).ct.vecX).length = 3 := hvX
  simp only [eqPoint, simEq, List.length_append, hE.flatten_length, hE.len, List.length_zipWith, h3, h4, List.length_nil, Nat.min_self]
  omega

omit [DecidableEq G] in
theorem len_kn (x : PlaintextKnowledge.Instance G) (t : Bytes) (pf : PlaintextKnowledge.Proof G) : (knPoint cv x t pf).length = t.length + 5 * W := by
  simp only [knPoint, List.length_append, hE.len]
  omega

theorem len_Y (s : SimCoins) (t : Bytes) : (pointY cv pp.bullet s t).length = t.length + W := by
  simp only [pointY, List.length_append, hE.len]

theorem len_Z (n : ℕ) (y z x : ℤ) (s : SimCoins) (t : Bytes) : (pointZ cv pp.bullet n y z x s t).length = t.length + 2 * W := by
  simp only [pointZ, List.length_append, hE.len, len_Y cv hE pp]
  omega

theorem len_X (n : ℕ) (C : List G) (y z x : ℤ) (s : SimCoins) (t : Bytes) : (pointX cv pp.bullet n C y z x s t).length = t.length + 4 * W := by
  simp only [pointX, List.length_append, hE.len, len_Z cv hE pp]
  omega

end lengths

theorem bullet_step (cv : Curve G) [Fintype (ZMod cv.order)] (pp : PP G) (val : V → ℤ) (v0 : V) {W B k : ℕ} {sn : ℤ}
    (hS : Setting cv pp val Q W B k sn) (D : (Q → V) → Option (ToOne G) → ℝ) (st : Statement G) (sk : ℤ) (v m : ℕ) (r rStar : ℤ)
    (hC : st.C = List.zipWith (fun (a : ℤ) (m : ℕ) => a • pp.bullet.g + m • pp.bullet.h) [r, rStar] [v, m - v])
    (hv : v ≤ m) (hv1 : v < 2 ^ pp.bullet.rangeLen) (hv2 : m - v < 2 ^ pp.bullet.rangeLen)
    (pf1 : PlaintextEquality.Proof G) (pf2 : PlaintextKnowledge.Proof G) (p2 : Bytes) (hp2 : p2.length + 4 * W ≤ hashedLen W B k sn)
    (l : List (Bytes × V)) (hl : ∀ b ∈ l.map Prod.fst, b.length ≤ p2.length) :
    (Fintype.card V : ℝ) ^ 3 * ∑ o, realB cv pp val v0 D st sk v m r rStar pf1 (prog l o) (pf2, p2) =
      ∑ y, ∑ z, ∑ x, ∑ s : Shape cv.order (pp.bullet.rangeLen * 2), ∑ o,
        realLast cv pp val v0 D st sk pf1 pf2 (prog (l ++ [(pointY cv pp.bullet (simOf cv s) p2, y),
          (pointZ cv pp.bullet 2 (val y) (val z) (val x) (simOf cv s) p2, z),
          (pointX cv pp.bullet 2 st.C (val y) (val z) (val x) (simOf cv s) p2, x)]) o)
        (simulate cv (hash val v0 (prog (l ++ [(pointY cv pp.bullet (simOf cv s) p2, y),
          (pointZ cv pp.bullet 2 (val y) (val z) (val x) (simOf cv s) p2, z),
          (pointX cv pp.bullet 2 st.C (val y) (val z) (val x) (simOf cv s) p2, x)]) o)) pp.bullet st.C (val y) (val z) (val x) (simOf cv s) p2) := by
  have hpos := hS.pos
  have hvs : [(v : ℤ), (m : ℤ) - v] = ([v, m - v] : List ℕ).map (Nat.cast : ℕ → ℤ) := by
    simp [Nat.cast_sub hv]
  have e1 : ∀ o : Q → V, realB cv pp val v0 D st sk v m r rStar pf1 o (pf2, p2) = ∑ y, ∑ z, ∑ x, ∑ s : Shape cv.order (pp.bullet.rangeLen * 2),
      if ext v0 o (pointY cv pp.bullet (simOf cv s) p2) = y then
        (if ext v0 o (pointZ cv pp.bullet 2 (val y) (val z) (val x) (simOf cv s) p2) = z then
          (if ext v0 o (pointX cv pp.bullet 2 st.C (val y) (val z) (val x) (simOf cv s) p2) = x then
            realLast cv pp val v0 D st sk pf1 pf2 o (simulate cv (hash val v0 o) pp.bullet st.C (val y) (val z) (val x) (simOf cv s) p2) else 0) else 0)
        else 0 := by
    intro o
    unfold realB
    rw [hvs]
    refine (sum_bullet cv (ext v0 o) val hS.chal pp.bullet 2 k [r, rStar] [v, m - v] st.C p2 hS.pow hS.small hS.lenG hS.lenH rfl rfl ?_
      (by rw [hS.base_g]; exact hS.gen) (by rw [hS.base_h]; exact hS.ne) hC fun p => realLast cv pp val v0 D st sk pf1 pf2 o p).trans ?_
    · intro a ha
      simp only [List.mem_cons, List.not_mem_nil, or_false] at ha
      rcases ha with rfl | rfl
      · exact hv1
      · exact hv2
    · simp only [ite_and]
      rfl
  simp only [e1]
  rw [sum_comm, mul_sum]
  refine sum_congr rfl fun y _ => ?_
  rw [sum_comm, mul_sum]
  refine sum_congr rfl fun z _ => ?_
  rw [sum_comm, mul_sum]
  refine sum_congr rfl fun x _ => ?_
  rw [sum_comm, mul_sum]
  refine sum_congr rfl fun s _ => ?_
  have lY := len_Y cv hS.enc pp (simOf cv s) p2
  have lZ := len_Z cv hS.enc pp 2 (val y) (val z) (val x) (simOf cv s) p2
  have lX := len_X cv hS.enc pp 2 st.C (val y) (val z) (val x) (simOf cv s) p2
  generalize pointY cv pp.bullet (simOf cv s) p2 = pY at *
  generalize pointZ cv pp.bullet 2 (val y) (val z) (val x) (simOf cv s) p2 = pZ at *
  generalize pointX cv pp.bullet 2 st.C (val y) (val z) (val x) (simOf cv s) p2 = pX at *
  have nY : pY ∉ l.map Prod.fst := fun h => by have := hl _ h; omega
  have nZ : pZ ∉ (l ++ [(pY, y)]).map Prod.fst := by
    intro h
    simp only [List.map_append, List.map_cons, List.map_nil, List.mem_append, List.mem_singleton] at h
    rcases h with h | h
    · have := hl _ h; omega
    · rw [h] at lZ; omega
  have nX : pX ∉ (l ++ [(pY, y)] ++ [(pZ, z)]).map Prod.fst := by
    intro h
    simp only [List.map_append, List.map_cons, List.map_nil, List.mem_append, List.mem_singleton] at h
    rcases h with (h | h) | h
    · have := hl _ h; omega
    · rw [h] at lX; omega
    · rw [h] at lX; omega
  have t1 := sum_step_const v0 l pY (fun o => if ext v0 o pZ = z then (if ext v0 o pX = x then realLast cv pp val v0 D st sk pf1 pf2 o
    (simulate cv (hash val v0 o) pp.bullet st.C (val y) (val z) (val x) (simOf cv s) p2) else 0) else 0) y (hS.all _ (by omega)) nY
  have t2 := sum_step_const v0 (l ++ [(pY, y)]) pZ (fun o => if ext v0 o pX = x then realLast cv pp val v0 D st sk pf1 pf2 o
    (simulate cv (hash val v0 o) pp.bullet st.C (val y) (val z) (val x) (simOf cv s) p2) else 0) z (hS.all _ (by omega)) nZ
  have t3 := sum_step_const v0 (l ++ [(pY, y)] ++ [(pZ, z)]) pX (fun o => realLast cv pp val v0 D st sk pf1 pf2 o
    (simulate cv (hash val v0 o) pp.bullet st.C (val y) (val z) (val x) (simOf cv s) p2)) x (hS.all _ (by omega)) nX
  rw [show (Fintype.card V : ℝ) ^ 3 = Fintype.card V * (Fintype.card V * Fintype.card V) by ring, mul_assoc, mul_assoc, t1, t2, t3]
  simp only [List.append_assoc, List.cons_append, List.nil_append]

theorem kn_step (cv : Curve G) [Fintype (ZMod cv.order)] (pp : PP G) (val : V → ℤ) (v0 : V) {W B k : ℕ} {sn : ℤ}
    (hS : Setting cv pp val Q W B k sn) (D : (Q → V) → Option (ToOne G) → ℝ) (st : Statement G) (sk v m r rStar : ℤ)
    (hR : st.refresh = Twisted.enc pp.enc st.pks (m - v) rStar)
    (pf1 : PlaintextEquality.Proof G) (p1 : Bytes) (hp1 : p1.length + 5 * W ≤ hashedLen W B k sn)
    (l : List (Bytes × V)) (hl : ∀ b ∈ l.map Prod.fst, b.length ≤ p1.length) :
    (Fintype.card V : ℝ) * ∑ o, realK cv pp val v0 D st sk v m r rStar (prog l o) (pf1, p1) =
      ∑ e, ∑ w : ZMod cv.order × ZMod cv.order, ∑ o, realB cv pp val v0 D st sk v m r rStar pf1
        (prog (l ++ [(knPoint cv st.kn p1 (simKn pp.enc st.kn (val e) (ofF cv w.1) (ofF cv w.2)), e)]) o)
        (simKn pp.enc st.kn (val e) (ofF cv w.1) (ofF cv w.2), knPoint cv st.kn p1 (simKn pp.enc st.kn (val e) (ofF cv w.1) (ofF cv w.2))) := by
  have hpos := hS.pos
  have hkn : st.kn = ⟨st.pks, Twisted.enc pp.enc st.pks (m - v) rStar⟩ := by rw [Statement.kn, hR]
  refine stage v0 l (fun o (c2 : ZMod cv.order × ZMod cv.order) => realB cv pp val v0 D st sk v m r rStar pf1 o
    (PlaintextKnowledge.prove cv pp.enc (hash val v0 o) st.kn (m - v) rStar (ofF cv c2.1) (ofF cv c2.2) p1))
    (fun e (w : ZMod cv.order × ZMod cv.order) => knPoint cv st.kn p1 (simKn pp.enc st.kn (val e) (ofF cv w.1) (ofF cv w.2)))
    (fun o e (w : ZMod cv.order × ZMod cv.order) => realB cv pp val v0 D st sk v m r rStar pf1 o
        (simKn pp.enc st.kn (val e) (ofF cv w.1) (ofF cv w.2), knPoint cv st.kn p1 (simKn pp.enc st.kn (val e) (ofF cv w.1) (ofF cv w.2)))) ?_ ?_ ?_
  · intro o
    rw [hkn]
    exact sum_kn cv (ext v0 o) val pp.enc st.pks (m - v) rStar p1 fun p => realB cv pp val v0 D st sk v m r rStar pf1 o p
  · intro e w
    exact hS.all _ (by rw [len_kn cv hS.enc]; exact hp1)
  · intro e w h
    have := hl _ h
    rw [len_kn cv hS.enc] at this
    omega

theorem eq_step (cv : Curve G) [Fintype (ZMod cv.order)] (pp : PP G) (val : V → ℤ) (v0 : V) {W B k : ℕ} (a : Account G)
    (hS : Setting cv pp val Q W B k a.sn) (D : (Q → V) → Option (ToOne G) → ℝ) (v : ℤ) (pkr : G) (r rStar : ℤ) (ha : Sane cv pp a) :
    let st := statement pp a v pkr r rStar
    (Fintype.card V : ℝ) * realSum cv pp val v0 D a v pkr r rStar =
      ∑ e, ∑ w : ZMod cv.order × ZMod cv.order, ∑ o, realK cv pp val v0 D st a.sk v a.m r rStar
        (prog [(eqPoint cv (st.eq pp) [] (simEq pp.enc (st.eq pp) (val e) (ofF cv w.1) (ofF cv w.2)), e)] o)
        (simEq pp.enc (st.eq pp) (val e) (ofF cv w.1) (ofF cv w.2), eqPoint cv (st.eq pp) [] (simEq pp.enc (st.eq pp) (val e) (ofF cv w.1) (ofF cv w.2))) := by
  intro st
  have hvX : st.transfer.vecX.length = 3 := by simp [st, statement, Twisted.encMulti]
  refine stage v0 [] (fun o (c1 : ZMod cv.order × ZMod cv.order) => ∑ c2 : ZMod cv.order × ZMod cv.order, ∑ c3 : Shape cv.order (pp.bullet.rangeLen * 2),
    ∑ c4 : ZMod cv.order, D o (createCTx cv (hash val v0 o) pp a v pkr
      ⟨r, ofF cv c1.1, ofF cv c1.2, rStar, ofF cv c2.1, ofF cv c2.2, coinsOf cv c3, ofF cv c4⟩))
    (fun e (w : ZMod cv.order × ZMod cv.order) => eqPoint cv (st.eq pp) [] (simEq pp.enc (st.eq pp) (val e) (ofF cv w.1) (ofF cv w.2)))
    (fun o e (w : ZMod cv.order × ZMod cv.order) => realK cv pp val v0 D st a.sk v a.m r rStar o
        (simEq pp.enc (st.eq pp) (val e) (ofF cv w.1) (ofF cv w.2), eqPoint cv (st.eq pp) [] (simEq pp.enc (st.eq pp) (val e) (ofF cv w.1) (ofF cv w.2)))) ?_ ?_ ?_
  · intro o
    simp only [createCTx_eq cv _ pp a v pkr _ ha]
    exact sum_eq cv (ext v0 o) val pp.enc [a.pk, pkr, pp.pka] v r [] fun p => ∑ c2 : ZMod cv.order × ZMod cv.order,
      ∑ c3 : Shape cv.order (pp.bullet.rangeLen * 2), ∑ c4 : ZMod cv.order, D o (p.bind fun p1 =>
        let p2 := PlaintextKnowledge.prove cv pp.enc (hash val v0 o) st.kn (a.m - v) rStar (ofF cv c2.1) (ofF cv c2.2) p1.2
        (Bullet.prove cv (hash val v0 o) pp.bullet 2 [r, rStar] [v, a.m - v] (coinsOf cv c3) p2.2).bind fun p3 =>
          some (st.ctx p1.1 p3.1 p2.1 (DLOGEquality.prove cv (hash val v0 o) (st.dl pp) a.sk (ofF cv c4)
              (p3.2 ++ toSign cv (st.ctx p1.1 p3.1 p2.1 ⟨0, 0, 0⟩))).1))
  · intro e w
    refine hS.all _ ?_
    rw [len_eq cv hS.enc pp st hvX]
    unfold hashedLen
    have : 11 * W ≤ (45 + 4 * k) * W := Nat.mul_le_mul_right _ (by omega)
    omega
  · intro e w
    simp

/-- `CreateCTx`, summed over all oracles and all scalars of the proofs, is the simulator, summed over all it draws. -/
theorem real_eq_sim (cv : Curve G) [Fintype (ZMod cv.order)] (pp : PP G) (val : V → ℤ) (v0 : V) {W B k : ℕ} (a : Account G)
    (hS : Setting cv pp val Q W B k a.sn) (D : (Q → V) → Option (ToOne G) → ℝ) (v m : ℕ) (pkr : G) (r rStar : ℤ) (ha : Sane cv pp a)
    (hm : a.m = m) (hv : v ≤ m) (hv1 : v < 2 ^ pp.bullet.rangeLen) (hv2 : m - v < 2 ^ pp.bullet.rangeLen) :
    (Fintype.card V : ℝ) ^ 6 * realSum cv pp val v0 D a v pkr r rStar = simSum cv pp val v0 D (statement pp a v pkr r rStar) := by
  obtain ⟨d1, d2⟩ := dl_statement cv pp a v pkr r rStar ha
  have a1 := eq_step cv pp val v0 a hS D v pkr r rStar ha
  have hsn : (statement pp a v pkr r rStar).sn = a.sn := rfl
  have hpk : (statement pp a v pkr r rStar).pks = a.pk := rfl
  have hR : (statement pp a v pkr r rStar).refresh = Twisted.enc pp.enc (statement pp a v pkr r rStar).pks (a.m - v) rStar := rfl
  have hvX : (statement pp a v pkr r rStar).transfer.vecX.length = 3 := by simp [statement, Twisted.encMulti]
  have hCC : (statement pp a v pkr r rStar).C = List.zipWith (fun (a : ℤ) (m : ℕ) => a • pp.bullet.g + m • pp.bullet.h) [r, rStar] [v, m - v] := by
    rw [hS.base_g, hS.base_h]
    simp only [Statement.C, statement, Twisted.encMulti, Twisted.enc, msm_two, List.zipWith_cons_cons, List.zipWith_nil_left, hm,
      natCast_zsmul]
    rw [← natCast_zsmul pp.enc.h (m - v), Nat.cast_sub hv]
  dsimp only at a1
  rw [hm] at a1 hR
  generalize statement pp a v pkr r rStar = st at *
  rw [show (Fintype.card V : ℝ) ^ 6 = (Fintype.card V : ℝ) ^ 5 * Fintype.card V by ring, mul_assoc, a1]
  unfold simSum
  rw [mul_sum]
  refine sum_congr rfl fun e1 _ => ?_
  rw [mul_sum]
  refine sum_congr rfl fun w1 _ => ?_
  dsimp only
  have l1 := len_eq cv hS.enc pp st hvX (val e1) (ofF cv w1.1) (ofF cv w1.2)
  have lA := hS.enc.flatten_length (simEq pp.enc (st.eq pp) (val e1) (ofF cv w1.1) (ofF cv w1.2)).vecA
  have lA3 : (simEq pp.enc (st.eq pp) (val e1) (ofF cv w1.1) (ofF cv w1.2)).vecA.length = 3 := by
    simp only [simEq, Statement.eq, List.length_zipWith, hvX, List.length_cons, List.length_nil]
    rfl
  rw [lA3] at lA
  generalize simEq pp.enc (st.eq pp) (val e1) (ofF cv w1.1) (ofF cv w1.2) = pf1 at *
  generalize eqPoint cv (st.eq pp) [] pf1 = p1 at *
  have big : 45 * W + 4 * (k * W) + 8 * B + (hexString a.sn).length = hashedLen W B k a.sn := by unfold hashedLen; ring
  rw [show (Fintype.card V : ℝ) ^ 5 = (Fintype.card V : ℝ) ^ 4 * Fintype.card V by ring, mul_assoc,
    kn_step cv pp val v0 hS D st a.sk v m r rStar hR pf1 p1 (by omega) _ (by simp)]
  rw [mul_sum]
  refine sum_congr rfl fun e2 _ => ?_
  rw [mul_sum]
  refine sum_congr rfl fun w2 _ => ?_
  have l2 := len_kn cv hS.enc st.kn p1 (simKn pp.enc st.kn (val e2) (ofF cv w2.1) (ofF cv w2.2))
  have z1 : (simKn pp.enc st.kn (val e2) (ofF cv w2.1) (ofF cv w2.2)).z1 = ofF cv w2.1 := rfl
  have z2 : (simKn pp.enc st.kn (val e2) (ofF cv w2.1) (ofF cv w2.2)).z2 = ofF cv w2.2 := rfl
  generalize simKn pp.enc st.kn (val e2) (ofF cv w2.1) (ofF cv w2.2) = pf2 at *
  generalize knPoint cv st.kn p1 pf2 = p2 at *
  rw [show (Fintype.card V : ℝ) ^ 4 = (Fintype.card V : ℝ) * (Fintype.card V : ℝ) ^ 3 by ring, mul_assoc,
    bullet_step cv pp val v0 hS D st a.sk v m r rStar hCC hv hv1 hv2 pf1 pf2 p2 (by omega) _ (by simp; omega)]
  rw [mul_sum]
  refine sum_congr rfl fun y _ => ?_
  rw [mul_sum]
  refine sum_congr rfl fun z _ => ?_
  rw [mul_sum]
  refine sum_congr rfl fun x _ => ?_
  rw [mul_sum]
  refine sum_congr rfl fun s _ => ?_
  have lY := len_Y cv hS.enc pp (simOf cv s) p2
  have lZ := len_Z cv hS.enc pp 2 (val y) (val z) (val x) (simOf cv s) p2
  have lX := len_X cv hS.enc pp 2 st.C (val y) (val z) (val x) (simOf cv s) p2
  refine last_step cv hS.enc hS.pos pp val v0 D st a.sk d1 d2 k hS.pow hS.small hS.lenG _ pf1 pf2 p2 y z x (simOf cv s) (simOf_ok cv s) ?_ ?_
  · intro b hb
    simp only [List.cons_append, List.nil_append, List.map_cons, List.map_nil, List.mem_cons, List.not_mem_nil, or_false] at hb
    rcases hb with rfl | rfl | rfl | rfl | rfl <;> omega
  · intro o bp t d hsim
    have hC2 : st.C.length = 2 := rfl
    obtain ⟨bp', t', hsim', ht, k1, k2, hcan, -⟩ := simulate_local cv hS.enc (hash val v0 o) pp.bullet st.C k (simOf cv s) p2 (val y) (val z) (val x)
      (by rw [hC2]; exact hS.pow) hS.small (by rw [hC2]; exact hS.lenG) (by rw [hC2]; exact simOf_ok cv s)
    rw [hsim, Option.some.injEq, Prod.mk.injEq] at hsim'
    obtain ⟨rfl, rfl⟩ := hsim'
    rw [hC2, lX] at ht
    refine hS.all _ ?_
    have b1 := hS.bytesV x
    have bb : ∀ c ∈ [bp.taux, bp.mu, bp.tx, bp.ip.a, bp.ip.b], (BigInt.toByteString c).length ≤ B := fun c hc =>
      hS.bytes c (hcan c hc).1 (hcan c hc).2
    have b2 := bb bp.taux (by simp)
    have b3 := bb bp.mu (by simp)
    have b4 := bb bp.tx (by simp)
    have b5 := bb bp.ip.a (by simp)
    have b6 := bb bp.ip.b (by simp)
    have b7 := hS.bytes _ (ofF_range cv w2.1).1 (ofF_range cv w2.1).2
    have b8 := hS.bytes _ (ofF_range cv w2.2).1 (ofF_range cv w2.2).2
    rw [← z1] at b7
    rw [← z2] at b8
    rw [← big]
    simp only [Statement.lastPoint, dlPoint, DLOGEquality.initTranscript, toSign, ctBytes, mrctBytes, PlaintextEquality.proofToByteString,
      Bullet.proofToByteString, InnerProduct.proofToByteString, PlaintextKnowledge.proofToByteString, Statement.ctx, List.length_append,
      hS.enc.len, hS.enc.flatten_length, hvX, lA3, k1, k2, ht, hsn]
    have q1 : W * k = k * W := Nat.mul_comm _ _
    have q2 : 2 * W * k = 2 * (k * W) := by ring
    rw [q1, q2]
    omega

end ADCP

end Kunlun
