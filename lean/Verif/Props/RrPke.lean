import Verif.Model.RrPke
import Verif.Props.VoleOprf
/-!
Properties of the membership test of `mpc/rpmt/rrpke_mqrpmt.hpp` (model in `Verif/Model/RrPke.lean`).
-/

namespace Kunlun.RrPke

open Kunlun Kunlun.Proto Kunlun.OKVS Kunlun.Baxos Kunlun.VOLEOPRF

variable {G : Type} [AddCommGroup G] [DecidableEq G]

/-! ### Encodings -/

theorem arrBytes_length (v : Arr) : (arrBytes v).length = 144 := by
  unfold arrBytes
  rw [OTEOPRF.flatten_length _ 16 (fun b h => by
    obtain ⟨i, rfl⟩ := List.mem_ofFn.1 h
    exact Block.toBytes_length _), List.length_ofFn]

theorem arrOf_arrBytes (v : Arr) : arrOf (arrBytes v) = v := by
  funext i
  unfold arrOf arrBytes
  rw [Nat.mul_comm, OTEOPRF.flatten_drop_take _ 16 i.val (fun b h => by
    obtain ⟨i, rfl⟩ := List.mem_ofFn.1 h
    exact Block.toBytes_length _) (by simp), List.getElem_ofFn, Block.ofBytes_toBytes]

theorem arrBytes_arrOf (b : Bytes) (h : b.length = 144) : arrBytes (arrOf b) = b := by
  apply List.ext_getElem
  · rw [arrBytes_length, h]
  intro k h1 h2
  have hk : k < 144 := by omega
  have hseg : ((arrBytes (arrOf b)).drop (k / 16 * 16)).take 16 = (b.drop (16 * (k / 16))).take 16 := by
    unfold arrBytes
    rw [OTEOPRF.flatten_drop_take _ 16 (k / 16) (fun b h => by
      obtain ⟨i, rfl⟩ := List.mem_ofFn.1 h
      exact Block.toBytes_length _) (by rw [List.length_ofFn]; omega), List.getElem_ofFn]
    unfold arrOf
    exact Block.toBytes_ofBytes _ (by rw [List.length_take, List.length_drop, h]; omega)
  have e := congrArg (fun l => l[k % 16]?) hseg
  rw [List.getElem?_take_of_lt (Nat.mod_lt _ (by decide)), List.getElem?_take_of_lt (Nat.mod_lt _ (by decide)), List.getElem?_drop, List.getElem?_drop,
    show k / 16 * 16 + k % 16 = k by omega, show 16 * (k / 16) + k % 16 = k by omega, List.getElem?_eq_getElem h1, List.getElem?_eq_getElem h2] at e
  exact Option.some.inj e

theorem arrsBytes_length (l : List Arr) : (arrsBytes l).length = l.length * 144 := by
  unfold arrsBytes
  rw [OTEOPRF.flatten_length _ 144 (fun b h => by
    obtain ⟨v, -, rfl⟩ := List.mem_map.1 h
    exact arrBytes_length v), List.length_map]

theorem arrAt_arrsBytes (l : List Arr) (i : Nat) (hi : i < l.length) : arrAt (arrsBytes l) i = l[i] := by
  unfold arrAt arrsBytes
  rw [Nat.mul_comm, OTEOPRF.flatten_drop_take _ 144 i (fun b h => by
    obtain ⟨v, -, rfl⟩ := List.mem_map.1 h
    exact arrBytes_length v) (by simpa using hi), List.getElem_map, arrOf_arrBytes]

theorem putPoint_length (C : Ser.PointCodec G) (p : G) : (Ser.putPoint C (List.replicate C.byteLen 0) p).length = C.byteLen := by
  unfold Ser.putPoint
  have := C.byteLen_pos
  by_cases h : p = C.inf
  · rw [h, C.enc_inf]; simp; omega
  · rw [List.length_append, C.enc_len p h]; simp [C.enc_len p h]

theorem getPt_putPoint (C : Ser.PointCodec G) (p : G) : getPt C (Ser.putPoint C (List.replicate C.byteLen 0) p) = p := by
  have hl := putPoint_length C p
  unfold getPt
  by_cases h : p = C.inf
  · have e : Ser.putPoint C (List.replicate C.byteLen 0) p = 0 :: List.drop 1 (List.replicate C.byteLen 0) := by
      unfold Ser.putPoint; rw [h, C.enc_inf]; rfl
    rw [e] at hl ⊢
    rw [C.dec_zero _ hl, h]; rfl
  · have e : Ser.putPoint C (List.replicate C.byteLen 0) p = C.enc p := by
      unfold Ser.putPoint; rw [C.enc_len p h]; simp
    rw [e, C.dec_enc p h]; rfl

theorem ctBytes_length (C : Ser.PointCodec G) (ct : CT G) : (ctBytes C ct).length = 2 * C.byteLen := by
  unfold ctBytes
  rw [List.length_append, putPoint_length, putPoint_length]; omega

/-- Every ciphertext, also one with the point at infinity, survives the way into a `BlockArrayValue` and back. -/
theorem ofArr_toArr (C : Ser.PointCodec G) (ct : CT G) (v : Arr) (h : toArr C ct = some v) : ofArr C v = ct := by
  unfold toArr at h
  split at h
  · cases h
  rename_i hb
  cases h
  have hl := ctBytes_length C ct
  unfold ofArr
  rw [arrBytes_arrOf _ (by rw [List.length_append, hl, List.length_replicate]; omega)]
  unfold ctOfBytes ctBytes
  have h1 := putPoint_length C ct.X
  have h2 := putPoint_length C ct.Y
  rw [List.append_assoc, List.take_left' h1, List.drop_left' h1, List.take_left' h2, getPt_putPoint, getPt_putPoint]

theorem toArr_some (C : Ser.PointCodec G) (hL : 2 * C.byteLen ≤ 144) (ct : CT G) : ∃ v, toArr C ct = some v := by
  unfold toArr
  rw [if_neg (by omega)]
  exact ⟨_, rfl⟩

/-- What the client sees of a value made from a ciphertext: two halves that are points, or zero, and then zeros. -/
def wellFormed (C : Ser.PointCodec G) (v : Arr) : Bool :=
  decide (arrBytes v = ctBytes C (ofArr C v) ++ List.replicate (144 - 2 * C.byteLen) 0)

theorem toArr_wellFormed (C : Ser.PointCodec G) (ct : CT G) (v : Arr) (h : toArr C ct = some v) : wellFormed C v = true := by
  have h0 := ofArr_toArr C ct v h
  unfold toArr at h
  split at h
  · cases h
  rename_i hb
  cases h
  unfold wellFormed
  rw [decide_eq_true_eq, h0, arrBytes_arrOf _ (by rw [List.length_append, ctBytes_length, List.length_replicate]; omega)]

/-! ### The protocol -/

/-- What the parties are assumed to have computed: the configuration, the values and the vector that `solve` returned. -/
structure Solved (e : Env G) (pp : PP) (sk : ℤ) (m : G) (r : Nat → ℤ) (Y : List Block) (c : BCfg) (vals : List Arr) (out : Nat → Arr) : Prop where
  cfg : cfgOf pp e.sizes = some c
  made : (List.range pp.serverLen).mapM (fun i => toArr e.net.C (ElGamal.enc e.g (ElGamal.keyGen e.g sk) m (r i))) = some vals
  solve : solve arrayOps c (e.threads % 256) e.junk (fun _ => none) (hashes e.fs Y) vals (fun _ => arrayOps.zero) = some out

theorem rrpke_run_then (e : Env G) (hn : e.net.Ok) (hL : 2 * e.net.C.byteLen ≤ 144) (pp : PP) (sk : ℤ) (hsk : sk • e.g ≠ 0) (m : G) (r r' : Nat → ℤ)
    (X Y : List Block) (hX : X.length = pp.clientLen) (hY : Y.length = pp.serverLen) (hT : 0 < e.threads % 256)
    {c : BCfg} {vals : List Arr} {out : Nat → Arr} (hs : Solved e pp sk m r Y c vals out) (hc : (c.cfg 0).Ok) (hf : Fit c (hashes e.fs X)) :
    ∃ dvs back, mkDividers c.w c.s = some dvs ∧
      (∀ (i : Nat) (x : Block), X[i]? = some x → ofArr e.net.C (arrAt back i)
        = ElGamal.reRand e.g (ElGamal.keyGen e.g sk) (ofArr e.net.C (val arrayOps c dvs out (AES.enc (PRG.setSeed e.fs 0).key x ^^^ x))) (r' i)) ∧
      ∀ {α : Type} (fin : Bytes → α), Runs (clientKeeps e pp r' X) (serverThen e pp sk m r Y fin)
        (X.map fun x => val arrayOps c dvs out (AES.enc (PRG.setSeed e.fs 0).key x ^^^ x)) (fin back) := by
  obtain ⟨-, h0, hB, hw, dvs, hd, h1⟩ := solve_facts hs.solve
  have hbin : c.binary = false := by
    have := hs.cfg
    unfold cfgOf at this
    obtain ⟨b, -, rfl⟩ := Option.map_eq_some_iff.1 this
    rfl
  set ds := X.map fun x => val arrayOps c dvs out (AES.enc (PRG.setSeed e.fs 0).key x ^^^ x) with hds
  have hdl : ds.length = pp.clientLen := by rw [hds, List.length_map, hX]
  choose back hback using fun ct => toArr_some e.net.C hL ct
  refine ⟨dvs, arrsBytes ((List.range pp.clientLen).map fun i => back (ElGamal.reRand e.g (ElGamal.keyGen e.g sk) (ofArr e.net.C (ds.getD i arrayOps.zero)) (r' i))),
    hd, fun i x hx => ?_, fun fin => ?_⟩
  · have hi : i < pp.clientLen := by
      rw [← hX]
      by_contra hn
      rw [List.getElem?_eq_none (by omega)] at hx
      cases hx
    rw [arrAt_arrsBytes _ i (by simpa using hi), List.getElem_map, List.getElem_range, ofArr_toArr _ _ _ (hback _)]
    have hg : ds.getD i arrayOps.zero = val arrayOps c dvs out (AES.enc (PRG.setSeed e.fs 0).key x ^^^ x) := by
      rw [List.getD_eq_getElem?_getD, hds, List.getElem?_map, hx]; rfl
    rw [hg]
  unfold clientKeeps serverThen
  rw [if_neg (by rw [not_not]; exact hX.symm), if_neg (by rw [not_not]; exact hY.symm), hs.cfg]
  simp only [hs.made, hs.solve]
  refine Runs.pointsRL e.net hn (ps := [ElGamal.keyGen e.g sk]) rfl (by intro p hp; rw [List.mem_singleton] at hp; rw [hp]; exact hsk) ?_
  simp only [List.getElem?_cons_zero]
  refine Runs.bytesRL e.net hn (by rw [arrsBytes_length]; simp) ?_
  have hdec : decodeAll arrayOps c (e.threads % 256) (arrAt (arrsBytes ((List.range (size c)).map out))) (fun _ => arrayOps.zero) (hashes e.fs X)
      = some ((hashes e.fs X).map (val arrayOps c dvs out)) := by
    rw [decodeAll_map arrayOps hbin hc hd (by omega) h0 hB (fun h => (h1 h).1) _ hT _ _ _ hf]
    congr 1
    apply List.map_congr_left
    intro d _
    apply val_congr arrayOps hc hd h0
    intro i hi
    rw [arrAt_arrsBytes _ i (by simpa using hi), List.getElem_map, List.getElem_range]
  rw [hdec]
  simp only
  have hmap : (hashes e.fs X).map (val arrayOps c dvs out) = ds := by
    unfold hashes VOLEOPRF.hashes setDense
    rw [List.map_map, hds]; rfl
  rw [hmap]
  have hb : (List.range pp.clientLen).mapM (fun i => toArr e.net.C (ElGamal.reRand e.g (ElGamal.keyGen e.g sk) (ofArr e.net.C (ds.getD i arrayOps.zero)) (r' i)))
      = some ((List.range pp.clientLen).map fun i => back (ElGamal.reRand e.g (ElGamal.keyGen e.g sk) (ofArr e.net.C (ds.getD i arrayOps.zero)) (r' i))) :=
    OKVS.mapM_eq_map _ _ _ fun i _ => hback _
  rw [hb]
  simp only
  refine Runs.bytesLR e.net hn (by rw [arrsBytes_length]; simp) ?_
  exact OTE.done_run rfl

theorem dec_reRand (g : G) (sk : ℤ) (ct : CT G) (t : ℤ) : ElGamal.dec sk (ElGamal.reRand g (ElGamal.keyGen g sk) ct t) = ElGamal.dec sk ct := by
  unfold ElGamal.dec ElGamal.reRand ElGamal.keyGen
  simp only
  rw [smul_add, smul_smul, smul_smul, mul_comm]
  abel

theorem rrpke_run (e : Env G) (hn : e.net.Ok) (hL : 2 * e.net.C.byteLen ≤ 144) (pp : PP) (sk : ℤ) (hsk : sk • e.g ≠ 0) (m : G) (r r' : Nat → ℤ)
    (X Y : List Block) (hX : X.length = pp.clientLen) (hY : Y.length = pp.serverLen) (hT : 0 < e.threads % 256)
    {c : BCfg} {vals : List Arr} {out : Nat → Arr} (hs : Solved e pp sk m r Y c vals out) (hc : (c.cfg 0).Ok) (hf : Fit c (hashes e.fs X)) :
    ∃ dvs, mkDividers c.w c.s = some dvs ∧
      Runs (clientKeeps e pp r' X) (server e pp sk m r Y) (X.map fun x => val arrayOps c dvs out (AES.enc (PRG.setSeed e.fs 0).key x ^^^ x))
        (X.map fun x => if m = ElGamal.dec sk (ofArr e.net.C (val arrayOps c dvs out (AES.enc (PRG.setSeed e.fs 0).key x ^^^ x))) then 1 else 0) := by
  obtain ⟨dvs, back, hd, hb, run⟩ := rrpke_run_then e hn hL pp sk hsk m r r' X Y hX hY hT hs hc hf
  refine ⟨dvs, hd, ?_⟩
  have h := run (bits e pp sk m)
  have e1 : bits e pp sk m back
      = X.map fun x => if m = ElGamal.dec sk (ofArr e.net.C (val arrayOps c dvs out (AES.enc (PRG.setSeed e.fs 0).key x ^^^ x))) then 1 else 0 := by
    unfold bits
    apply List.ext_getElem (by simp [hX])
    intro i h2 h3
    have hi : i < X.length := by simpa using h3
    rw [List.getElem_map, List.getElem_range, List.getElem_map, hb i X[i] (List.getElem?_eq_getElem hi), dec_reRand]
  rw [e1] at h
  exact h

/-- What the server sees: for each key of the client the decoded ciphertext, re-randomised with the client's own random number. -/
theorem rrpke_view (e : Env G) (hn : e.net.Ok) (hL : 2 * e.net.C.byteLen ≤ 144) (pp : PP) (sk : ℤ) (hsk : sk • e.g ≠ 0) (m : G) (r r' : Nat → ℤ)
    (X Y : List Block) (hX : X.length = pp.clientLen) (hY : Y.length = pp.serverLen) (hT : 0 < e.threads % 256)
    {c : BCfg} {vals : List Arr} {out : Nat → Arr} (hs : Solved e pp sk m r Y c vals out) (hc : (c.cfg 0).Ok) (hf : Fit c (hashes e.fs X)) :
    ∃ ds view, Runs (clientKeeps e pp r' X) (serverKeeps e pp sk m r Y) ds view ∧ ds.length = X.length ∧ view.length = X.length ∧
      ∀ (i : Nat) (d : Arr), ds[i]? = some d →
        view[i]? = some (ElGamal.reRand e.g (ElGamal.keyGen e.g sk) (ofArr e.net.C d) (r' i)) := by
  obtain ⟨dvs, back, -, hb, run⟩ := rrpke_run_then e hn hL pp sk hsk m r r' X Y hX hY hT hs hc hf
  refine ⟨_, _, run _, by simp, by simp [hX], fun i d hi => ?_⟩
  rw [List.getElem?_map] at hi
  obtain ⟨x, hx, rfl⟩ := Option.map_eq_some_iff.1 hi
  have hlt : i < pp.clientLen := by
    rw [← hX]
    by_contra hn
    rw [List.getElem?_eq_none (by omega)] at hx
    cases hx
  rw [List.getElem?_map, List.getElem?_range hlt, Option.map_some, hb i x hx]

end Kunlun.RrPke
