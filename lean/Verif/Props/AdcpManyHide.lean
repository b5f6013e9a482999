import Verif.Model.AdcpManySim
import Verif.Props.AdcpHide
import Verif.Props.AdcpLedger
/-!
C132: what a transaction of adcp/adcp.hpp with many receivers tells about the amounts. With hash values drawn at random, `CreateCTx` gives exactly what a
simulator gives that knows neither the amounts, the secret key nor the encryption randomness; and whoever sees the transaction and the whole hash function
tells two lists of amounts apart no better than Diffie-Hellman triples from random ones.
-/

namespace Kunlun.ADCP

open Finset Hiding Bullet

variable {G V : Type} [AddCommGroup G] [DecidableEq G] [Fintype V] [DecidableEq V] {Q : Finset Bytes}

/-- The number of draws of hash functions on `Q` and of scalars of the proofs for `n` receivers. -/
noncomputable def drawsMany (V : Type) [Fintype V] (Q : Finset Bytes) (cv : Curve G) [Fintype (ZMod cv.order)] (pp : PP G) (n : ℕ) : ℝ :=
  (Fintype.card (Q → V) : ℝ) * ((cv.order : ℝ) ^ (2 * n + 4) * (Fintype.card (Shape cv.order (pp.bullet.rangeLen * (n + 1))) : ℝ))

/-- The average answer of `D`, that sees the hash function and the transaction `CreateCTx` makes from the account `a`, over all hash functions and
all scalars the proofs draw: two for every receiver, two for the proof of plaintext knowledge, those of the range proof, one for each of the last two. -/
noncomputable def manyAvg (cv : Curve G) [Fintype (ZMod cv.order)] (pp : PP G) (val : V → ℤ) (v0 : V) (D : (Q → V) → Option (ToMany G) → ℝ)
    (a : Account G) (vs : List ℤ) (pkrs : List G) (r : ℤ) (rs : List ℤ) (rStar : ℤ) : ℝ :=
  (∑ o : Q → V, sumLists univ vs.length fun cs : List (ZMod cv.order × ZMod cv.order) => ∑ c2 : ZMod cv.order × ZMod cv.order,
    ∑ c3 : Shape cv.order (pp.bullet.rangeLen * (vs.length + 1)), ∑ c4 : ZMod cv.order, ∑ c5 : ZMod cv.order,
      D o (createMany cv (hash val v0 o) pp a vs pkrs r ⟨List.zipWith (fun r c => ⟨r, ofF cv c.1, ofF cv c.2⟩) rs cs, rStar, ofF cv c2.1, ofF cv c2.2,
        coinsOf cv c3, ofF cv c4, ofF cv c5⟩)) / drawsMany V Q cv pp vs.length

/-- The average answer of `D` to what the simulator makes of the public part `st` of a transaction. -/
noncomputable def simManyAvg (cv : Curve G) [Fintype (ZMod cv.order)] (pp : PP G) (val : V → ℤ) (v0 : V) (D : (Q → V) → Option (ToMany G) → ℝ)
    (n : ℕ) (st : ManyStatement G) : ℝ :=
  simMany cv pp val v0 D n st / ((Fintype.card V : ℝ) ^ (n + 6) * drawsMany V Q cv pp n)

/-- **C132** For random hash values the transaction of any account in order can be simulated from its public part: sequence number, balance ciphertext,
keys, the new ciphertexts. The two averages are equal, not only close, for every `D` and any number of receivers. -/
theorem adcp_many_simulated [Nonempty V] (cv : Curve G) [Fintype (ZMod cv.order)] (pp : PP G) (val : V → ℤ) (v0 : V) {W B k : ℕ} (a : Account G)
    (vs : List ℕ) (hS : SettingMany cv pp val Q W B k vs.length a.sn) (D : (Q → V) → Option (ToMany G) → ℝ) (m : ℕ) (pkrs : List G) (r : ℤ)
    (rs : List ℤ) (rStar : ℤ) (ha : Sane cv pp a) (h1 : pkrs.length = vs.length) (h2 : rs.length = vs.length) (hm : a.m = m) (hv : vs.sum ≤ m)
    (hv1 : ∀ v ∈ vs, v < 2 ^ pp.bullet.rangeLen) (hv2 : m - vs.sum < 2 ^ pp.bullet.rangeLen) :
    manyAvg cv pp val v0 D a (vs.map Nat.cast) pkrs r rs rStar =
      simManyAvg cv pp val v0 D vs.length ⟨a.sn, a.balance, a.pk, Twisted.enc pp.enc a.pk (vs.map Nat.cast).sum r, pkrs,
        legCts pp (vs.map Nat.cast) pkrs rs, Twisted.enc pp.enc a.pk (m - (vs.map Nat.cast).sum) rStar⟩ := by
  have h := realMany_eq_sim cv pp val v0 a vs hS D m pkrs r rs rStar ha h1 h2 hm hv hv1 hv2
  have hc : (Fintype.card V : ℝ) ^ (vs.length + 6) ≠ 0 := pow_ne_zero _ (Nat.cast_ne_zero.2 Fintype.card_ne_zero)
  have hlv : (vs.map (Nat.cast : ℕ → ℤ)).length = vs.length := List.length_map _
  unfold simManyAvg
  rw [manyStatement, hm] at h
  rw [← h, mul_div_mul_left _ _ hc]
  unfold manyAvg
  rw [hlv]
  unfold realMany
  rw [hlv]
  rfl

/-- The game: a secret key is drawn (the key 0 is not counted), an account with balance `m` is created, the amounts are chosen from the public key, the
receivers' and the supervisor's keys are `trs` and `ta` times the key, numbers for all ciphertexts are drawn and the transaction is made. -/
noncomputable def manyTransferGame (cv : Curve G) [Fintype (ZMod cv.order)] (pp : PP G) (val : V → ℤ) (v0 : V) (Hid : Bytes → ℤ) (id : Bytes) (sn : ℤ)
    (m : ℕ) (trs : List ℤ) (ta : ℤ) (vs : G → List ℕ) (D : (Q → V) → Option (ToMany G) → ℝ) : ℝ :=
  (∑ sk ∈ range cv.order, ∑ r ∈ range cv.order, sumLists (range cv.order) trs.length fun rs => ∑ rStar ∈ range cv.order,
    if sk = 0 then 0 else manyAvg cv { pp with pka := ta • (sk : ℤ) • pp.enc.g } val v0 D (createAccount Hid pp id m sn sk)
      ((vs ((sk : ℤ) • pp.enc.g)).map Nat.cast) (trs.map fun t => t • (sk : ℤ) • pp.enc.g) r (rs.map Nat.cast) rStar) /
    (cv.order : ℝ) ^ (trs.length + 3)

/-- The public part of a transaction made from a key and the points of its ciphertexts: the sender's, the receivers', the refreshed balance. -/
def publicMany (pp : PP G) (Hid : Bytes → ℤ) (id : Bytes) (sn : ℤ) (m : ℕ) (trs : List ℤ) (ta : ℤ) (pk : G) (p : G × G) (ps : List (G × G)) (p' : G × G) :
    ManyStatement G :=
  ⟨sn, Twisted.enc pp.enc pk m (Hid id), pk, ⟨p.2, p.1⟩, trs.map (fun t => t • pk),
    List.zipWith (fun t q => ⟨[t • q.2, ta • q.2], q.1⟩) trs ps, ⟨p'.2, p'.1⟩⟩

/-- What the ciphertexts hold, in the order in which they are made: the sum, the amounts, what is left. -/
def manyAmounts (m : ℕ) (vs : List ℕ) : List ℤ := (vs.map Nat.cast).sum :: (vs.map Nat.cast ++ [(m : ℤ) - (vs.map Nat.cast).sum])

/-- The next ciphertext. -/
def addMany (pp : PP G) (m : ℕ) (vs : G → List ℕ) (pk : G) (mem : List (G × G)) (X P : G) : List (G × G) :=
  mem ++ [(X + (((manyAmounts m (vs pk))[mem.length]?).getD 0) • pp.enc.h, P)]

/-- The attacker, run on a simulated transaction. -/
noncomputable def answerMany (cv : Curve G) [Fintype (ZMod cv.order)] (pp : PP G) (val : V → ℤ) (v0 : V) (Hid : Bytes → ℤ) (id : Bytes) (sn : ℤ)
    (m : ℕ) (trs : List ℤ) (ta : ℤ) (D : (Q → V) → Option (ToMany G) → ℝ) (pk : G) : List (G × G) → ℝ
  | [] => 0
  | p :: ps => if pk = 0 then 0 else simManyAvg cv { pp with pka := ta • pk } val v0 D trs.length
      (publicMany pp Hid id sn m trs ta pk p ps.dropLast (ps.getLast?.getD 0))

/-- A test of Diffie-Hellman triples that knows neither a secret key nor discrete logarithms: it makes the ciphertexts of the amounts `vs` from the
triple, simulates the proofs and runs `D` once. -/
noncomputable def manyTransferTest (cv : Curve G) [Fintype (ZMod cv.order)] (pp : PP G) (val : V → ℤ) (v0 : V) (Hid : Bytes → ℤ) (id : Bytes) (sn : ℤ)
    (m : ℕ) (trs : List ℤ) (ta : ℤ) (vs : G → List ℕ) (D : (Q → V) → Option (ToMany G) → ℝ) : G → G → G → ℝ :=
  manyDdh cv pp.enc.g (trs.length + 2) (fun _ => []) (addMany pp m vs) (answerMany cv pp val v0 Hid id sn m trs ta D)

theorem manyReal_lists {M : Type} (q : ℕ) (g A : G) (step : M → G → G → M) (D : M → ℝ) (n : ℕ) (v : M) :
    manyReal q g A step D n v = sumLists (range q) n fun rs => D (rs.foldl (fun (v : M) (r : ℕ) => step v ((r : ℤ) • g) ((r : ℤ) • A)) v) := by
  induction n generalizing v with
  | zero => rfl
  | succ n ih =>
    rw [manyReal, sumLists]
    refine sum_congr rfl fun r _ => ?_
    rw [ih]
    rfl

theorem sumLists_last {A : Type} (s : Finset A) (n : ℕ) (f : List A → ℝ) : sumLists s (n + 1) f = sumLists s n fun l => ∑ a ∈ s, f (l ++ [a]) := by
  induction n generalizing f with
  | zero => rfl
  | succ n ih =>
    rw [sumLists, sumLists]
    refine sum_congr rfl fun a _ => ?_
    rw [ih]
    rfl

theorem fold_addMany (pp : PP G) (m : ℕ) (vs : G → List ℕ) (pk : G) (rs : List ℕ) (mem : List (G × G))
    (h : mem.length + rs.length ≤ (manyAmounts m (vs pk)).length) :
    rs.foldl (fun (v : List (G × G)) (r : ℕ) => addMany pp m vs pk v ((r : ℤ) • pp.enc.g) ((r : ℤ) • pk)) mem =
      mem ++ List.zipWith (fun (c : ℤ) (r : ℕ) => ((r : ℤ) • pp.enc.g + c • pp.enc.h, (r : ℤ) • pk)) ((manyAmounts m (vs pk)).drop mem.length) rs := by
  induction rs generalizing mem with
  | nil => simp
  | cons r rs ih =>
    simp only [List.length_cons] at h
    have hlt : mem.length < (manyAmounts m (vs pk)).length := by omega
    rw [List.foldl_cons, ih _ (by simp only [addMany, List.length_append, List.length_cons, List.length_nil]; omega),
      List.drop_eq_getElem_cons hlt, List.zipWith_cons_cons]
    simp only [addMany, List.length_append, List.length_cons, List.length_nil, List.append_assoc, List.cons_append, List.nil_append, zero_add,
      List.getElem?_eq_getElem hlt, Option.getD_some]

theorem legCts_points (pp : PP G) (pk : G) (ta : ℤ) (trs vs : List ℤ) (rs : List ℕ) (h1 : vs.length = trs.length) (h2 : rs.length = trs.length) :
    legCts { pp with pka := ta • pk } vs (trs.map fun t => t • pk) (rs.map Nat.cast) =
      List.zipWith (fun t q => ⟨[t • q.2, ta • q.2], q.1⟩) trs
        (List.zipWith (fun (c : ℤ) (r : ℕ) => ((r : ℤ) • pp.enc.g + c • pp.enc.h, (r : ℤ) • pk)) vs rs) := by
  induction trs generalizing vs rs with
  | nil =>
    rw [List.length_nil, List.length_eq_zero_iff] at h1 h2
    subst h1 h2
    rfl
  | cons t trs ih =>
    rcases vs with _ | ⟨v, vs⟩
    · simp at h1
    rcases rs with _ | ⟨r, rs⟩
    · simp at h2
    simp only [List.map_cons, legCts, List.zipWith_cons_cons, List.cons.injEq]
    refine ⟨?_, ih vs rs (by simpa using h1) (by simpa using h2)⟩
    simp only [Twisted.encMulti, msm_two, List.map_cons, List.map_nil]
    rw [smul_comm (r : ℤ) t, smul_comm (r : ℤ) ta]

/-- The amounts can be paid from `m`. -/
def Payables (pp : PP G) (m n : ℕ) (vs : G → List ℕ) : Prop :=
  ∀ pk, (vs pk).length = n ∧ (vs pk).sum ≤ m ∧ (∀ v ∈ vs pk, v < 2 ^ pp.bullet.rangeLen) ∧ m - (vs pk).sum < 2 ^ pp.bullet.rangeLen

theorem manyTransferGame_eq [Nonempty V] (cv : Curve G) [Fintype (ZMod cv.order)] (pp : PP G) (val : V → ℤ) (v0 : V) (Hid : Bytes → ℤ) (id : Bytes) (sn : ℤ)
    {W B k : ℕ} (m : ℕ) (trs : List ℤ) (hS : SettingMany cv pp val Q W B k trs.length sn) (ta : ℤ) (vs : G → List ℕ)
    (D : (Q → V) → Option (ToMany G) → ℝ) (hg0 : pp.enc.g ≠ 0) (hv : Payables pp m trs.length vs) :
    manyTransferGame cv pp val v0 Hid id sn m trs ta vs D =
      manyGame cv pp.enc.g (trs.length + 2) (fun _ => []) (addMany pp m vs) (answerMany cv pp val v0 Hid id sn m trs ta D) := by
  unfold manyTransferGame manyGame
  congr 1
  refine sum_congr rfl fun sk hsk => ?_
  rw [manyReal_lists, sumLists]
  refine sum_congr rfl fun r _ => ?_
  rw [sumLists_last]
  refine sumLists_congr _ _ _ _ fun rs hrs _ => sum_congr rfl fun rStar _ => ?_
  obtain ⟨hlen, h1, h2, h3⟩ := hv ((sk : ℤ) • pp.enc.g)
  have hlt := mem_range.1 hsk
  have hz : ((sk : ℤ) • pp.enc.g = 0) ↔ sk = 0 := by
    rw [cv.smul_eq_zero_iff _ _ hg0]
    constructor
    · intro h
      exact Nat.eq_zero_of_dvd_of_lt (by exact_mod_cast h) hlt
    · rintro rfl
      simp
  have hamt : (manyAmounts m (vs ((sk : ℤ) • pp.enc.g))).length = trs.length + 2 := by
    simp only [manyAmounts, List.length_cons, List.length_append, List.length_map, List.length_nil, hlen]
  rw [fold_addMany pp m vs _ _ _ (by simp only [List.length_nil, List.length_cons, List.length_append, hamt, hrs]; omega)]
  rw [List.length_nil, List.drop_zero, List.nil_append, manyAmounts, List.zipWith_cons_cons,
    List.zipWith_append (by rw [List.length_map, hlen, hrs])]
  simp only [List.zipWith_cons_cons, List.zipWith_nil_left, answerMany, List.dropLast_concat, List.getLast?_concat, Option.getD_some]
  by_cases h0 : sk = 0
  · rw [if_pos h0, if_pos (hz.2 h0)]
  rw [if_neg h0, if_neg (fun h => h0 (hz.1 h))]
  have hnd : ¬ (cv.order : ℤ) ∣ sk := fun h => h0 (hz.1 ((cv.smul_eq_zero_iff _ _ hg0).2 h))
  have hS' : SettingMany cv { pp with pka := ta • (sk : ℤ) • pp.enc.g } val Q W B k (vs ((sk : ℤ) • pp.enc.g)).length sn := by
    rw [hlen]
    exact ⟨hS.base_g, hS.base_h, hS.pow, hS.small, hS.lenG, hS.lenH, hS.gen, hS.ne, hS.enc, hS.pos, hS.chal, hS.bytes, hS.bytesV, hS.all⟩
  have hsane : Sane cv { pp with pka := ta • (sk : ℤ) • pp.enc.g } (createAccount Hid pp id m sn sk) :=
    ⟨rfl, hnd, Twisted.twisted_enc_holds cv pp.enc sk m _ hnd⟩
  rw [adcp_many_simulated cv _ val v0 (createAccount Hid pp id m sn sk) _ hS' D m _ r _ rStar hsane (by rw [List.length_map, hlen])
    (by rw [List.length_map, hlen, hrs]) rfl h1 h2 h3, hlen]
  congr 1
  rw [legCts_points pp _ ta trs _ rs (by rw [List.length_map, hlen]) hrs]
  simp only [publicMany, createAccount, Twisted.keyGen, Twisted.enc, msm_two]

/-- **C132** Two lists of amounts: both may be chosen from the sender's key, both must be payable. Whoever sees the transaction and all values of the hash
function tells them apart no better than two tests tell Diffie-Hellman triples, for any number of receivers. -/
theorem adcp_many_hides_amounts [Nonempty V] (cv : Curve G) [Fintype (ZMod cv.order)] (pp : PP G) (val : V → ℤ) (v0 : V) (Hid : Bytes → ℤ) (id : Bytes)
    (sn : ℤ) {W B k : ℕ} (m : ℕ) (trs : List ℤ) (hS : SettingMany cv pp val Q W B k trs.length sn) (ta : ℤ) (va vb : G → List ℕ)
    (D : (Q → V) → Option (ToMany G) → ℝ) (ha : Payables pp m trs.length va) (hb : Payables pp m trs.length vb) :
    (1 - 1 / (cv.order : ℝ)) * |manyTransferGame cv pp val v0 Hid id sn m trs ta va D - manyTransferGame cv pp val v0 Hid id sn m trs ta vb D| ≤
      ddhAdv cv pp.enc.g (manyTransferTest cv pp val v0 Hid id sn m trs ta va D) +
        ddhAdv cv pp.enc.g (manyTransferTest cv pp val v0 Hid id sn m trs ta vb D) := by
  have hg : Generates pp.enc.g := hS.gen
  have hg0 : pp.enc.g ≠ 0 := by
    intro h
    obtain ⟨a, e⟩ := hS.gen pp.enc.h
    exact hS.ne (by rw [e, h, smul_zero])
  rw [manyTransferGame_eq cv pp val v0 Hid id sn m trs hS ta va D hg0 ha, manyTransferGame_eq cv pp val v0 Hid id sn m trs hS ta vb D hg0 hb]
  unfold manyTransferTest
  refine many_gap cv pp.enc.g (trs.length + 2) (fun _ => []) (addMany pp m va) (addMany pp m vb) (answerMany cv pp val v0 Hid id sn m trs ta D) ?_
  unfold manyGameIdeal
  refine congrArg (· / _) (sum_congr rfl fun a _ => ?_)
  have e : ∀ v : G → List ℕ, manyIdeal cv.order pp.enc.g (addMany pp m v ((a : ℤ) • pp.enc.g))
        (answerMany cv pp val v0 Hid id sn m trs ta D ((a : ℤ) • pp.enc.g)) (trs.length + 2) [] =
      manyIdeal cv.order pp.enc.g (fun mem X P => mem ++ [(X, P)]) (answerMany cv pp val v0 Hid id sn m trs ta D ((a : ℤ) • pp.enc.g))
        (trs.length + 2) [] := fun v => by
    have := manyIdeal_shift cv pp.enc.g hg (fun (mem : List (G × G)) X P => mem ++ [(X, P)]) (fun _ => 0)
      (fun mem => (((manyAmounts m (v ((a : ℤ) • pp.enc.g)))[mem.length]?).getD 0) • pp.enc.h)
      (answerMany cv pp val v0 Hid id sn m trs ta D ((a : ℤ) • pp.enc.g)) (trs.length + 2) []
    simp only [add_zero] at this
    exact this
  rw [e, e]

/-- The conditions can be met for three receivers: 8-bit ranges, the challenges 3 and 5, the set of all strings up to the length needed. -/
theorem exSettingMany : ∃ Q : Finset Bytes, SettingMany Dlog.exCurve exPP4 (fun b : Bool => if b then 3 else 5) Q 2 2 5 3 1 := by
  haveI : Finite UInt8 := Finite.of_injective UInt8.toFin (fun a b h => UInt8.toFin_inj.1 h)
  obtain ⟨Q', h⟩ := exSetting
  refine ⟨(List.finite_length_le UInt8 (hashedMany 2 2 5 3 1)).toFinset, rfl, rfl, rfl, by decide, by decide, by decide, h.gen, by decide, exCurve_encodes,
    by decide, h.chal, h.bytes, h.bytesV, ?_⟩
  intro b hb
  exact (Set.Finite.mem_toFinset _).2 hb

/-- Amounts 40, 7, 3 and 0, 0, 100 from an account with 100, receivers' keys 3, 4 and 5 times the sender's. -/
example : ∃ Q : Finset Bytes, SettingMany Dlog.exCurve exPP4 (fun b : Bool => if b then 3 else 5) Q 2 2 5 3 1 ∧
    ∀ [Fintype (ZMod Dlog.exCurve.order)] (D : (Q → Bool) → Option (ToMany (ZMod 8209)) → ℝ),
      (1 - 1 / (8209 : ℝ)) *
          |manyTransferGame Dlog.exCurve exPP4 (fun b : Bool => if b then 3 else 5) true (fun _ => 10) [97] 1 100 [3, 4, 5] 77 (fun _ => [40, 7, 3]) D -
          manyTransferGame Dlog.exCurve exPP4 (fun b : Bool => if b then 3 else 5) true (fun _ => 10) [97] 1 100 [3, 4, 5] 77 (fun _ => [0, 0, 100]) D| ≤
        ddhAdv Dlog.exCurve 5
          (manyTransferTest Dlog.exCurve exPP4 (fun b : Bool => if b then 3 else 5) true (fun _ => 10) [97] 1 100 [3, 4, 5] 77 (fun _ => [40, 7, 3]) D) +
        ddhAdv Dlog.exCurve 5
          (manyTransferTest Dlog.exCurve exPP4 (fun b : Bool => if b then 3 else 5) true (fun _ => 10) [97] 1 100 [3, 4, 5] 77 (fun _ => [0, 0, 100]) D) := by
  obtain ⟨Q, hS⟩ := exSettingMany
  refine ⟨Q, hS, fun D => ?_⟩
  exact adcp_many_hides_amounts Dlog.exCurve exPP4 _ true (fun _ => 10) [97] 1 100 [3, 4, 5] hS 77 _ _ D (fun _ => by decide) (fun _ => by decide)

end Kunlun.ADCP
