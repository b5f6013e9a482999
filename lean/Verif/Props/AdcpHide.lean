import Verif.Model.AdcpSim
import Verif.Props.PkeMany
import Verif.Props.AdcpBind
import Mathlib.Data.Set.Finite.List
import Mathlib.Data.Finite.Prod
/-!
C124: what a transaction of adcp/adcp.hpp tells about the amount. With hash values drawn at random, `CreateCTx` gives exactly what a simulator gives that
knows neither the amount, the secret key nor the encryption randomness; and whoever sees the transaction and the whole hash function tells two amounts
apart no better than Diffie-Hellman triples from random ones.
C125: the ciphertext `CreateAccount` makes does not hide the initial balance.
-/

namespace Kunlun.ADCP

open Finset Hiding Bullet

variable {G V : Type} [AddCommGroup G] [DecidableEq G] [Fintype V] [DecidableEq V] {Q : Finset Bytes}

/-- The number of draws of hash functions on `Q` and of scalars of the proofs. -/
noncomputable def draws (V : Type) [Fintype V] (Q : Finset Bytes) (cv : Curve G) [Fintype (ZMod cv.order)] (pp : PP G) : ℝ :=
  (Fintype.card (Q → V) : ℝ) * ((cv.order : ℝ) ^ 5 * (Fintype.card (Shape cv.order (pp.bullet.rangeLen * 2)) : ℝ))

/-- The average answer of `D`, that sees the hash function and the transaction `CreateCTx` makes from the account `a`, over all hash functions and
all scalars the four proofs draw. -/
noncomputable def realAvg (cv : Curve G) [Fintype (ZMod cv.order)] (pp : PP G) (val : V → ℤ) (v0 : V) (D : (Q → V) → Option (ToOne G) → ℝ)
    (a : Account G) (v : ℤ) (pkr : G) (r rStar : ℤ) : ℝ :=
  (∑ o : Q → V, ∑ c1 : ZMod cv.order × ZMod cv.order, ∑ c2 : ZMod cv.order × ZMod cv.order, ∑ c3 : Shape cv.order (pp.bullet.rangeLen * 2),
    ∑ c4 : ZMod cv.order, D o (createCTx cv (hash val v0 o) pp a v pkr
      ⟨r, ofF cv c1.1, ofF cv c1.2, rStar, ofF cv c2.1, ofF cv c2.2, coinsOf cv c3, ofF cv c4⟩)) / draws V Q cv pp

/-- The average answer of `D` to what the simulator makes of the public part `st` of a transaction. -/
noncomputable def simAvg (cv : Curve G) [Fintype (ZMod cv.order)] (pp : PP G) (val : V → ℤ) (v0 : V) (D : (Q → V) → Option (ToOne G) → ℝ)
    (st : Statement G) : ℝ :=
  simSum cv pp val v0 D st / ((Fintype.card V : ℝ) ^ 6 * draws V Q cv pp)

/-- **C124** For random hash values the transaction of any account in order can be simulated from its public part: sequence number, balance ciphertext,
keys, the two new ciphertexts. The two averages are equal, not only close, for every `D`. -/
theorem adcp_transaction_simulated [Nonempty V] (cv : Curve G) [Fintype (ZMod cv.order)] (pp : PP G) (val : V → ℤ) (v0 : V) {W B k : ℕ} (a : Account G)
    (hS : Setting cv pp val Q W B k a.sn) (D : (Q → V) → Option (ToOne G) → ℝ) (v m : ℕ) (pkr : G) (r rStar : ℤ) (ha : Sane cv pp a)
    (hm : a.m = m) (hv : v ≤ m) (hv1 : v < 2 ^ pp.bullet.rangeLen) (hv2 : m - v < 2 ^ pp.bullet.rangeLen) :
    realAvg cv pp val v0 D a v pkr r rStar =
      simAvg cv pp val v0 D ⟨a.sn, a.balance, a.pk, pkr, Twisted.encMulti pp.enc [a.pk, pkr, pp.pka] v r, Twisted.enc pp.enc a.pk (m - v) rStar⟩ := by
  have h := real_eq_sim cv pp val v0 a hS D v m pkr r rStar ha hm hv hv1 hv2
  have hc : (Fintype.card V : ℝ) ^ 6 ≠ 0 := pow_ne_zero _ (Nat.cast_ne_zero.2 Fintype.card_ne_zero)
  have e : statement pp a v pkr r rStar =
    ⟨a.sn, a.balance, a.pk, pkr, Twisted.encMulti pp.enc [a.pk, pkr, pp.pka] v r, Twisted.enc pp.enc a.pk (m - v) rStar⟩ := by
    rw [statement, hm]
  unfold simAvg
  rw [← e, ← h]
  unfold realAvg
  rw [mul_div_mul_left _ _ hc]
  rfl

/-- The game: a secret key is drawn (the key 0 is not counted), an account with balance `m` is created, the amount is chosen from the public key, the
receiver's and the supervisor's keys are `tr` and `ta` times the key, two numbers for the ciphertexts are drawn and the transaction is made. -/
noncomputable def transferGame (cv : Curve G) [Fintype (ZMod cv.order)] (pp : PP G) (val : V → ℤ) (v0 : V) (Hid : Bytes → ℤ) (id : Bytes) (sn : ℤ)
    (m : ℕ) (tr ta : ℤ) (v : G → ℕ) (D : (Q → V) → Option (ToOne G) → ℝ) : ℝ :=
  (∑ sk ∈ range cv.order, ∑ r ∈ range cv.order, ∑ rStar ∈ range cv.order,
    if sk = 0 then 0 else realAvg cv { pp with pka := ta • (sk : ℤ) • pp.enc.g } val v0 D (createAccount Hid pp id m sn sk) (v ((sk : ℤ) • pp.enc.g))
      (tr • (sk : ℤ) • pp.enc.g) r rStar) / (cv.order : ℝ) ^ 3

/-- The public part of a transaction made from a key and the points of its two ciphertexts. -/
def publicPart (pp : PP G) (Hid : Bytes → ℤ) (id : Bytes) (sn : ℤ) (m : ℕ) (tr ta : ℤ) (pk : G) (p p' : G × G) : Statement G :=
  ⟨sn, Twisted.enc pp.enc pk m (Hid id), pk, tr • pk, ⟨[p.2, tr • p.2, ta • p.2], p.1⟩, ⟨p'.2, p'.1⟩⟩

/-- The next ciphertext: the first has the amount, the second what is left. -/
def addPoint (pp : PP G) (m : ℕ) (v : G → ℕ) (pk : G) (mem : List (G × G)) (X P : G) : List (G × G) :=
  mem ++ [(X + (if mem.isEmpty then (v pk : ℤ) else (m : ℤ) - v pk) • pp.enc.h, P)]

/-- The attacker, run on a simulated transaction. -/
noncomputable def answer (cv : Curve G) [Fintype (ZMod cv.order)] (pp : PP G) (val : V → ℤ) (v0 : V) (Hid : Bytes → ℤ) (id : Bytes) (sn : ℤ)
    (m : ℕ) (tr ta : ℤ) (D : (Q → V) → Option (ToOne G) → ℝ) (pk : G) : List (G × G) → ℝ
  | [p, p'] => if pk = 0 then 0 else simAvg cv { pp with pka := ta • pk } val v0 D (publicPart pp Hid id sn m tr ta pk p p')
  | _ => 0

/-- A test of Diffie-Hellman triples that knows neither a secret key nor discrete logarithms: it makes the two ciphertexts of the amount `v` from the
triple, simulates the proofs and runs `D` once. -/
noncomputable def transferTest (cv : Curve G) [Fintype (ZMod cv.order)] (pp : PP G) (val : V → ℤ) (v0 : V) (Hid : Bytes → ℤ) (id : Bytes) (sn : ℤ)
    (m : ℕ) (tr ta : ℤ) (v : G → ℕ) (D : (Q → V) → Option (ToOne G) → ℝ) : G → G → G → ℝ :=
  manyDdh cv pp.enc.g 2 (fun _ => []) (addPoint pp m v) (answer cv pp val v0 Hid id sn m tr ta D)

theorem transferGame_eq [Nonempty V] (cv : Curve G) [Fintype (ZMod cv.order)] (pp : PP G) (val : V → ℤ) (v0 : V) (Hid : Bytes → ℤ) (id : Bytes) (sn : ℤ)
    {W B k : ℕ} (hS : Setting cv pp val Q W B k sn) (m : ℕ) (tr ta : ℤ) (v : G → ℕ) (D : (Q → V) → Option (ToOne G) → ℝ)
    (hg0 : pp.enc.g ≠ 0)
    (hv : ∀ pk, v pk ≤ m ∧ v pk < 2 ^ pp.bullet.rangeLen ∧ m - v pk < 2 ^ pp.bullet.rangeLen) :
    transferGame cv pp val v0 Hid id sn m tr ta v D =
      manyGame cv pp.enc.g 2 (fun _ => []) (addPoint pp m v) (answer cv pp val v0 Hid id sn m tr ta D) := by
  unfold transferGame manyGame
  congr 1
  refine sum_congr rfl fun sk hsk => ?_
  simp only [manyReal]
  refine sum_congr rfl fun r _ => sum_congr rfl fun rStar _ => ?_
  simp only [addPoint, List.nil_append, List.cons_append, List.isEmpty_nil, List.isEmpty_cons, if_true, Bool.false_eq_true, if_false, answer]
  have hlt := mem_range.1 hsk
  have hz : ((sk : ℤ) • pp.enc.g = 0) ↔ sk = 0 := by
    rw [cv.smul_eq_zero_iff _ _ hg0]
    constructor
    · intro h
      exact Nat.eq_zero_of_dvd_of_lt (by exact_mod_cast h) hlt
    · rintro rfl
      simp
  by_cases h0 : sk = 0
  · rw [if_pos h0, if_pos (hz.2 h0)]
  rw [if_neg h0, if_neg (fun h => h0 (hz.1 h))]
  have hnd : ¬ (cv.order : ℤ) ∣ sk := fun h => h0 (hz.1 ((cv.smul_eq_zero_iff _ _ hg0).2 h))
  have hS' : Setting cv { pp with pka := ta • (sk : ℤ) • pp.enc.g } val Q W B k sn :=
    ⟨hS.base_g, hS.base_h, hS.pow, hS.small, hS.lenG, hS.lenH, hS.gen, hS.ne, hS.enc, hS.pos, hS.chal, hS.bytes, hS.bytesV, hS.all⟩
  have hsane : Sane cv { pp with pka := ta • (sk : ℤ) • pp.enc.g } (createAccount Hid pp id m sn sk) :=
    ⟨rfl, hnd, Twisted.twisted_enc_holds cv pp.enc sk m _ hnd⟩
  obtain ⟨h1, h2, h3⟩ := hv ((sk : ℤ) • pp.enc.g)
  rw [adcp_transaction_simulated cv _ val v0 (createAccount Hid pp id m sn sk) hS' D _ m _ r rStar hsane rfl h1 h2 h3]
  congr 1
  simp only [publicPart, createAccount, Twisted.keyGen, Twisted.encMulti, Twisted.enc, msm_two, List.map_cons, List.map_nil]
  rw [smul_comm (r : ℤ) tr, smul_comm (r : ℤ) ta]

/-- **C124** Two amounts: both may be chosen from the sender's key, both must be payable. Whoever sees the transaction and all values of the hash function
tells them apart no better than two tests tell Diffie-Hellman triples. -/
theorem adcp_transaction_hides_amount [Nonempty V] (cv : Curve G) [Fintype (ZMod cv.order)] (pp : PP G) (val : V → ℤ) (v0 : V) (Hid : Bytes → ℤ) (id : Bytes)
    (sn : ℤ) {W B k : ℕ} (hS : Setting cv pp val Q W B k sn) (m : ℕ) (tr ta : ℤ) (va vb : G → ℕ) (D : (Q → V) → Option (ToOne G) → ℝ)
    (ha : ∀ pk, va pk ≤ m ∧ va pk < 2 ^ pp.bullet.rangeLen ∧ m - va pk < 2 ^ pp.bullet.rangeLen)
    (hb : ∀ pk, vb pk ≤ m ∧ vb pk < 2 ^ pp.bullet.rangeLen ∧ m - vb pk < 2 ^ pp.bullet.rangeLen) :
    (1 - 1 / (cv.order : ℝ)) * |transferGame cv pp val v0 Hid id sn m tr ta va D - transferGame cv pp val v0 Hid id sn m tr ta vb D| ≤
      ddhAdv cv pp.enc.g (transferTest cv pp val v0 Hid id sn m tr ta va D) + ddhAdv cv pp.enc.g (transferTest cv pp val v0 Hid id sn m tr ta vb D) := by
  have hg : Generates pp.enc.g := hS.gen
  have hg0 : pp.enc.g ≠ 0 := by
    intro h
    obtain ⟨a, e⟩ := hS.gen pp.enc.h
    exact hS.ne (by rw [e, h, smul_zero])
  rw [transferGame_eq cv pp val v0 Hid id sn hS m tr ta va D hg0 ha, transferGame_eq cv pp val v0 Hid id sn hS m tr ta vb D hg0 hb]
  unfold transferTest
  refine many_gap cv pp.enc.g 2 (fun _ => []) (addPoint pp m va) (addPoint pp m vb) (answer cv pp val v0 Hid id sn m tr ta D) ?_
  unfold manyGameIdeal
  refine congrArg (· / _) (sum_congr rfl fun a _ => ?_)
  have e : ∀ v : G → ℕ, manyIdeal cv.order pp.enc.g (addPoint pp m v ((a : ℤ) • pp.enc.g)) (answer cv pp val v0 Hid id sn m tr ta D ((a : ℤ) • pp.enc.g)) 2 [] =
      manyIdeal cv.order pp.enc.g (fun mem X P => mem ++ [(X, P)]) (answer cv pp val v0 Hid id sn m tr ta D ((a : ℤ) • pp.enc.g)) 2 [] := fun v => by
    have := manyIdeal_shift cv pp.enc.g hg (fun (mem : List (G × G)) X P => mem ++ [(X, P)]) (fun _ => 0)
      (fun mem => (if mem.isEmpty then (v ((a : ℤ) • pp.enc.g) : ℤ) else (m : ℤ) - v ((a : ℤ) • pp.enc.g)) • pp.enc.h)
      (answer cv pp val v0 Hid id sn m tr ta D ((a : ℤ) • pp.enc.g)) 2 []
    simp only [add_zero] at this
    exact this
  rw [e, e]

/-- **C125 fails**: the number with which `CreateAccount` encrypts the initial balance is the hash of the name, so everybody who knows the name reads the
balance: it is the one number `m` with `Y - H(name)·g = m·h`, and two balances below the order are told apart with certainty, whatever the key. -/
theorem adcp_initial_balance_readable (cv : Curve G) (H : Bytes → ℤ) (pp : PP G) (hh : pp.enc.h ≠ 0) (id : Bytes) (b sn sk : ℤ) (h0 : 0 ≤ b)
    (hb : b < cv.order) (m : ℤ) (hm0 : 0 ≤ m) (hm : m < cv.order) :
    (createAccount H pp id b sn sk).balance.Y - H id • pp.enc.g = m • pp.enc.h ↔ m = b := by
  simp only [createAccount, Twisted.enc, msm_two, add_sub_cancel_left]
  constructor
  · intro h
    have : (b - m) • pp.enc.h = 0 := by rw [sub_smul, h, sub_self]
    have hd := (cv.smul_eq_zero_iff _ _ hh).1 this
    have := Int.emod_eq_emod_iff_emod_sub_eq_zero.2 (Int.emod_eq_zero_of_dvd hd)
    rw [Int.emod_eq_of_lt h0 hb, Int.emod_eq_of_lt hm0 hm] at this
    exact this.symm
  · rintro rfl
    rfl

/-- **C125**, what holds: to somebody to whom the hash of the name is a random number (here: drawn below the order) the initial balance is hidden as
any message. -/
theorem adcp_initial_balance_partial (cv : Curve G) (pp : PP G) (hg : Generates pp.enc.g) (b0 b1 : ℤ) (D : G → CT G → ℝ) :
    |game cv (fun sk r => D (createAccount (fun _ => r) pp [] b0 0 sk).pk (createAccount (fun _ => r) pp [] b0 0 sk).balance) -
      game cv (fun sk r => D (createAccount (fun _ => r) pp [] b1 0 sk).pk (createAccount (fun _ => r) pp [] b1 0 sk).balance)| ≤
      ddhAdv cv pp.enc.g (fun A B C => D A ⟨C, B + b0 • pp.enc.h⟩) + ddhAdv cv pp.enc.g (fun A B C => D A ⟨C, B + b1 • pp.enc.h⟩) :=
  Twisted.twisted_hides_message cv pp.enc hg (fun _ => b0) (fun _ => b1) D

/-- The conditions can be met: the parameters of the example with 8-bit ranges, the challenges 3 and 5, the set of all strings up to the length needed. -/
theorem exSetting : ∃ Q : Finset Bytes, Setting Dlog.exCurve exPP (fun b : Bool => if b then 3 else 5) Q 2 2 4 1 := by
  haveI : Finite UInt8 := Finite.of_injective UInt8.toFin (fun a b h => UInt8.toFin_inj.1 h)
  refine ⟨(List.finite_length_le UInt8 (hashedLen 2 2 4 1)).toFinset, rfl, rfl, rfl, by decide, by decide, by decide, ?_, by decide, exCurve_encodes, by decide, ?_, ?_,
    ?_, ?_⟩
  · intro P
    refine ⟨(P * 1642).val, ?_⟩
    show P = ((P * 1642).val : ℤ) • (5 : ZMod 8209)
    rw [zsmul_eq_mul, Int.cast_natCast, ZMod.natCast_zmod_val, mul_assoc, show (1642 * 5 : ZMod 8209) = 1 by decide, mul_one]
  · intro e
    cases e <;> decide
  · intro a h0 h1
    obtain ⟨n, rfl⟩ := Int.eq_ofNat_of_zero_le h0
    have h2 : n < 8209 := by exact_mod_cast h1
    rw [BigInt.toByteString, beBytes_length, BigInt.numBytes]
    split
    · omega
    · rename_i hn
      have h3 : n ≠ 0 := by exact_mod_cast hn
      have h4 : n.log2 < 14 := (Nat.log2_lt h3).2 (by omega)
      simp only [Int.natAbs_natCast]
      omega
  · intro e
    cases e <;> decide
  · intro b hb
    exact (Set.Finite.mem_toFinset _).2 hb

/-- Amounts 40 and 7 from an account with 100 under the example parameters, receiver key three times and supervisor key 77 times the sender's. -/
example : ∃ Q : Finset Bytes, Setting Dlog.exCurve exPP (fun b : Bool => if b then 3 else 5) Q 2 2 4 1 ∧
    ∀ [Fintype (ZMod Dlog.exCurve.order)] (D : (Q → Bool) → Option (ToOne (ZMod 8209)) → ℝ),
      (1 - 1 / (8209 : ℝ)) * |transferGame Dlog.exCurve exPP (fun b : Bool => if b then 3 else 5) true (fun _ => 10) [97] 1 100 3 77 (fun _ => 40) D -
          transferGame Dlog.exCurve exPP (fun b : Bool => if b then 3 else 5) true (fun _ => 10) [97] 1 100 3 77 (fun _ => 7) D| ≤
        ddhAdv Dlog.exCurve 5 (transferTest Dlog.exCurve exPP (fun b : Bool => if b then 3 else 5) true (fun _ => 10) [97] 1 100 3 77 (fun _ => 40) D) +
        ddhAdv Dlog.exCurve 5 (transferTest Dlog.exCurve exPP (fun b : Bool => if b then 3 else 5) true (fun _ => 10) [97] 1 100 3 77 (fun _ => 7) D) := by
  obtain ⟨Q, hS⟩ := exSetting
  refine ⟨Q, hS, fun D => ?_⟩
  exact adcp_transaction_hides_amount Dlog.exCurve exPP _ true (fun _ => 10) [97] 1 hS 100 3 77 _ _ D (fun _ => by decide) (fun _ => by decide)

/-- Alice's initial balance of 100 is read off her ciphertext. -/
example (m : ℤ) (h0 : 0 ≤ m) (h1 : m < 8209) : exAlice.balance.Y - (10 : ℤ) • (5 : ZMod 8209) = m • (1 : ZMod 8209) ↔ m = 100 :=
  adcp_initial_balance_readable Dlog.exCurve (fun _ => 10) exPP (by decide) [97] 100 1 11 (by decide) (by decide) m h0 h1

end Kunlun.ADCP
