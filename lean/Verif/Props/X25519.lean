import Verif.Model.X25519Small
import Verif.Props.CwPrf
import Verif.Props.Pke
/-!
C103: the multiplication on Curve25519 that `EC25519Point::Mul` and the set intersection call (crypto/ec_25519.hpp:13-16, 83-87,
mpc/psi/cwprf_psi.hpp:140-211).
-/

namespace Kunlun.X25519

open Mont

theorem mulx_length (k u : Bytes) : (mulx k u).length = 32 := by simp [mulx]

/-- **C103** The scalar is read as a number between 2^254 and 2^255 that is a multiple of eight, and the result is the first coordinate of
this multiple of any point with the given first coordinate, on the curve or on its twist (in an algebraic closure every number is a first
coordinate). The point at infinity is written as zero. -/
theorem x25519_multiple (k u : Bytes) :
    8 ∣ num k ∧ 2 ^ 254 ≤ num k ∧ num k < 2 ^ 255 ∧ (∀ i, 3 ≤ i → i < 254 → (num k).testBit i = bit k i) ∧
    (∃ P : Pt, xc P = (fromBytes u : ℕ)) ∧
    ∀ P : Pt, xc P = (fromBytes u : ℕ) → ∃ v < p, mulx k u = leBytes 32 v ∧ (v : Cl) = xc (num k • P) := by
  refine ⟨num_dvd k, num_ge k, num_lt k, fun i h1 h2 => ?_, exists_point _, fun P hP => ⟨_, ladder_lt _ _, rfl, ?_⟩⟩
  · rw [num_bit, if_pos (by omega), if_neg (by omega), if_neg (by omega), if_neg (by omega)]
  · rw [ladder_spec _ _ (fromBytes_lt u) P hP, bits_num]

/-- **C103** Multiplications commute, for all scalars and all strings as points. -/
theorem x25519_commutes (k k' u : Bytes) : mulx k (mulx k' u) = mulx k' (mulx k u) := by
  unfold mulx
  rw [fromBytes_leBytes _ (ladder_lt _ _), fromBytes_leBytes _ (ladder_lt _ _), ladder_comm _ _ _ (fromBytes_lt u)]

theorem good_num (k : Bytes) : ∃ m, num k = m * 8 ∧ Good m := by
  obtain ⟨m, hm⟩ := num_dvd k
  refine ⟨m, by rw [hm, mul_comm], ?_⟩
  have h1 := num_ge k
  have h2 := num_lt k
  rw [hm] at h1 h2
  have hpos : 0 < m := by omega
  have hlt : m < 2 ^ 252 := by omega
  have hl : m < l := lt_of_lt_of_le hlt (by unfold l; norm_num)
  have hl' : m < l' := lt_of_lt_of_le hlt (by unfold l'; norm_num)
  exact ⟨(Nat.coprime_of_lt_prime hpos.ne' hl l_prime).symm, (Nat.coprime_of_lt_prime hpos.ne' hl' l'_prime).symm⟩

theorem mulx_eq_iff (k u v : Bytes) (P Q : Pt) (hP : xc P = (fromBytes u : ℕ)) (hQ : xc Q = (fromBytes v : ℕ)) :
    mulx k u = mulx k v ↔ (8 : ℕ) • P = (8 : ℕ) • Q ∨ (8 : ℕ) • P = -((8 : ℕ) • Q) := by
  obtain ⟨m, hm, hg⟩ := good_num k
  rw [← xc_eq_iff P Q (mem_or P _ hP) (mem_or Q _ hQ) m hg, ← hm]
  have e1 := ladder_spec (bits (clamp k)) _ (fromBytes_lt u) P hP
  have e2 := ladder_spec (bits (clamp k)) _ (fromBytes_lt v) Q hQ
  rw [bits_num] at e1 e2
  rw [← e1, ← e2]
  have hb : ∀ n, n < p → n < 256 ^ 32 := fun n hn => lt_trans hn (by rw [p_val]; norm_num)
  constructor
  · intro h
    rw [leBytes_inj (hb _ (ladder_lt _ _)) (hb _ (ladder_lt _ _)) h]
  · intro h
    unfold mulx
    rw [cast_inj (K := Cl) (ladder_lt _ _) (ladder_lt _ _) h]

/-- **C103** Which points are confused by a multiplication does not depend on the scalar. -/
theorem x25519_collisions (k k' u v : Bytes) : mulx k u = mulx k v ↔ mulx k' u = mulx k' v := by
  obtain ⟨P, hP⟩ := exists_point ((fromBytes u : ℕ) : Cl)
  obtain ⟨Q, hQ⟩ := exists_point ((fromBytes v : ℕ) : Cl)
  rw [mulx_eq_iff k u v P Q hP hQ, mulx_eq_iff k' u v P Q hP hQ]

theorem eight_cancel (P Q : Pt) (hP : P ∈ Hp ∨ P ∈ Hm) (hQ : Q ∈ Hp ∨ Q ∈ Hm) (n : ℕ) (hn : Good n)
    (h : (8 : ℕ) • (n * 8) • P = (8 : ℕ) • (n * 8) • Q) : (8 : ℕ) • P = (8 : ℕ) • Q := by
  have kill : ∀ R : Pt, R ∈ Hp ∨ R ∈ Hm → (l * l') • (8 : ℕ) • R = 0 := by
    intro R hR
    rcases kills_or R hR with h | h
    · rw [mul_comm, mul_smul, h, nsmul_zero]
    · rw [mul_smul, h, nsmul_zero]
  rw [← sub_eq_zero]
  have h8 : Nat.Coprime 8 (l * l') := by unfold l l'; decide +kernel
  refine zero_of_coprime _ (8 * n) (l * l') (Nat.Coprime.mul_left h8 (Nat.Coprime.mul_right hn.l hn.l')) ?_ ?_
  · rw [nsmul_sub, sub_eq_zero]
    rw [mul_smul, mul_smul] at h
    rw [mul_smul, mul_smul, h]
  · rw [nsmul_sub, kill P hP, kill Q hQ, sub_self]

/-- **C103** A second multiplication confuses nothing that was different after the first. -/
theorem x25519_injective (k k' u v : Bytes) : mulx k (mulx k' u) = mulx k (mulx k' v) ↔ mulx k' u = mulx k' v := by
  refine ⟨fun h => ?_, fun h => by rw [h]⟩
  obtain ⟨P, hP⟩ := exists_point ((fromBytes u : ℕ) : Cl)
  obtain ⟨Q, hQ⟩ := exists_point ((fromBytes v : ℕ) : Cl)
  have next : ∀ (w : Bytes) (R : Pt), xc R = (fromBytes w : ℕ) → xc (num k' • R) = (fromBytes (mulx k' w) : ℕ) := by
    intro w R hR
    have e := ladder_spec (bits (clamp k')) _ (fromBytes_lt w) R hR
    rw [bits_num] at e
    unfold mulx
    rw [fromBytes_leBytes _ (ladder_lt _ _), e]
  rw [mulx_eq_iff k _ _ _ _ (next u P hP) (next v Q hQ)] at h
  rw [mulx_eq_iff k' u v P Q hP hQ]
  obtain ⟨m, hm, hg⟩ := good_num k'
  rw [hm] at h
  rcases h with h | h
  · exact .inl (eight_cancel P Q (mem_or P _ hP) (mem_or Q _ hQ) m hg h)
  · right
    rw [← neg_nsmul, ← neg_nsmul] at h
    rw [← neg_nsmul]
    exact eight_cancel P (-Q) (mem_or P _ hP) (mem_or (-Q) _ (by rw [xc_neg]; exact hQ)) m hg h

/-- **C103** The top bit and the multiples of the prime are dropped from a point, the low three and the high two bits from a scalar. -/
theorem x25519_ignores (k k' u v : Bytes) (hu : fromBytes u = fromBytes v) (hk : ∀ i, 3 ≤ i → i < 254 → bit k i = bit k' i) :
    mulx k u = mulx k' v := by
  have : num k = num k' := by
    apply Nat.eq_of_testBit_eq
    intro i
    rw [num_bit, num_bit]
    split <;> [skip; rfl]
    split <;> [rfl; skip]
    split <;> [rfl; skip]
    split <;> [rfl; skip]
    exact hk i (by omega) (by omega)
  obtain ⟨P, hP⟩ := exists_point ((fromBytes u : ℕ) : Cl)
  obtain ⟨-, -, -, -, -, h1⟩ := x25519_multiple k u
  obtain ⟨-, -, -, -, -, h2⟩ := x25519_multiple k' v
  obtain ⟨a, ha, e1, f1⟩ := h1 P hP
  obtain ⟨b, hb, e2, f2⟩ := h2 P (by rw [hP, hu])
  rw [e1, e2, cast_inj (K := Cl) ha hb (by rw [f1, f2, this])]

/-- **C103** Which strings a multiplication turns into zero bytes does not depend on the scalar: those whose number is one of five. None of
them is refused. -/
theorem x25519_zero (k u : Bytes) : mulx k u = List.replicate 32 0 ↔ fromBytes u ∈ [0, 1, p - 1, e1, e2] := by
  obtain ⟨P, hP⟩ := exists_point ((fromBytes u : ℕ) : Cl)
  obtain ⟨m, hm, hg⟩ := good_num k
  rw [← eight_zero_iff P _ hP (fromBytes_lt u), ← xc_zero_iff P (mem_or P _ hP) m hg, ← hm]
  have e := ladder_spec (bits (clamp k)) _ (fromBytes_lt u) P hP
  rw [bits_num] at e
  rw [← e]
  have z : (List.replicate 32 0 : Bytes) = leBytes 32 0 := by decide
  rw [z]
  have hb : ∀ n, n < p → n < 256 ^ 32 := fun n hn => lt_trans hn (by rw [p_val]; norm_num)
  constructor
  · intro h
    rw [leBytes_inj (hb _ (ladder_lt _ _)) (by norm_num) h, Nat.cast_zero]
  · intro h
    unfold mulx
    rw [cast_inj (K := Cl) (ladder_lt _ _) p_prime.pos (by rw [h, Nat.cast_zero])]

/-- **C103 / C20** ElGamal over Curve25519 decrypts what it encrypted, for every key, generator, randomness and message. -/
theorem elgamal_x25519 (g sk r m : Bytes) (hm : m.length = 32) :
    ElGamal25519.dec mulx sk (ElGamal25519.enc mulx g (mulx sk g) m r) = m :=
  ElGamal25519.elgamal25519_dec_enc mulx mulx_length g sk r m (x25519_commutes r sk g) hm

/-- **C103 / C20** The functions that draw their own random numbers, for every point `g` (also one that `Setup` did not choose): a message encrypted by `Enc` under
the key of `KeyGen`, or under the public key of any other secret key, is decrypted. -/
theorem elgamal_x25519_functions (fixedSeed : Block) (temp temp' : List Block) (ht : temp.length = 8) (ht' : temp'.length = 8) (g : Bytes) :
    (∃ pk sk, ElGamal25519.keyGen mulx temp fixedSeed g = some (pk, sk) ∧ ∀ m r, m.length = 32 →
      ElGamal25519.dec mulx sk (ElGamal25519.enc mulx g pk m r) = m) ∧
    ∀ sk m, m.length = 32 → ∃ ct, ElGamal25519.encRnd mulx temp' fixedSeed g (mulx sk g) m = some ct ∧ ElGamal25519.dec mulx sk ct = m := by
  obtain ⟨k, e⟩ : ∃ b, ∀ t : List Block, t.length = 8 → ElGamal25519.fixedBytes t fixedSeed = some b := by
    refine ⟨(PRG.bytesOf (PRG.stream (PRG.setSeed fixedSeed 0).key (PRG.setSeed fixedSeed 0).counter 2)).take 32, ?_⟩
    intro t ht
    unfold ElGamal25519.fixedBytes
    rw [PRG.genRandomBytes_spec t ht]
    rfl
  refine ⟨⟨mulx k g, k, by rw [ElGamal25519.keyGen, e _ ht]; rfl, fun m r hm => elgamal_x25519 g k r m hm⟩, fun sk m hm => ?_⟩
  exact ⟨_, by rw [ElGamal25519.encRnd, e _ ht']; rfl, elgamal_x25519 g sk k m hm⟩

/-- Two items whose hashed points are confused by every multiplication. -/
def Same (x y : Block) : Prop := ∃ k, mulx k (CwPRF.hash x) = mulx k (CwPRF.hash y)

theorem same_iff (x y : Block) (k k' : Bytes) :
    Same x y ↔ mulx k (mulx k' (CwPRF.hash x)) = mulx k (mulx k' (CwPRF.hash y)) := by
  rw [x25519_injective]
  exact ⟨fun ⟨j, h⟩ => (x25519_collisions j k' _ _).1 h, fun h => ⟨k', h⟩⟩

open Kunlun.CwPRF Proto in
/-- **C103 / C61** The set intersection over Curve25519, for any two keys: every common item is returned, and when the masked points are
not truncated the result does not depend on the keys; it is the intersection unless two different items hash to points that every
multiplication confuses. -/
theorem psi_x25519 {G : Type} [AddCommGroup G] (net : Net G) (hn : net.Ok) (k1 k2 : Bytes) (pp : PSI.PP) (ht : pp.truncateLen ≤ 32)
    (Y X : List Block) (hY : Y.length = pp.senderNum) (hX : X.length = pp.receiverNum) (hs : X.length * 32 < 2 ^ 64) :
    ∃ out, Runs (PSI.sendWith net mulx k1 pp Y) (PSI.receiveWith net mulx k2 pp X) () out ∧ out.Sublist X ∧
      (∀ x ∈ X, x ∈ Y → x ∈ out) ∧
      (pp.truncateLen = 32 → (∀ x, x ∈ out ↔ x ∈ X ∧ ∃ y ∈ Y, Same x y) ∧
        ((∀ x ∈ X, ∀ y ∈ Y, Same x y → x = y) → out = X.filter fun x => decide (x ∈ Y))) := by
  refine ⟨_, PSI.psi_run net hn mulx mulx_length k1 k2 pp ht Y X hY hX hs, List.filter_sublist,
    (PSI.psi_intersection mulx k1 k2 pp.truncateLen X Y fun _ _ => x25519_commutes _ _ _).1, fun h32 => ?_⟩
  have key : ∀ x, PSI.tag mulx k1 k2 pp.truncateLen x ∈ Y.map (PSI.tag mulx k2 k1 pp.truncateLen) ↔ ∃ y ∈ Y, Same x y := by
    intro x
    rw [List.mem_map]
    refine exists_congr fun y => and_congr_right fun _ => ?_
    unfold PSI.tag
    rw [List.take_of_length_le (by rw [mulx_length, h32]), List.take_of_length_le (by rw [mulx_length, h32]), same_iff x y k1 k2,
      x25519_commutes k2 k1, eq_comm]
  constructor
  · intro x
    rw [List.mem_filter, decide_eq_true_eq, key]
  · intro hc
    apply List.filter_congr
    intro x hx
    rw [decide_eq_decide, key]
    exact ⟨fun ⟨y, hy, h⟩ => hc x hx y hy h ▸ hy, fun h => ⟨x, h, [], rfl⟩⟩

open Kunlun.CwPRF Kunlun.CwPRF.Rpmt Proto in
/-- **C103 / C63** The membership test that answers with shuffled points, over Curve25519 and for any two keys: a bit is set exactly when
some item of the server hashes to a point that every multiplication confuses with the point of the item asked. -/
theorem rpmt_x25519 {G : Type} [AddCommGroup G] (net : Net G) (hn : net.Ok) (k1 k2 : Bytes) (shuf : List Bytes → List Bytes)
    (hs : ∀ l, (shuf l).Perm l) (pp : PP) (X Y : List Block) (hX : X.length = pp.clientLen) (hY : Y.length = pp.serverLen) :
    ∃ bits, Runs (clientShuffle net x25519Pts hash (mulx k2) shuf pp X) (serverShuffle net x25519Pts hash (mulx k1) pp Y) () bits ∧
      Indicates (fun x => ∃ y ∈ Y, Same x y) X bits := by
  obtain ⟨bits, h1, h2⟩ := rpmt_shuffle_run net hn x25519Pts _ (x25519Pts_ok net) hash (mulx k1) (mulx k2) shuf hs pp X Y hX hY
    (fun _ _ => mulx_length _ _) (fun _ _ => mulx_length _ _) (fun _ _ => mulx_length _ _)
  refine ⟨bits, h1, ?_⟩
  have e : (fun x => ∃ y ∈ Y, mulx k2 (mulx k1 (hash y)) = mulx k1 (mulx k2 (hash x))) = fun x => ∃ y ∈ Y, Same x y := by
    funext x
    refine propext (exists_congr fun y => and_congr_right fun _ => ?_)
    rw [same_iff x y k1 k2, x25519_commutes k2 k1, eq_comm]
  rwa [e] at h2

/-! ### Examples -/

/-- The first test vector of RFC 7748, section 5.2. -/
example : mulx [0xa5, 0x46, 0xe3, 0x6b, 0xf0, 0x52, 0x7c, 0x9d, 0x3b, 0x16, 0x15, 0x4b, 0x82, 0x46, 0x5e, 0xdd, 0x62, 0x14, 0x4c, 0x0a, 0xc1, 0xfc, 0x5a, 0x18, 0x50, 0x6a, 0x22, 0x44, 0xba, 0x44, 0x9a, 0xc4]
    [0xe6, 0xdb, 0x68, 0x67, 0x58, 0x30, 0x30, 0xdb, 0x35, 0x94, 0xc1, 0xa4, 0x24, 0xb1, 0x5f, 0x7c, 0x72, 0x66, 0x24, 0xec, 0x26, 0xb3, 0x35, 0x3b, 0x10, 0xa9, 0x03, 0xa6, 0xd0, 0xab, 0x1c, 0x4c] =
    [0xc3, 0xda, 0x55, 0x37, 0x9d, 0xe9, 0xc6, 0x90, 0x8e, 0x94, 0xea, 0x4d, 0xf2, 0x8d, 0x08, 0x4f, 0x32, 0xec, 0xcf, 0x03, 0x49, 0x1c, 0x71, 0xf7, 0x54, 0xb4, 0x07, 0x55, 0x77, 0xa2, 0x85, 0x52] := by
  decide +kernel

/-- Different strings are confused: two and two plus the prime, with and without the top bit. -/
example : leBytes 32 2 ≠ leBytes 32 (2 + p) ∧ leBytes 32 2 ≠ leBytes 32 (2 + 2 ^ 255) ∧ fromBytes (leBytes 32 2) = fromBytes (leBytes 32 (2 + p)) ∧
    fromBytes (leBytes 32 2) = fromBytes (leBytes 32 (2 + 2 ^ 255)) := by decide +kernel

/-- Points of small order and a point that is not. -/
example : fromBytes (leBytes 32 e1) ∈ [0, 1, p - 1, e1, e2] ∧ fromBytes (leBytes 32 9) ∉ [0, 1, p - 1, e1, e2] := by decide +kernel

/-- The hypotheses of the protocol theorems are met. -/
example : ∃ out, Proto.Runs (CwPRF.PSI.sendWith Proto.toyNet mulx [1] ⟨1, 2, 32⟩ [7#128]) (CwPRF.PSI.receiveWith Proto.toyNet mulx [2] ⟨1, 2, 32⟩ [7#128, 8#128]) () out ∧
    7#128 ∈ out := by
  obtain ⟨out, h1, -, h2, -⟩ := psi_x25519 Proto.toyNet Proto.toyNet_ok [1] [2] ⟨1, 2, 32⟩ (by decide) [7#128] [7#128, 8#128] rfl rfl (by decide)
  exact ⟨out, h1, h2 _ (by simp) (by simp)⟩

end Kunlun.X25519
