import Mathlib.NumberTheory.LucasPrimality
import Mathlib.Tactic.NormNum.Prime
/-!
The two primes of the curve the library works on (`NID_X9_62_prime256v1`, crypto/ec_group.hpp:16): the field prime and the group
order.  Both are proved prime from the factorisation of their predecessors (Lucas), recursively.
-/

namespace Kunlun.P256

/-- `a ^ e mod n` by squaring; `fuel` bounds the number of bits of `e`. -/
def powMod (n : ℕ) : ℕ → ℕ → ℕ → ℕ
  | 0, _, _ => 1 % n
  | k + 1, a, e => if e % 2 = 1 then a * powMod n k (a * a % n) (e / 2) % n else powMod n k (a * a % n) (e / 2)

theorem powMod_eq (n : ℕ) (k a e : ℕ) (h : e < 2 ^ k) : powMod n k a e = a ^ e % n := by
  induction k generalizing a e with
  | zero =>
    have : e = 0 := by simpa using h
    simp [powMod, this]
  | succ k ih =>
    have hi := ih (a * a % n) (e / 2) (by rw [pow_succ] at h; omega)
    have hp : (a * a % n) ^ (e / 2) % n = a ^ (2 * (e / 2)) % n := by
      rw [← Nat.pow_mod, ← pow_two, ← pow_mul]
    unfold powMod
    rw [hi, hp]
    split
    · next ho =>
      rw [Nat.mul_mod, Nat.mod_mod, ← Nat.mul_mod, ← pow_succ']
      congr 2
      omega
    · next ho =>
      congr 2
      omega

/-- The test on a factorisation `fs` of `p - 1` (prime, exponent) and a generator `a`. -/
def lucasTest (p a : ℕ) (fs : List (ℕ × ℕ)) : Bool :=
  decide (1 < p ∧ p ≤ 2 ^ 256) && (fs.foldl (fun x f => x * f.1 ^ f.2) 1 == p - 1) && (powMod p 256 a (p - 1) == 1) &&
    fs.all fun f => !(powMod p 256 a ((p - 1) / f.1) == 1)

theorem foldl_prod (fs : List (ℕ × ℕ)) (x q : ℕ) (hq : q.Prime) (h : q ∣ fs.foldl (fun x f => x * f.1 ^ f.2) x) :
    q ∣ x ∨ ∃ f ∈ fs, q ∣ f.1 := by
  induction fs generalizing x with
  | nil => exact .inl h
  | cons f fs ih =>
    rcases ih _ h with h | ⟨g, hg, hd⟩
    · rcases hq.dvd_mul.1 h with h | h
      · exact .inl h
      · exact .inr ⟨f, by simp, hq.dvd_of_dvd_pow h⟩
    · exact .inr ⟨g, by simp [hg], hd⟩

theorem lucas {p : ℕ} (a : ℕ) (fs : List (ℕ × ℕ)) (ht : lucasTest p a fs = true) (hfs : ∀ f ∈ fs, f.1.Prime) : p.Prime := by
  unfold lucasTest at ht
  simp only [Bool.and_eq_true, decide_eq_true_eq, beq_iff_eq, List.all_eq_true, Bool.not_eq_true', beq_eq_false_iff_ne] at ht
  obtain ⟨⟨⟨⟨h1, hb⟩, hprod⟩, hpow⟩, hall⟩ := ht
  have hlt : ∀ e, e ≤ p - 1 → e < 2 ^ 256 := fun e he => by omega
  have key : ∀ e, e ≤ p - 1 → (((a : ZMod p) ^ e = 1) ↔ powMod p 256 a e = 1) := by
    intro e he
    rw [powMod_eq _ _ _ _ (hlt e he)]
    have : ((a : ZMod p) ^ e = 1) ↔ ((a ^ e : ℕ) : ZMod p) = ((1 : ℕ) : ZMod p) := by push_cast; rfl
    rw [this, ZMod.natCast_eq_natCast_iff', Nat.mod_eq_of_lt h1]
  apply lucas_primality p (a : ZMod p) ((key _ le_rfl).2 hpow)
  intro q hq hqd
  rw [← hprod] at hqd
  rcases foldl_prod fs 1 q hq hqd with h | ⟨f, hf, hd⟩
  · exact absurd (Nat.dvd_one.1 h) hq.one_lt.ne'
  · have : q = f.1 := (Nat.prime_dvd_prime_iff_eq hq (hfs f hf)).1 hd
    rw [Ne, key _ (Nat.div_le_self _ _), this]
    exact hall f hf

theorem prime_3969899 : Nat.Prime 3969899 := by
  refine lucas 2 [(2, 1), (19, 1), (104471, 1)] (by decide +kernel) ?_
  simp only [List.forall_mem_cons]
  refine ⟨?_, ?_, ?_, by simp⟩
  · norm_num
  · norm_num
  · norm_num

theorem prime_6700417 : Nat.Prime 6700417 := by
  refine lucas 5 [(2, 7), (3, 1), (17449, 1)] (by decide +kernel) ?_
  simp only [List.forall_mem_cons]
  refine ⟨?_, ?_, ?_, by simp⟩
  · norm_num
  · norm_num
  · norm_num

theorem prime_9350987 : Nat.Prime 9350987 := by
  refine lucas 2 [(2, 1), (17, 1), (229, 1), (1201, 1)] (by decide +kernel) ?_
  simp only [List.forall_mem_cons]
  refine ⟨?_, ?_, ?_, ?_, by simp⟩
  · norm_num
  · norm_num
  · norm_num
  · norm_num

theorem prime_187019741 : Nat.Prime 187019741 := by
  refine lucas 2 [(2, 2), (5, 1), (9350987, 1)] (by decide +kernel) ?_
  simp only [List.forall_mem_cons]
  refine ⟨?_, ?_, ?_, by simp⟩
  · norm_num
  · norm_num
  · exact prime_9350987

theorem prime_191039911 : Nat.Prime 191039911 := by
  refine lucas 3 [(2, 1), (3, 1), (5, 1), (41, 1), (155317, 1)] (by decide +kernel) ?_
  simp only [List.forall_mem_cons]
  refine ⟨?_, ?_, ?_, ?_, ?_, by simp⟩
  · norm_num
  · norm_num
  · norm_num
  · norm_num
  · norm_num

theorem prime_204061199 : Nat.Prime 204061199 := by
  refine lucas 11 [(2, 1), (11, 1), (23, 1), (107, 1), (3769, 1)] (by decide +kernel) ?_
  simp only [List.forall_mem_cons]
  refine ⟨?_, ?_, ?_, ?_, ?_, by simp⟩
  · norm_num
  · norm_num
  · norm_num
  · norm_num
  · norm_num

theorem prime_311245691 : Nat.Prime 311245691 := by
  refine lucas 2 [(2, 1), (5, 1), (7, 1), (17, 1), (29, 2), (311, 1)] (by decide +kernel) ?_
  simp only [List.forall_mem_cons]
  refine ⟨?_, ?_, ?_, ?_, ?_, ?_, by simp⟩
  · norm_num
  · norm_num
  · norm_num
  · norm_num
  · norm_num
  · norm_num

theorem prime_622491383 : Nat.Prime 622491383 := by
  refine lucas 5 [(2, 1), (311245691, 1)] (by decide +kernel) ?_
  simp only [List.forall_mem_cons]
  refine ⟨?_, ?_, by simp⟩
  · norm_num
  · exact prime_311245691

theorem prime_34282281433 : Nat.Prime 34282281433 := by
  refine lucas 17 [(2, 3), (3, 1), (7, 1), (204061199, 1)] (by decide +kernel) ?_
  simp only [List.forall_mem_cons]
  refine ⟨?_, ?_, ?_, ?_, by simp⟩
  · norm_num
  · norm_num
  · norm_num
  · exact prime_204061199

theorem prime_66417393611 : Nat.Prime 66417393611 := by
  refine lucas 6 [(2, 1), (5, 1), (53, 1), (173, 1), (197, 1), (3677, 1)] (by decide +kernel) ?_
  simp only [List.forall_mem_cons]
  refine ⟨?_, ?_, ?_, ?_, ?_, ?_, by simp⟩
  · norm_num
  · norm_num
  · norm_num
  · norm_num
  · norm_num
  · norm_num

theorem prime_1002328039319 : Nat.Prime 1002328039319 := by
  refine lucas 19 [(2, 1), (126241, 1), (3969899, 1)] (by decide +kernel) ?_
  simp only [List.forall_mem_cons]
  refine ⟨?_, ?_, ?_, by simp⟩
  · norm_num
  · norm_num
  · exact prime_3969899

theorem prime_11290956913871 : Nat.Prime 11290956913871 := by
  refine lucas 13 [(2, 1), (5, 1), (17, 1), (66417393611, 1)] (by decide +kernel) ?_
  simp only [List.forall_mem_cons]
  refine ⟨?_, ?_, ?_, ?_, by simp⟩
  · norm_num
  · norm_num
  · norm_num
  · exact prime_66417393611

theorem prime_46076956964474543 : Nat.Prime 46076956964474543 := by
  refine lucas 5 [(2, 1), (23, 1), (18169, 1), (78283, 1), (704251, 1)] (by decide +kernel) ?_
  simp only [List.forall_mem_cons]
  refine ⟨?_, ?_, ?_, ?_, ?_, by simp⟩
  · norm_num
  · norm_num
  · norm_num
  · norm_num
  · norm_num

theorem prime_208150935158385979 : Nat.Prime 208150935158385979 := by
  refine lucas 2 [(2, 1), (3, 1), (11, 1), (43, 1), (127, 1), (3023, 1), (191039911, 1)] (by decide +kernel) ?_
  simp only [List.forall_mem_cons]
  refine ⟨?_, ?_, ?_, ?_, ?_, ?_, ?_, by simp⟩
  · norm_num
  · norm_num
  · norm_num
  · norm_num
  · norm_num
  · norm_num
  · exact prime_191039911

theorem prime_2624747550333869278416773953 : Nat.Prime 2624747550333869278416773953 := by
  refine lucas 7 [(2, 6), (3, 2), (1297, 1), (16879, 1), (208150935158385979, 1)] (by decide +kernel) ?_
  simp only [List.forall_mem_cons]
  refine ⟨?_, ?_, ?_, ?_, ?_, by simp⟩
  · norm_num
  · norm_num
  · norm_num
  · norm_num
  · exact prime_208150935158385979

theorem prime_774023187263532362759620327192479577272145303 : Nat.Prime 774023187263532362759620327192479577272145303 := by
  refine lucas 3 [(2, 1), (3, 2), (2411, 1), (34282281433, 1), (11290956913871, 1), (46076956964474543, 1)] (by decide +kernel) ?_
  simp only [List.forall_mem_cons]
  refine ⟨?_, ?_, ?_, ?_, ?_, ?_, by simp⟩
  · norm_num
  · norm_num
  · norm_num
  · exact prime_34282281433
  · exact prime_11290956913871
  · exact prime_46076956964474543

theorem prime_835945042244614951780389953367877943453916927241 : Nat.Prime 835945042244614951780389953367877943453916927241 := by
  refine lucas 11 [(2, 3), (3, 3), (5, 1), (774023187263532362759620327192479577272145303, 1)] (by decide +kernel) ?_
  simp only [List.forall_mem_cons]
  refine ⟨?_, ?_, ?_, ?_, by simp⟩
  · norm_num
  · norm_num
  · norm_num
  · exact prime_774023187263532362759620327192479577272145303

theorem prime_115792089210356248762697446949407573529996955224135760342422259061068512044369 : Nat.Prime 115792089210356248762697446949407573529996955224135760342422259061068512044369 := by
  refine lucas 7 [(2, 4), (3, 1), (71, 1), (131, 1), (373, 1), (3407, 1), (17449, 1), (38189, 1), (187019741, 1), (622491383, 1), (1002328039319, 1), (2624747550333869278416773953, 1)] (by decide +kernel) ?_
  simp only [List.forall_mem_cons]
  refine ⟨?_, ?_, ?_, ?_, ?_, ?_, ?_, ?_, ?_, ?_, ?_, ?_, by simp⟩
  · norm_num
  · norm_num
  · norm_num
  · norm_num
  · norm_num
  · norm_num
  · norm_num
  · norm_num
  · exact prime_187019741
  · exact prime_622491383
  · exact prime_1002328039319
  · exact prime_2624747550333869278416773953

theorem prime_115792089210356248762697446949407573530086143415290314195533631308867097853951 : Nat.Prime 115792089210356248762697446949407573530086143415290314195533631308867097853951 := by
  refine lucas 6 [(2, 1), (3, 1), (5, 2), (17, 1), (257, 1), (641, 1), (1531, 1), (65537, 1), (490463, 1), (6700417, 1), (835945042244614951780389953367877943453916927241, 1)] (by decide +kernel) ?_
  simp only [List.forall_mem_cons]
  refine ⟨?_, ?_, ?_, ?_, ?_, ?_, ?_, ?_, ?_, ?_, ?_, by simp⟩
  · norm_num
  · norm_num
  · norm_num
  · norm_num
  · norm_num
  · norm_num
  · norm_num
  · norm_num
  · norm_num
  · exact prime_6700417
  · exact prime_835945042244614951780389953367877943453916927241

/-- The prime of the field: `2^256 - 2^224 + 2^192 + 2^96 - 1`. -/
def p : ℕ := 2 ^ 256 - 2 ^ 224 + 2 ^ 192 + 2 ^ 96 - 1

/-- The order of the generator. -/
def n : ℕ := 0xffffffff00000000ffffffffffffffffbce6faada7179e84f3b9cac2fc632551

theorem p_prime : p.Prime := prime_115792089210356248762697446949407573530086143415290314195533631308867097853951

theorem n_prime : n.Prime := prime_115792089210356248762697446949407573529996955224135760342422259061068512044369

attribute [irreducible] p n

end Kunlun.P256
