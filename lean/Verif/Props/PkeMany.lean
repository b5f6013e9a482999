import Verif.Props.DdhPrf
/-!
Property C111 for many ciphertexts: whoever asks for any number of encryptions under one key, choosing each pair of messages after having seen
the ciphertexts before, learns no more about which of the two is encrypted than about Diffie-Hellman values; the bound does not grow with the number
of ciphertexts.
-/

namespace Kunlun.Hiding

open Kunlun Finset

variable {G V : Type} [AddCommGroup G]

/-- `n` encryptions one after the other. `step v X W` is what the attacker knows after the next ciphertext, made from `X = r·g` and `W = r·A`, if it knew
`v` before; `D` is its answer. -/
noncomputable def manyReal (q : ℕ) (g A : G) (step : V → G → G → V) (D : V → ℝ) : ℕ → V → ℝ
  | 0, v => D v
  | n + 1, v => ∑ r ∈ range q, manyReal q g A step D n (step v ((r : ℤ) • g) ((r : ℤ) • A))

/-- The same with independent random points. -/
noncomputable def manyIdeal (q : ℕ) (g : G) (step : V → G → G → V) (D : V → ℝ) : ℕ → V → ℝ
  | 0, v => D v
  | n + 1, v => ∑ x ∈ range q, ∑ w ∈ range q, manyIdeal q g step D n (step v ((x : ℤ) • g) ((w : ℤ) • g))

/-- The same with points made from the triple `A`, `B`, `C` and random numbers. -/
noncomputable def manyTest (q : ℕ) (g A B C : G) (step : V → G → G → V) (D : V → ℝ) : ℕ → V → ℝ
  | 0, v => D v
  | n + 1, v => ∑ s ∈ range q, ∑ t ∈ range q, manyTest q g A B C step D n (step v ((s : ℤ) • g + (t : ℤ) • B) ((s : ℤ) • A + (t : ℤ) • C))

/-- Numbers below the order are residues. -/
theorem sum_range_zmod (q : ℕ) [NeZero q] (f : ZMod q → ℝ) : ∑ k ∈ range q, f (k : ZMod q) = ∑ z : ZMod q, f z := by
  rw [← Fin.sum_univ_eq_sum_range (fun k => f (k : ZMod q)), ← (finZMod q).sum_comp f]
  rfl

/-- On a Diffie-Hellman triple the test gives the ciphertexts of the scheme. -/
theorem manyTest_dh (cv : Curve G) (g : G) (a b : ℤ) (step : V → G → G → V) (D : V → ℝ) : ∀ (n : ℕ) (v : V),
    manyTest cv.order g (a • g) (b • g) ((a * b) • g) step D n v = (cv.order : ℝ) ^ n * manyReal cv.order g (a • g) step D n v
  | 0, v => by simp [manyTest, manyReal]
  | n + 1, v => by
    haveI := cv.fact
    haveI : NeZero cv.order := ⟨cv.prime.ne_zero⟩
    letI := cv.toModule
    rw [manyTest, manyReal]
    simp only [manyTest_dh cv g a b step D n]
    rw [sum_comm]
    have e : ∀ t ∈ range cv.order, ∑ s ∈ range cv.order, (cv.order : ℝ) ^ n * manyReal cv.order g (a • g) step D n
          (step v ((s : ℤ) • g + (t : ℤ) • b • g) ((s : ℤ) • a • g + (t : ℤ) • (a * b) • g)) =
        (cv.order : ℝ) ^ n * ∑ r ∈ range cv.order, manyReal cv.order g (a • g) step D n (step v ((r : ℤ) • g) ((r : ℤ) • a • g)) := by
      intro t _
      rw [← mul_sum]
      congr 1
      have key := sum_shift cv g (t * b) fun P => manyReal cv.order g (a • g) step D n (step v P (a • P))
      refine Eq.trans (sum_congr rfl fun s _ => ?_) (key.trans (sum_congr rfl fun r _ => ?_))
      · congr 2
        · module
        · module
      · rw [smul_comm]
    rw [sum_congr rfl e, sum_const, card_range, nsmul_eq_mul]
    ring

/-- On any other triple it gives random points. -/
theorem manyTest_random (cv : Curve G) (g : G) (a b c : ℤ) (hc : ¬ (cv.order : ℤ) ∣ c - a * b) (step : V → G → G → V) (D : V → ℝ) :
    ∀ (n : ℕ) (v : V), manyTest cv.order g (a • g) (b • g) (c • g) step D n v = manyIdeal cv.order g step D n v
  | 0, v => rfl
  | n + 1, v => by
    haveI := cv.fact
    haveI : NeZero cv.order := ⟨cv.prime.ne_zero⟩
    letI := cv.toModule
    rw [manyTest, manyIdeal]
    simp only [manyTest_random cv g a b c hc step D n]
    set f : G → G → ℝ := fun X W => manyIdeal cv.order g step D n (step v X W) with hf
    have hd : (c : ZMod cv.order) - a * b ≠ 0 := by
      intro h
      apply hc
      rw [← ZMod.intCast_zmod_eq_zero_iff_dvd]
      push_cast
      exact h
    have l : ∀ s t : ℕ, f ((s : ℤ) • g + (t : ℤ) • b • g) ((s : ℤ) • a • g + (t : ℤ) • c • g) =
        f (((s : ZMod cv.order) + t * b) • g) (((s : ZMod cv.order) * a + t * c) • g) := by
      intro s t
      simp only [cv.cast_smul]
      congr 1
      · push_cast
        module
      · push_cast
        module
    have r : ∀ x w : ℕ, f ((x : ℤ) • g) ((w : ℤ) • g) = f ((x : ZMod cv.order) • g) ((w : ZMod cv.order) • g) := by
      intro x w
      rw [cv.cast_smul, cv.cast_smul, Int.cast_natCast, Int.cast_natCast]
    show ∑ s ∈ range cv.order, ∑ t ∈ range cv.order, f ((s : ℤ) • g + (t : ℤ) • b • g) ((s : ℤ) • a • g + (t : ℤ) • c • g) =
      ∑ x ∈ range cv.order, ∑ w ∈ range cv.order, f ((x : ℤ) • g) ((w : ℤ) • g)
    simp only [l, r]
    have two : ∀ F : ZMod cv.order → ZMod cv.order → ℝ, ∑ s ∈ range cv.order, ∑ t ∈ range cv.order, F s t = ∑ s, ∑ t, F s t := by
      intro F
      rw [← sum_range_zmod cv.order fun s => ∑ t, F s t]
      exact sum_congr rfl fun s _ => sum_range_zmod cv.order _
    rw [two fun s t => f ((s + t * b) • g) ((s * a + t * c) • g), two fun x w => f (x • g) (w • g), ← sum_product', ← sum_product']
    refine sum_nbij' (fun p => (p.1 + p.2 * b, p.1 * a + p.2 * c))
      (fun p => (p.1 - (p.2 - a * p.1) / (c - a * b) * b, (p.2 - a * p.1) / (c - a * b)))
      (fun _ _ => by simp) (fun _ _ => by simp) ?_ ?_ (fun _ _ => rfl)
    · intro p _
      have e : (p.1 * a + p.2 * c - a * (p.1 + p.2 * b)) / ((c : ZMod cv.order) - a * b) = p.2 := by
        rw [div_eq_iff hd]
        ring
      ext
      · simp only [e]
        ring
      · simp only [e]
    · intro p _
      have e : (p.2 - a * p.1) / ((c : ZMod cv.order) - a * b) * (c - a * b) = p.2 - a * p.1 := div_mul_cancel₀ _ hd
      ext
      · simp only
        ring
      · simp only
        linear_combination e

/-- The average answer of an attacker that sees a public key and `n` ciphertexts under it; what it knows at first and how it goes on may depend on the key. -/
noncomputable def manyGame (cv : Curve G) (g : G) (n : ℕ) (v0 : G → V) (step : G → V → G → G → V) (D : G → V → ℝ) : ℝ :=
  (∑ a ∈ range cv.order, manyReal cv.order g ((a : ℤ) • g) (step ((a : ℤ) • g)) (D ((a : ℤ) • g)) n (v0 ((a : ℤ) • g))) / (cv.order : ℝ) ^ (n + 1)

/-- The same with random points. -/
noncomputable def manyGameIdeal (cv : Curve G) (g : G) (n : ℕ) (v0 : G → V) (step : G → V → G → G → V) (D : G → V → ℝ) : ℝ :=
  (∑ a ∈ range cv.order, manyIdeal cv.order g (step ((a : ℤ) • g)) (D ((a : ℤ) • g)) n (v0 ((a : ℤ) • g))) / (cv.order : ℝ) ^ (2 * n + 1)

/-- The test of Diffie-Hellman triples that runs the attacker once. -/
noncomputable def manyDdh (cv : Curve G) (g : G) (n : ℕ) (v0 : G → V) (step : G → V → G → G → V) (D : G → V → ℝ) (A B C : G) : ℝ :=
  manyTest cv.order g A B C (step A) (D A) n (v0 A) / (cv.order : ℝ) ^ (2 * n)

/-- An exact reduction for any number of ciphertexts. -/
theorem many_exact (cv : Curve G) (g : G) (n : ℕ) (v0 : G → V) (step : G → V → G → G → V) (D : G → V → ℝ) :
    ddhAdv cv g (manyDdh cv g n v0 step D) = (1 - 1 / (cv.order : ℝ)) * |manyGame cv g n v0 step D - manyGameIdeal cv g n v0 step D| := by
  set q := cv.order with hq
  have q0 : (q : ℝ) ≠ 0 := Nat.cast_ne_zero.2 cv.prime.ne_zero
  set R : ℕ → ℝ := fun a => manyReal q g ((a : ℤ) • g) (step ((a : ℤ) • g)) (D ((a : ℤ) • g)) n (v0 ((a : ℤ) • g)) with hR
  set I : ℕ → ℝ := fun a => manyIdeal q g (step ((a : ℤ) • g)) (D ((a : ℤ) • g)) n (v0 ((a : ℤ) • g)) with hI
  have dh : ∀ a b : ℕ, manyDdh cv g n v0 step D ((a : ℤ) • g) ((b : ℤ) • g) (((a : ℤ) * b) • g) = (q : ℝ) ^ n * R a / (q : ℝ) ^ (2 * n) := by
    intro a b
    unfold manyDdh
    rw [manyTest_dh]
  have inner : ∀ a b : ℕ, ∑ c ∈ range q, manyDdh cv g n v0 step D ((a : ℤ) • g) ((b : ℤ) • g) ((c : ℤ) • g) =
      (q : ℝ) ^ n * R a / (q : ℝ) ^ (2 * n) + (q - 1) * (I a / (q : ℝ) ^ (2 * n)) := by
    intro a b
    set c0 : ℕ := a * b % q with hc0
    have hm : c0 ∈ range q := mem_range.2 (Nat.mod_lt _ cv.prime.pos)
    have e0 : ((c0 : ℤ)) • g = ((a : ℤ) * b) • g := by
      rw [hc0]
      push_cast
      rw [cv.emod_smul]
    rw [← add_sum_erase _ _ hm, e0, dh]
    congr 1
    have : ∀ c ∈ (range q).erase c0, manyDdh cv g n v0 step D ((a : ℤ) • g) ((b : ℤ) • g) ((c : ℤ) • g) = I a / (q : ℝ) ^ (2 * n) := by
      intro c hc
      have h1 := ne_of_mem_erase hc
      have h2 := mem_range.1 (mem_of_mem_erase hc)
      unfold manyDdh
      rw [manyTest_random]
      intro hdiv
      apply h1
      have : (c : ℤ) % q = (a * b : ℤ) % q := Int.emod_emod_of_dvd _ (dvd_refl _) |>.symm.trans (by
        rw [Int.emod_emod_of_dvd _ (dvd_refl _)]
        exact (Int.ModEq.symm (Int.modEq_iff_dvd.2 hdiv)))
      have h3 : ((c % q : ℕ) : ℤ) = ((a * b % q : ℕ) : ℤ) := by push_cast; exact this
      have h4 : c % q = a * b % q := by exact_mod_cast h3
      rw [Nat.mod_eq_of_lt h2] at h4
      exact h4
    rw [sum_congr rfl this, sum_const, card_erase_of_mem hm, card_range, nsmul_eq_mul, Nat.cast_sub cv.prime.one_lt.le, Nat.cast_one]
  have s2 : (∑ a ∈ range q, ∑ b ∈ range q, manyDdh cv g n v0 step D ((a : ℤ) • g) ((b : ℤ) • g) (((a : ℤ) * b) • g)) =
      q * (q : ℝ) ^ n * (∑ a ∈ range q, R a) / (q : ℝ) ^ (2 * n) := by
    simp only [dh, sum_const, card_range, nsmul_eq_mul]
    rw [← mul_sum, ← sum_div, ← mul_sum]
    ring
  have s3 : (∑ a ∈ range q, ∑ b ∈ range q, ∑ c ∈ range q, manyDdh cv g n v0 step D ((a : ℤ) • g) ((b : ℤ) • g) ((c : ℤ) • g)) =
      q * (q : ℝ) ^ n * (∑ a ∈ range q, R a) / (q : ℝ) ^ (2 * n) + q * (q - 1) * (∑ a ∈ range q, I a) / (q : ℝ) ^ (2 * n) := by
    simp only [inner, sum_const, card_range, nsmul_eq_mul]
    rw [← mul_sum, sum_add_distrib, ← sum_div, ← mul_sum, ← mul_sum, ← sum_div]
    ring
  have p0 : (0 : ℝ) ≤ 1 - 1 / q := by
    have : (1 : ℝ) ≤ q := by exact_mod_cast cv.prime.one_lt.le
    have h1 : 1 / (q : ℝ) ≤ 1 := by rw [div_le_one (by linarith)]; exact this
    linarith
  unfold ddhAdv manyGame manyGameIdeal
  rw [← hq, s2, s3, ← abs_of_nonneg p0, ← abs_mul]
  congr 1
  rw [show (q : ℝ) ^ (2 * n) = q ^ n * q ^ n by rw [two_mul, pow_add], show (q : ℝ) ^ (n + 1) = q ^ n * q by rw [pow_succ],
    show (q : ℝ) ^ (2 * n + 1) = q ^ n * q ^ n * q by rw [pow_succ, two_mul, pow_add]]
  have hn : (q : ℝ) ^ n ≠ 0 := pow_ne_zero _ q0
  field_simp
  ring

/-- Two attackers that get the same with random points. -/
theorem many_gap (cv : Curve G) (g : G) (n : ℕ) (v0 : G → V) (s0 s1 : G → V → G → G → V) (D : G → V → ℝ)
    (h : manyGameIdeal cv g n v0 s0 D = manyGameIdeal cv g n v0 s1 D) :
    (1 - 1 / (cv.order : ℝ)) * |manyGame cv g n v0 s0 D - manyGame cv g n v0 s1 D| ≤
      ddhAdv cv g (manyDdh cv g n v0 s0 D) + ddhAdv cv g (manyDdh cv g n v0 s1 D) := by
  have p0 : (0 : ℝ) ≤ 1 - 1 / cv.order := by
    have : (1 : ℝ) ≤ cv.order := by exact_mod_cast cv.prime.one_lt.le
    have h1 : 1 / (cv.order : ℝ) ≤ 1 := by rw [div_le_one (by linarith)]; exact this
    linarith
  rw [many_exact, many_exact, ← mul_add, ← h, abs_sub_comm (manyGame cv g n v0 s1 D)]
  exact mul_le_mul_of_nonneg_left (abs_sub_le _ _ _) p0

/-- With random points, a shift of the second point that depends on what is known before does not matter. -/
theorem manyIdeal_shift (cv : Curve G) (g : G) (hg : Generates g) (base : V → G → G → V) (z z' : V → G) (D : V → ℝ) : ∀ (n : ℕ) (v : V),
    manyIdeal cv.order g (fun v X W => base v (X + z' v) (W + z v)) D n v = manyIdeal cv.order g base D n v
  | 0, _ => rfl
  | n + 1, v => by
    rw [manyIdeal, manyIdeal]
    simp only [manyIdeal_shift cv g hg base z z' D n]
    obtain ⟨x, hx⟩ := hg (z v)
    obtain ⟨y, hy⟩ := hg (z' v)
    rw [hx, hy]
    refine Eq.trans (sum_congr rfl fun s _ => sum_shift cv g x fun P => manyIdeal cv.order g base D n (base v ((s : ℤ) • g + y • g) P)) ?_
    exact sum_shift cv g y fun Q => ∑ w ∈ range cv.order, manyIdeal cv.order g base D n (base v Q ((w : ℤ) • g))

end Kunlun.Hiding

namespace Kunlun

open Kunlun Finset Hiding

variable {G V : Type} [AddCommGroup G]

/-- **C111** ElGamal, any number of ciphertexts: an attacker with memory `V` chooses two messages from the key and all it knows (`m0`, `m1`), is given the encryption of
the first (or always of the second) and goes on (`learn`). -/
theorem ElGamal.elgamal_many_hide (cv : Curve G) (g : G) (hg : Generates g) (n : ℕ) (v0 : G → V) (m0 m1 : G → V → G) (learn : G → V → CT G → V) (D : G → V → ℝ) :
    let step := fun (m : G → V → G) (pk : G) (v : V) (X W : G) => learn pk v ⟨X, W + m pk v⟩
    (∀ (m : G → V → G) (sk r : ℤ) (v : V), step m (keyGen g sk) v (r • g) (r • keyGen g sk) = learn (keyGen g sk) v (enc g (keyGen g sk) (m (keyGen g sk) v) r)) ∧
      (1 - 1 / (cv.order : ℝ)) * |manyGame cv g n v0 (step m0) D - manyGame cv g n v0 (step m1) D| ≤
        ddhAdv cv g (manyDdh cv g n v0 (step m0) D) + ddhAdv cv g (manyDdh cv g n v0 (step m1) D) := by
  intro step
  refine ⟨fun m sk r v => rfl, many_gap cv g n v0 _ _ D ?_⟩
  unfold manyGameIdeal
  congr 1
  refine sum_congr rfl fun a _ => ?_
  have e : ∀ m : G → V → G, manyIdeal cv.order g (step m ((a : ℤ) • g)) (D ((a : ℤ) • g)) n (v0 ((a : ℤ) • g)) =
      manyIdeal cv.order g (fun v X W => learn ((a : ℤ) • g) v ⟨X, W⟩) (D ((a : ℤ) • g)) n (v0 ((a : ℤ) • g)) := fun m => by
    have := manyIdeal_shift cv g hg (fun v X W => learn ((a : ℤ) • g) v ⟨X, W⟩) (fun v => m ((a : ℤ) • g) v) (fun _ => 0) (D ((a : ℤ) • g)) n (v0 ((a : ℤ) • g))
    simpa only [add_zero] using this
  rw [e, e]

/-- **C111** Exponential ElGamal, any number of ciphertexts. -/
theorem ExpElGamal.exp_elgamal_many_hide (cv : Curve G) (g : G) (hg : Generates g) (n : ℕ) (v0 : G → V) (m0 m1 : G → V → ℤ) (learn : G → V → CT G → V) (D : G → V → ℝ) :
    let step := fun (m : G → V → ℤ) (pk : G) (v : V) (X W : G) => learn pk v ⟨X, W + m pk v • g⟩
    (∀ (m : G → V → ℤ) (sk r : ℤ) (v : V), step m (keyGen g sk) v (r • g) (r • keyGen g sk) = learn (keyGen g sk) v (enc g (keyGen g sk) (m (keyGen g sk) v) r)) ∧
      (1 - 1 / (cv.order : ℝ)) * |manyGame cv g n v0 (step m0) D - manyGame cv g n v0 (step m1) D| ≤
        ddhAdv cv g (manyDdh cv g n v0 (step m0) D) + ddhAdv cv g (manyDdh cv g n v0 (step m1) D) := by
  intro step
  refine ⟨fun m sk r v => by simp only [step, enc, msm_two], many_gap cv g n v0 _ _ D ?_⟩
  unfold manyGameIdeal
  congr 1
  refine sum_congr rfl fun a _ => ?_
  have e : ∀ m : G → V → ℤ, manyIdeal cv.order g (step m ((a : ℤ) • g)) (D ((a : ℤ) • g)) n (v0 ((a : ℤ) • g)) =
      manyIdeal cv.order g (fun v X W => learn ((a : ℤ) • g) v ⟨X, W⟩) (D ((a : ℤ) • g)) n (v0 ((a : ℤ) • g)) := fun m => by
    have := manyIdeal_shift cv g hg (fun v X W => learn ((a : ℤ) • g) v ⟨X, W⟩) (fun v => m ((a : ℤ) • g) v • g) (fun _ => 0) (D ((a : ℤ) • g)) n (v0 ((a : ℤ) • g))
    simpa only [add_zero] using this
  rw [e, e]

/-- **C111** Twisted ElGamal, any number of ciphertexts, whatever is known about the two bases. -/
theorem Twisted.twisted_many_hide (cv : Curve G) (pp : PP G) (hg : Generates pp.g) (n : ℕ) (v0 : G → V) (m0 m1 : G → V → ℤ) (learn : G → V → CT G → V) (D : G → V → ℝ) :
    let step := fun (m : G → V → ℤ) (pk : G) (v : V) (X W : G) => learn pk v ⟨W, X + m pk v • pp.h⟩
    (∀ (m : G → V → ℤ) (sk r : ℤ) (v : V), step m (keyGen pp sk) v (r • pp.g) (r • keyGen pp sk) = learn (keyGen pp sk) v (enc pp (keyGen pp sk) (m (keyGen pp sk) v) r)) ∧
      (1 - 1 / (cv.order : ℝ)) * |manyGame cv pp.g n v0 (step m0) D - manyGame cv pp.g n v0 (step m1) D| ≤
        ddhAdv cv pp.g (manyDdh cv pp.g n v0 (step m0) D) + ddhAdv cv pp.g (manyDdh cv pp.g n v0 (step m1) D) := by
  intro step
  refine ⟨fun m sk r v => by simp only [step, enc, msm_two], many_gap cv pp.g n v0 _ _ D ?_⟩
  unfold manyGameIdeal
  congr 1
  refine sum_congr rfl fun a _ => ?_
  have e : ∀ m : G → V → ℤ, manyIdeal cv.order pp.g (step m ((a : ℤ) • pp.g)) (D ((a : ℤ) • pp.g)) n (v0 ((a : ℤ) • pp.g)) =
      manyIdeal cv.order pp.g (fun v X W => learn ((a : ℤ) • pp.g) v ⟨W, X⟩) (D ((a : ℤ) • pp.g)) n (v0 ((a : ℤ) • pp.g)) := fun m => by
    have := manyIdeal_shift cv pp.g hg (fun v X W => learn ((a : ℤ) • pp.g) v ⟨W, X⟩) (fun _ => 0) (fun v => m ((a : ℤ) • pp.g) v • pp.h) (D ((a : ℤ) • pp.g)) n
      (v0 ((a : ℤ) • pp.g))
    simpa only [add_zero] using this
  rw [e, e]

/-- Two ciphertexts on the toy curve; in the first game the second message depends on the first ciphertext, in the other both messages are 3. -/
example := ElGamal.elgamal_many_hide toyCurve toyCurve.gen toy_generates 2 (fun _ => ([] : List (CT (ZMod 7)))) (fun _ v => (v.map (·.X)).sum) (fun _ _ => 3)
  (fun _ v ct => v ++ [ct]) (fun pk v => if v.map (·.Y) = [pk, 3] then 1 else 0)

end Kunlun
