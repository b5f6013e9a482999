import Verif.Model.Dlog
/-!
C23: the parallel baby-step giant-step search.
-/

namespace Kunlun.Dlog

open Kunlun

variable {G : Type} [AddCommGroup G] [DecidableEq G]

/-- The 64-bit key separates the points the search for `h` meets from the table points. -/
def NoCollision (key : G → BitVec 64) (g h : G) (L T : Nat) : Prop :=
  ∀ c < giantNum L T, ∀ b < babyNum L T,
    key (h - ((c * babyNum L T : Nat) : ℤ) • g) = key ((b : ℤ) • g) →
      h - ((c * babyNum L T : Nat) : ℤ) • g = (b : ℤ) • g

theorem tasks_times_slice {L T : Nat} (h : checkParams L T = true) :
    searchTaskNum * slicedGiant L T = giantNum L T := by
  apply Nat.mul_div_cancel'
  unfold checkParams at h
  simp only [decide_eq_true_eq] at h
  exact Nat.pow_dvd_pow 2 (m := 6) (by omega)

theorem giant_times_baby {L T : Nat} (h : checkParams L T = true) :
    giantNum L T * babyNum L T = 2 ^ (2 * (L / 2)) := by
  unfold checkParams at h
  simp only [decide_eq_true_eq] at h
  rw [giantNum, babyNum, ← Nat.pow_add]
  congr 1
  omega

theorem params_of_init {key : G → BitVec 64} {g : G} {L T : Nat} {ex : Bool} {gl : Globals G}
    (hi : initTable Globals.init key g L T ex = some gl) : checkParams L T = true := by
  unfold initTable at hi
  split at hi
  · assumption
  · cases hi

/-- C23 (never a wrong exponent): after initialisation, for every schedule of every number of threads, a reported exponent is
right and in range, provided the 64-bit keys do not collide. -/
theorem dlog_search_sound (key : G → BitVec 64) (g h : G) (L T : Nat) (ex : Bool) (gl : Globals G)
    (hi : initTable Globals.init key g L T ex = some gl) (hk : NoCollision key g h L T)
    (x0 : ℤ) (sched : List (Nat × Bool)) (x : ℤ) (hr : shanks gl key h L T x0 sched = some (true, x)) :
    x • g = h ∧ 0 ≤ x ∧ x < 2 ^ (2 * (L / 2)) := by
  have hp := params_of_init hi
  have hl := loaded_of_initTable key g L T ex gl hi
  obtain ⟨c, b, ⟨hc, hm⟩, hx⟩ := (shanks_hits hl x0 sched true x hr).1 rfl
  rw [tasks_times_slice hp] at hc
  obtain ⟨hb, hkey⟩ := hl.map_some _ _ hm
  have he := hk c hc b hb hkey.symm
  refine ⟨?_, ?_, ?_⟩
  · have : h = (b : ℤ) • g + ((c * babyNum L T : Nat) : ℤ) • g := by rw [← he]; abel
    rw [this, hx]
    push_cast
    module
  · rw [hx]; positivity
  · have hgb := giant_times_baby hp
    have : b + c * babyNum L T < giantNum L T * babyNum L T := by
      calc b + c * babyNum L T < (c + 1) * babyNum L T := by rw [Nat.succ_mul]; omega
        _ ≤ _ := Nat.mul_le_mul_right _ hc
    rw [hx]
    rw [hgb] at this
    exact_mod_cast this

/-- C23 (search always succeeds on the covered range): whatever the key function and the schedule, the search reports success
for every exponent below `2^(2·(RANGE_LEN/2))`. -/
theorem dlog_search_succeeds (key : G → BitVec 64) (g : G) (L T : Nat) (ex : Bool) (gl : Globals G)
    (hi : initTable Globals.init key g L T ex = some gl) (n : Nat) (hn : n < 2 ^ (2 * (L / 2)))
    (x0 : ℤ) (sched : List (Nat × Bool)) (f : Bool) (x : ℤ)
    (hr : shanks gl key ((n : ℤ) • g) L T x0 sched = some (f, x)) : f = true := by
  have hp := params_of_init hi
  have hl := loaded_of_initTable key g L T ex gl hi
  by_contra hf
  have hf : f = false := by cases f <;> simp_all
  have hno := (shanks_hits hl x0 sched f x hr).2 hf
  have hB : 0 < babyNum L T := Nat.two_pow_pos _
  have hc : n / babyNum L T < giantNum L T := by
    rw [Nat.div_lt_iff_lt_mul hB, giant_times_baby hp]; exact hn
  have he : ((n : ℤ) • g) - ((n / babyNum L T * babyNum L T : Nat) : ℤ) • g = ((n % babyNum L T : Nat) : ℤ) • g := by
    rw [← sub_smul]
    congr 1
    have := Nat.div_add_mod n (babyNum L T)
    rw [Nat.mul_comm] at this
    omega
  have hsome := hl.map_has (n % babyNum L T) (Nat.mod_lt _ hB)
  rw [← he] at hsome
  obtain ⟨b, hb⟩ := Option.isSome_iff_exists.1 hsome
  exact hno (n / babyNum L T) b ⟨by rw [tasks_times_slice hp]; exact hc, hb⟩

/-- C23 for even range lengths: the search returns exactly `n` for `h = g^n`, for every `n` in `[0, 2^RANGE_LEN)`, every
trade-off parameter, every thread schedule and whether or not the table file existed. -/
theorem dlog_search_finds_partial (cv : Curve G) (key : G → BitVec 64) (g : G) (hg : g ≠ 0) (L T : Nat) (hL : L % 2 = 0)
    (hq : 2 ^ L ≤ cv.order) (ex : Bool) (gl : Globals G)
    (hi : initTable Globals.init key g L T ex = some gl) (n : Nat) (hn : n < 2 ^ L)
    (hk : NoCollision key g ((n : ℤ) • g) L T)
    (x0 : ℤ) (sched : List (Nat × Bool)) (f : Bool) (x : ℤ)
    (hr : shanks gl key ((n : ℤ) • g) L T x0 sched = some (f, x)) : f = true ∧ x = n := by
  have h2 : 2 * (L / 2) = L := by omega
  have hf := dlog_search_succeeds key g L T ex gl hi n (by rw [h2]; exact hn) x0 sched f x hr
  subst hf
  obtain ⟨hx, hx0, hx1⟩ := dlog_search_sound key g _ L T ex gl hi hk x0 sched x hr
  refine ⟨rfl, ?_⟩
  rw [h2] at hx1
  rw [cv.smul_eq_iff _ _ g hg] at hx
  have hq' : (2 ^ L : ℤ) ≤ cv.order := by exact_mod_cast hq
  have hn' : (n : ℤ) < 2 ^ L := by exact_mod_cast hn
  obtain ⟨k, hk⟩ := hx
  have : k = 0 := by
    by_contra hk0
    rcases lt_or_gt_of_ne hk0 with h1 | h1
    · have : (cv.order : ℤ) * k ≤ cv.order * (-1) := mul_le_mul_of_nonneg_left (by omega) (by omega)
      omega
    · have : (cv.order : ℤ) * 1 ≤ cv.order * k := mul_le_mul_of_nonneg_left (by omega) (by omega)
      omega
  rw [this] at hk
  omega

/-- C23 is violated for odd range lengths: exponents in the upper half of `[0, 2^RANGE_LEN)` are never found, on any schedule. -/
theorem dlog_odd_range_misses (cv : Curve G) (key : G → BitVec 64) (g : G) (hg : g ≠ 0) (L T : Nat) (hL : L % 2 = 1)
    (hq : 2 ^ L ≤ cv.order) (ex : Bool) (gl : Globals G)
    (hi : initTable Globals.init key g L T ex = some gl) (n : Nat) (hn : n < 2 ^ L) (hn' : 2 ^ (L - 1) ≤ n)
    (hk : NoCollision key g ((n : ℤ) • g) L T)
    (x0 : ℤ) (sched : List (Nat × Bool)) (f : Bool) (x : ℤ)
    (hr : shanks gl key ((n : ℤ) • g) L T x0 sched = some (f, x)) : f = false := by
  have h2 : 2 * (L / 2) = L - 1 := by omega
  cases f with
  | false => rfl
  | true =>
    exfalso
    obtain ⟨hx, hx0, hx1⟩ := dlog_search_sound key g _ L T ex gl hi hk x0 sched x hr
    rw [h2] at hx1
    rw [cv.smul_eq_iff _ _ g hg] at hx
    have hq' : (2 ^ L : ℤ) ≤ cv.order := by exact_mod_cast hq
    have hn1 : (n : ℤ) < 2 ^ L := by exact_mod_cast hn
    have hn2 : (2 : ℤ) ^ (L - 1) ≤ n := by exact_mod_cast hn'
    obtain ⟨k, hk⟩ := hx
    have h1 : (2 : ℤ) ^ (L - 1) ≤ 2 ^ L := by
      apply pow_le_pow_right₀ <;> omega
    have : k < 0 := by
      by_contra hk0
      have : (cv.order : ℤ) * 0 ≤ cv.order * k := mul_le_mul_of_nonneg_left (by omega) (by omega)
      omega
    have : (cv.order : ℤ) * k ≤ cv.order * (-1) := mul_le_mul_of_nonneg_left (by omega) (by omega)
    omega

/-! ### Termination -/

/-- Upper bound on the remaining steps of a task. -/
def remaining (S : Nat) : Task G → Nat
  | .idle => S + 4
  | .run k _ => S - k + 3
  | .found _ _ => 2
  | .wrote => 1
  | .done => 0

theorem step_remaining (gl : Globals G) (key : G → BitVec 64) (h : G) (S B : Nat) (st : Search G) (i j : Nat) (s : Bool)
    (t : Task G) (ht : st.tasks[i]? = some t) :
    ∃ t', (step gl key h S B st j s).tasks[i]? = some t' ∧
      remaining S t' ≤ remaining S t - (if i = j then 1 else 0) := by
  have hlt : i < st.tasks.length := by
    by_contra hn
    rw [List.getElem?_eq_none (by omega)] at ht
    cases ht
  by_cases hij : i = j
  · subst hij
    rw [if_pos rfl]
    unfold step
    simp only [ht]
    cases t with
    | done => exact ⟨_, ht, by simp [remaining]⟩
    | idle =>
      simp only
      split
      · exact ⟨_, List.getElem?_set_self hlt, by simp [remaining]⟩
      · exact ⟨_, List.getElem?_set_self hlt, by simp [remaining]⟩
    | run k p =>
      simp only
      split
      · exact ⟨_, List.getElem?_set_self hlt, by simp [remaining]⟩
      · split
        · exact ⟨_, List.getElem?_set_self hlt, by simp [remaining]⟩
        · split
          · exact ⟨_, List.getElem?_set_self hlt, by simp only [remaining]; omega⟩
          · exact ⟨_, List.getElem?_set_self hlt, by simp [remaining]⟩
    | found b k => exact ⟨_, List.getElem?_set_self hlt, by simp [remaining]⟩
    | wrote => exact ⟨_, List.getElem?_set_self hlt, by simp [remaining]⟩
  · rw [if_neg hij, Nat.sub_zero]
    refine ⟨t, ?_, Nat.le_refl _⟩
    have hne : ∀ t', (st.tasks.set j t')[i]? = some t := by
      intro t'
      rw [List.getElem?_set_ne (Ne.symm hij)]; exact ht
    unfold step
    simp only
    cases hc : st.tasks[j]? with
    | none => exact ht
    | some tj =>
      cases tj with
      | done => exact ht
      | idle => simp only; split <;> exact hne _
      | run k p =>
        simp only
        split
        · exact hne _
        · split
          · exact hne _
          · split <;> exact hne _
      | found b k => exact hne _
      | wrote => exact hne _

theorem schedule_remaining (gl : Globals G) (key : G → BitVec 64) (h : G) (S B : Nat) (i : Nat) :
    ∀ (sched : List (Nat × Bool)) (st : Search G) (t : Task G), st.tasks[i]? = some t →
    ∃ t', (runSchedule gl key h S B sched st).tasks[i]? = some t' ∧
      remaining S t' ≤ remaining S t - (sched.map Prod.fst).count i
  | [], st, t, ht => ⟨t, ht, by simp⟩
  | (j, s) :: rest, st, t, ht => by
    obtain ⟨t1, h1, hr1⟩ := step_remaining gl key h S B st i j s t ht
    obtain ⟨t2, h2, hr2⟩ := schedule_remaining gl key h S B i rest _ t1 h1
    refine ⟨t2, h2, ?_⟩
    rw [List.map_cons, List.count_cons]
    by_cases hij : i = j
    · subst hij
      simp only [if_true, BEq.rfl] at hr1 ⊢
      omega
    · rw [if_neg hij] at hr1
      have : (j == i) = false := by simp [Ne.symm hij]
      simp only [this, Bool.false_eq_true, if_false]
      omega

theorem runSchedule_len (gl : Globals G) (key : G → BitVec 64) (h : G) (S B : Nat) :
    ∀ (sched : List (Nat × Bool)) (st : Search G), (runSchedule gl key h S B sched st).tasks.length = st.tasks.length
  | [], _ => rfl
  | (j, s) :: rest, st => by
    rw [runSchedule, runSchedule_len gl key h S B rest]
    unfold step
    simp only
    split
    · rfl
    · rfl
    · split <;> simp
    · split
      · simp
      · split
        · simp
        · split <;> simp
    · simp
    · simp

/-- C23: the search terminates on every schedule that gives each task at least `SLICED_GIANTSTEP_NUM + 4` steps. -/
theorem dlog_search_terminates (gl : Globals G) (key : G → BitVec 64) (h : G) (L T : Nat) (x0 : ℤ)
    (sched : List (Nat × Bool))
    (hs : ∀ i < searchTaskNum, slicedGiant L T + 4 ≤ (sched.map Prod.fst).count i) :
    ∃ r, shanks gl key h L T x0 sched = some r := by
  unfold shanks
  simp only
  have hall : (runSchedule gl key h (slicedGiant L T) (babyNum L T) sched
      ⟨List.replicate searchTaskNum .idle, false, x0⟩).tasks.all (· = .done) = true := by
    rw [List.all_eq_true]
    intro t ht
    obtain ⟨i, hi, rfl⟩ := List.getElem_of_mem ht
    have hlen := runSchedule_len gl key h (slicedGiant L T) (babyNum L T) sched
      ⟨List.replicate searchTaskNum .idle, false, x0⟩
    simp only [List.length_replicate] at hlen
    have hi' : i < searchTaskNum := by rw [hlen] at hi; exact hi
    obtain ⟨t', h1, h2⟩ := schedule_remaining gl key h (slicedGiant L T) (babyNum L T) i sched
      ⟨List.replicate searchTaskNum .idle, false, x0⟩ .idle (by simp [hi'])
    have hz : remaining (slicedGiant L T) t' = 0 := by
      have := hs i hi'
      have e : remaining (G := G) (slicedGiant L T) .idle = slicedGiant L T + 4 := rfl
      rw [e] at h2
      omega
    rw [List.getElem?_eq_getElem hi] at h1
    simp only [Option.some.injEq] at h1
    rw [h1]
    cases t' <;> simp_all [remaining]
  rw [if_pos hall]
  exact ⟨_, rfl⟩

/-! ### Examples and witnesses -/

/-- A curve of order 8209 for the examples. -/
def exCurve : Curve (ZMod 8209) where
  order := 8209
  prime := by norm_num
  smul_order P := by
    rw [nsmul_eq_mul, ZMod.natCast_self, zero_mul]
  gen := 1
  gen_ne := by decide
  toBytes P := [UInt8.ofNat P.val, UInt8.ofNat (P.val / 256)]

/-- An injective 64-bit key. -/
def exKey (P : ZMod 8209) : BitVec 64 := BitVec.ofNat 64 P.val

theorem exKey_inj {P Q : ZMod 8209} (h : exKey P = exKey Q) : P = Q := by
  have hp := ZMod.val_lt P
  have hq := ZMod.val_lt Q
  have := congrArg BitVec.toNat h
  simp only [exKey, BitVec.toNat_ofNat] at this
  apply ZMod.val_injective
  omega

/-- The hypotheses of the theorems above hold for a concrete curve, key, range (even and odd) and a sequential schedule. -/
example : NoCollision exKey (1 : ZMod 8209) ((100 : ℤ) • 1) 12 0 ∧ NoCollision exKey (1 : ZMod 8209) ((5000 : ℤ) • 1) 13 0 ∧
    (1 : ZMod 8209) ≠ 0 ∧ 2 ^ 13 ≤ exCurve.order ∧ checkParams 12 0 = true ∧ checkParams 13 0 = true ∧
    (∃ gl, initTable Globals.init exKey (1 : ZMod 8209) 12 0 true = some gl) ∧
    (∀ i < searchTaskNum, slicedGiant 12 0 + 4 ≤
      (((List.range 64).flatMap fun i => List.replicate 5 (i, false)).map Prod.fst).count i) := by
  refine ⟨fun _ _ _ _ h => exKey_inj h, fun _ _ _ _ h => exKey_inj h, by decide, by decide, by decide, by decide, ?_, ?_⟩
  · exact ⟨_, rfl⟩
  · decide +kernel

/-- The answer is not checked against the target: with a colliding key the search reports a wrong exponent. Here every key is
equal, the target is `g^100` and the (sequential) search answers 63. -/
theorem dlog_collision_gives_wrong_answer :
    ∃ gl, initTable Globals.init (fun _ => 0) (1 : ZMod 8209) 12 0 true = some gl ∧
      shanks gl (fun _ => 0) ((100 : ℤ) • (1 : ZMod 8209)) 12 0 0
        ((List.range 64).flatMap fun i => List.replicate 5 (i, false)) = some (true, 63) := by
  refine ⟨_, rfl, ?_⟩
  decide +kernel

/-- The tables are process-wide: initialising a second scheme (base 2) after the first (base 1) makes the first one's search
for exponent 100 answer wrongly, although no keys collide for either base alone. -/
theorem dlog_second_table_breaks_first :
    ∃ gl gl', initTable Globals.init exKey (1 : ZMod 8209) 12 0 true = some gl ∧
      initTable gl exKey (2 : ZMod 8209) 12 0 true = some gl' ∧
      shanks gl' exKey ((100 : ℤ) • (1 : ZMod 8209)) 12 0 0
        ((List.range 64).flatMap fun i => List.replicate 5 (i, false)) = some (true, 50) := by
  refine ⟨_, _, rfl, rfl, ?_⟩
  decide +kernel

end Kunlun.Dlog
