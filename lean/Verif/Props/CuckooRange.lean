import Verif.Model.CuckooRange
import Verif.Props.Cuckoo
/-!
Property C04 for the insertion of many items at once.
-/

namespace Kunlun.Cuckoo

theorem insertRange_spec (H : Bytes → UInt32) (xs : List (Bytes × (Nat → Nat))) {f : Filter} (w : WF f) :
    ∃ f' ok, insertRange H f xs = some (f', ok) ∧ WF f' ∧ f'.bucketNum = f.bucketNum ∧
      (∀ y, contain H f y = some true → contain H f' y = some true) ∧
      (ok = true → ∀ p ∈ xs, contain H f' p.1 = some true) ∧
      (ok = false → f'.victim.used ≠ 0 ∧ ∃ k < xs.length, insertRange H f (xs.take k) = some (f', true)) := by
  induction xs generalizing f with
  | nil => exact ⟨f, true, rfl, w, rfl, fun _ h => h, by simp, by simp⟩
  | cons p xs ih =>
    obtain ⟨x, rnd⟩ := p
    obtain ⟨f1, ok, h1, w1, e1, hi, hk⟩ := step_spec H w (.insert x rnd)
    have h1' : insert H rnd f x = some (f1, ok) := h1
    cases ok with
    | false =>
      obtain ⟨rfl, hv⟩ := cuckoo_insert_failure H rnd w x h1'
      refine ⟨f1, false, by simp [insertRange, h1'], w, rfl, fun _ h => h, by simp, fun _ => ⟨hv, 0, by simp, rfl⟩⟩
    | true =>
      obtain ⟨f2, ok, h2, w2, e2, hkeep, hall, hfail⟩ := ih w1
      refine ⟨f2, ok, by simp [insertRange, h1', h2], w2, by omega, fun y hy => hkeep y (hk y trivial hy), ?_, ?_⟩
      · rintro hok p hp
        rcases List.mem_cons.mp hp with rfl | hp
        · exact hkeep _ (hi x rnd rfl rfl)
        · exact hall hok p hp
      · intro hok
        obtain ⟨hv, k, hk', hr⟩ := hfail hok
        exact ⟨hv, k + 1, by simpa using hk', by simp [insertRange, h1', hr]⟩

/-- **C04** Inserting a range or a container of items, after any history of calls on a new filter: the call never leaves the table and loses
nothing that was reported before. When it returns true every item of the range is reported as contained. When it returns false a victim is
parked, and there is a position `k` in the range such that the filter is the one in which the first `k` items alone were inserted with
success; these are reported as contained and none of the items from `k` on was stored. -/
theorem cuckoo_insert_range (H : Bytes → UInt32) (projected : Nat) (dbl : Bool) (hp : projected / 4 ≤ 2 ^ 31) (ops : List Op)
    (xs : List (Bytes × (Nat → Nat))) :
    ∃ f oks f' ok, run H (new projected dbl) ops = some (f, oks) ∧ insertRange H f xs = some (f', ok) ∧
      (∀ y, contain H f y = some true → contain H f' y = some true) ∧
      (ok = true → ∀ p ∈ xs, contain H f' p.1 = some true) ∧
      (ok = false → f'.victim.used ≠ 0 ∧ ∃ k < xs.length, insertRange H f (xs.take k) = some (f', true) ∧
        ∀ p ∈ xs.take k, contain H f' p.1 = some true) := by
  obtain ⟨f, oks, h1, _, w, _, _⟩ := run_spec H ops (new_wf projected dbl hp)
  obtain ⟨f', ok, h2, _, _, hkeep, hall, hfail⟩ := insertRange_spec H xs w
  refine ⟨f, oks, f', ok, h1, h2, hkeep, hall, fun h => ?_⟩
  obtain ⟨hv, k, hk, hr⟩ := hfail h
  obtain ⟨g, ok', h3, _, _, _, hall', _⟩ := insertRange_spec H (xs.take k) w
  rw [hr] at h3
  cases h3
  exact ⟨hv, k, hk, hr, hall' rfl⟩

/-- **C04** Inserting a range agrees with inserting its items one after the other: if all of those calls report success the range call
does, with the same filter; if the range call reports success so did all of them. -/
theorem cuckoo_insert_range_single (H : Bytes → UInt32) (xs : List (Bytes × (Nat → Nat))) (f f' : Filter) :
    insertRange H f xs = some (f', true) ↔
      run H f (xs.map fun p => .insert p.1 p.2) = some (f', List.replicate xs.length true) := by
  induction xs generalizing f with
  | nil => simp [insertRange, run]
  | cons p xs ih =>
    obtain ⟨x, rnd⟩ := p
    simp only [insertRange, List.map_cons, run, step, List.length_cons, List.replicate_succ]
    cases h : insert H rnd f x with
    | none => simp
    | some r =>
      obtain ⟨f1, ok⟩ := r
      cases ok with
      | false =>
        simp only [Option.bind_eq_bind, Option.bind_some, Bool.false_eq_true, if_false]
        cases run H f1 (xs.map fun p => Op.insert p.1 p.2) <;> simp
      | true =>
        simp only [Option.bind_eq_bind, Option.bind_some, if_true, ih f1]
        cases run H f1 (xs.map fun p => Op.insert p.1 p.2) <;> simp [Prod.ext_iff]

/-- **C04** A vector of points: after a call that returned true, a query with the very bytes that were hashed finds every point. (These bytes
are the compressed point followed by 32 bytes that were never written, see `cuckoo_point_key_false_negative`.) -/
theorem cuckoo_insert_points_partial (H : Bytes → UInt32) (projected : Nat) (dbl : Bool) (hp : projected / 4 ≤ 2 ^ 31) (ops : List Op)
    (pts : List (Bytes × Bytes × (Nat → Nat))) :
    ∃ f oks f' ok, run H (new projected dbl) ops = some (f, oks) ∧ insertPoints H f pts = some (f', ok) ∧
      (ok = true → ∀ p ∈ pts, contain H f' (pointBuffer p.1 p.2.1) = some true) := by
  obtain ⟨f, oks, f', ok, h1, h2, _, h3, _⟩ := cuckoo_insert_range H projected dbl hp ops (pts.map fun p => (pointBuffer p.1 p.2.1, p.2.2))
  refine ⟨f, oks, f', ok, h1, h2, fun h p hp' => ?_⟩
  exact h3 h (pointBuffer p.1 p.2.1, p.2.2) (List.mem_map.mpr ⟨p, hp', rfl⟩)

/-- Non-trivial case: an ordinary size meets the hypothesis, and the second result occurs: a filter with a parked victim refuses a range. -/
example (x y : Bytes) (rnd : Nat → Nat) : 1000000 / 4 ≤ 2 ^ 31 ∧
    insertRange (fun _ => 1) { new 4 false with victim := ⟨0, 7, 1⟩ } [(x, rnd), (y, rnd)] =
      some ({ new 4 false with victim := ⟨0, 7, 1⟩ }, false) := by
  refine ⟨by decide, ?_⟩
  simp [insertRange, insert]

end Kunlun.Cuckoo
