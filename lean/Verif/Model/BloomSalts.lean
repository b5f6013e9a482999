import Verif.Model.BloomLemmas
/-! Salt table of the Bloom filter: helper lemmas for C71. -/

namespace Kunlun.Bloom
/-- Salts produced by the iterations that do not wrap around, `i + 3 < hash_num`; they do not depend on `hash_num`. -/
def wSalt : List UInt32 :=
  List.zipWith (fun a b => a * b + constructorSeed) predefinedSalt (predefinedSalt.drop 3)

theorem wSalt_getElem? (k : Nat) (hk : k < 125) :
    ∃ a b, predefinedSalt[k]? = some a ∧ predefinedSalt[k + 3]? = some b ∧
      wSalt[k]? = some (a * b + constructorSeed) := by
  have h1 : k < predefinedSalt.length := by simp [predefinedSalt]; omega
  have h2 : k + 3 < predefinedSalt.length := by simp [predefinedSalt]; omega
  refine ⟨_, _, List.getElem?_eq_getElem h1, List.getElem?_eq_getElem h2, ?_⟩
  unfold wSalt
  rw [List.getElem?_zipWith, List.getElem?_drop, List.getElem?_eq_getElem h1, Nat.add_comm 3 k,
    List.getElem?_eq_getElem h2]

theorem wSalt_length : wSalt.length = 125 := by simp [wSalt, predefinedSalt]
theorem pre_length : predefinedSalt.length = 128 := by simp [predefinedSalt]

theorem fold_prefix (n : Nat) (hn : n ≤ 128) (k : Nat) (hk : k + 3 ≤ n) :
    (List.range k).foldlM (saltStep constructorSeed) (predefinedSalt.take n) =
      some (wSalt.take k ++ (predefinedSalt.take n).drop k) := by
  induction k with
  | zero => simp
  | succ k ih =>
    rw [List.range_succ, List.foldlM_append, ih (by omega)]
    obtain ⟨a, b, ha, hb, hw⟩ := wSalt_getElem? k (by omega)
    have hwl := wSalt_length
    have hpl := pre_length
    have hl : (wSalt.take k ++ (predefinedSalt.take n).drop k).length = n := by simp; omega
    have e1 : (wSalt.take k ++ (predefinedSalt.take n).drop k)[k]? = some a := by
      rw [List.getElem?_append_right (by simp; omega), List.getElem?_drop, List.getElem?_take, if_pos (by simp; omega),
        ← ha]
      congr 1; simp; omega
    have e2 : (wSalt.take k ++ (predefinedSalt.take n).drop k)[k + 3]? = some b := by
      rw [List.getElem?_append_right (by simp; omega), List.getElem?_drop, List.getElem?_take, if_pos (by simp; omega),
        ← hb]
      congr 1; simp; omega
    simp only [Option.bind_eq_bind, Option.bind_some, List.foldlM_cons, List.foldlM_nil, saltStep, hl,
      Nat.mod_eq_of_lt (show k + 3 < n by omega), e1, e2, Option.pure_def, Option.some.injEq]
    apply List.ext_getElem?
    intro i
    by_cases hi : i < k
    · rw [List.getElem?_set_ne (by omega), List.getElem?_append_left (by simp; omega),
        List.getElem?_append_left (by simp; omega), List.getElem?_take, List.getElem?_take, if_pos hi, if_pos (by omega)]
    · by_cases hi2 : i = k
      · subst hi2
        rw [List.getElem?_set_self (by omega), List.getElem?_append_left (by simp; omega), List.getElem?_take,
          if_pos (by omega), hw]
      · rw [List.getElem?_set_ne (by omega), List.getElem?_append_right (by simp; omega),
          List.getElem?_append_right (by simp; omega), List.getElem?_drop, List.getElem?_drop]
        congr 1; simp; omega

/-- The three salts computed by the iterations that wrap around. -/
def tailSalts (n : Nat) : List UInt32 :=
  List.zipWith (fun a b => a * b + constructorSeed) ((predefinedSalt.drop (n - 3)).take 3) (wSalt.take 3)

theorem fold_full (n : Nat) (hn : n ≤ 128) (h6 : 6 ≤ n) :
    (List.range n).foldlM (saltStep constructorSeed) (predefinedSalt.take n) =
      some (wSalt.take (n - 3) ++ tailSalts n) := by
  obtain ⟨m, rfl⟩ : ∃ m, n = m + 3 := ⟨n - 3, by omega⟩
  have hwl := wSalt_length
  have hpl := pre_length
  have hsplit : List.range (m + 3) = List.range m ++ [m, m + 1, m + 2] := by
    simp [List.range_succ]
  rw [hsplit, List.foldlM_append, fold_prefix (m + 3) hn m (by omega)]
  obtain ⟨p0, hp0⟩ : ∃ p, predefinedSalt[m]? = some p := ⟨_, List.getElem?_eq_getElem (by omega)⟩
  obtain ⟨p1, hp1⟩ : ∃ p, predefinedSalt[m + 1]? = some p := ⟨_, List.getElem?_eq_getElem (by omega)⟩
  obtain ⟨p2, hp2⟩ : ∃ p, predefinedSalt[m + 2]? = some p := ⟨_, List.getElem?_eq_getElem (by omega)⟩
  have hd : (predefinedSalt.take (m + 3)).drop m = [p0, p1, p2] := by
    apply List.ext_getElem?
    intro i
    rw [List.getElem?_drop, List.getElem?_take]
    match i with
    | 0 => simp [hp0]
    | 1 => simp [hp1]
    | 2 => simp [hp2]
    | i + 3 => rw [if_neg (by omega)]; simp
  have hd2 : (predefinedSalt.drop (m + 3 - 3)).take 3 = [p0, p1, p2] := by
    rw [← hd, List.drop_take]; simp
  obtain ⟨w0, w1, w2, ws, hw⟩ : ∃ w0 w1 w2 ws, wSalt = w0 :: w1 :: w2 :: ws := ⟨_, _, _, _, rfl⟩
  have hwt : wSalt.take m = w0 :: w1 :: w2 :: ws.take (m - 3) := by
    obtain ⟨j, rfl⟩ : ∃ j, m = j + 3 := ⟨m - 3, by omega⟩
    rw [hw]; simp
  have hws : (ws.take (m - 3)).length = m - 3 := by
    have : ws.length = 122 := by have := hwl; rw [hw] at this; simpa using this
    simp; omega
  unfold tailSalts
  rw [hd2, hw, hd]
  rw [hw] at hwt
  rw [show m + 3 - 3 = m by omega, hwt]
  generalize ws.take (m - 3) = T at *
  obtain ⟨j, rfl⟩ : ∃ j, m = j + 3 := ⟨m - 3, by omega⟩
  have hT : T.length = j := by omega
  subst hT
  have m0 : (T.length + 3 + 3) % (T.length + 1 + 1 + 1 + 3) = 0 := by
    rw [show T.length + 1 + 1 + 1 + 3 = T.length + 3 + 3 by omega]; exact Nat.mod_self _
  have m1 : (T.length + 3 + 1 + 3) % (T.length + 1 + 1 + 1 + 3) = 1 := by
    rw [show T.length + 3 + 1 + 3 = 1 + (T.length + 1 + 1 + 1 + 3) by omega, Nat.add_mod_right]
    exact Nat.mod_eq_of_lt (by omega)
  have m2 : (T.length + 3 + 2 + 3) % (T.length + 1 + 1 + 1 + 3) = 2 := by
    rw [show T.length + 3 + 2 + 3 = 2 + (T.length + 1 + 1 + 1 + 3) by omega, Nat.add_mod_right]
    exact Nat.mod_eq_of_lt (by omega)
  simp [saltStep, List.foldlM_cons, m0, m1, m2]

/-- Duplicate check by a bit mask of residues modulo `p`. -/
def maskNodup (p : Nat) : List Nat → Nat → Bool
  | [], _ => true
  | x :: xs, m => match Nat.testBit m (x % p) with
    | true => false
    | false => maskNodup p xs (m ||| 2 ^ (x % p))

theorem maskNodup_sound (p : Nat) (l : List Nat) (m : Nat) (h : maskNodup p l m = true) :
    l.Nodup ∧ ∀ x ∈ l, m.testBit (x % p) = false := by
  induction l generalizing m with
  | nil => simp
  | cons x xs ih =>
    unfold maskNodup at h
    split at h
    · cases h
    · rename_i hx
      obtain ⟨h1, h2⟩ := ih _ h
      refine ⟨List.nodup_cons.mpr ⟨?_, h1⟩, ?_⟩
      · intro hmem
        have := h2 x hmem
        simp [Nat.testBit_or] at this
      · intro y hy
        rw [List.mem_cons] at hy
        rcases hy with rfl | hy
        · exact hx
        · have := h2 y hy
          simp [Nat.testBit_or] at this
          exact this.1

theorem salts_table_small : ∀ n, n < 6 →
    ((List.range n).foldlM (saltStep constructorSeed) (predefinedSalt.take n)).elim false
      (fun v => maskNodup 4904 (v.map UInt32.toNat) 0) = true := by
  decide +kernel

theorem salts_table_large : ∀ m, m < 123 →
    maskNodup 4904 ((wSalt.take (m + 3) ++ tailSalts (m + 6)).map UInt32.toNat) 0 = true := by
  decide +kernel
/-- For every number of hash functions up to 128 the generation succeeds with pairwise distinct salts. -/
theorem salts_table (n : Nat) (hn : n ≤ 128) :
    ∃ v, (List.range n).foldlM (saltStep constructorSeed) (predefinedSalt.take n) = some v ∧ v.Nodup := by
  have key : ∀ v : List UInt32, maskNodup 4904 (v.map UInt32.toNat) 0 = true → v.Nodup := by
    intro v hv
    have := (maskNodup_sound _ _ _ hv).1
    unfold List.Nodup at this ⊢
    rw [List.pairwise_map] at this
    exact this.imp (fun h e => h (by rw [e]))
  by_cases h6 : n < 6
  · have := salts_table_small n h6
    cases h : (List.range n).foldlM (saltStep constructorSeed) (predefinedSalt.take n) with
    | none => rw [h] at this; simp at this
    | some v => rw [h] at this; exact ⟨v, rfl, key v this⟩
  · refine ⟨_, fold_full n hn (by omega), key _ ?_⟩
    have := salts_table_large (n - 6) (by omega)
    rwa [show n - 6 + 3 = n - 3 by omega, show n - 6 + 6 = n by omega] at this

theorem predefinedSalt_nodup : predefinedSalt.Nodup := by
  have h : maskNodup 4904 (predefinedSalt.map UInt32.toNat) 0 = true := by decide +kernel
  have := (maskNodup_sound _ _ _ h).1
  unfold List.Nodup at this ⊢
  rw [List.pairwise_map] at this
  exact this.imp (fun h e => h (by rw [e]))

end Kunlun.Bloom
