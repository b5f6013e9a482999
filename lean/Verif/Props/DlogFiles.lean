import Verif.Model.DlogFiles
import Verif.Props.Dlog
import Mathlib.Data.Finset.Card
/-!
Property C116: the table a program loads for a base, range and tradeoff is the table of these.
-/

namespace Kunlun.Dlog

open Kunlun

/-! ### Numerals -/

theorem digitChar_inj {a b : Nat} (ha : a < 16) (hb : b < 16) (h : digitChar a = digitChar b) : a = b := by
  revert h
  have : ∀ a < 16, ∀ b < 16, digitChar a = digitChar b → a = b := by decide
  exact this a ha b hb

theorem digitChar_range {a : Nat} (ha : a < 16) : digitChar a ≠ 44 ∧ digitChar a ≠ 91 ∧ digitChar a ≠ 93 := by
  have : ∀ a < 16, digitChar a ≠ 44 ∧ digitChar a ≠ 91 ∧ digitChar a ≠ 93 := by decide
  exact this a ha

theorem numeral_digits (n : Nat) {base : Nat} (h1 : 1 < base) (h2 : base ≤ 16) :
    ∃ ds : List Nat, numeral base n = ds.map digitChar ∧ (∀ d ∈ ds, d < base) ∧ Nat.ofDigits base ds.reverse = n ∧ ds ≠ [] := by
  unfold numeral
  split
  · rename_i h
    exact ⟨[0], by decide, by simp; omega, by simp [h], by simp⟩
  · rename_i h
    refine ⟨(Nat.digits base n).reverse, rfl, fun d hd => Nat.digits_lt_base h1 (by simpa using hd), ?_, ?_⟩
    · rw [List.reverse_reverse, Nat.ofDigits_digits]
    · simpa [Nat.digits_eq_nil_iff_eq_zero] using h

theorem map_digit_inj : ∀ {l l' : List Nat}, (∀ d ∈ l, d < 16) → (∀ d ∈ l', d < 16) → l.map digitChar = l'.map digitChar → l = l'
  | [], [], _, _, _ => rfl
  | [], _ :: _, _, _, h => by simp at h
  | _ :: _, [], _, _, h => by simp at h
  | a :: l, b :: l', h1, h2, h => by
    simp only [List.map_cons, List.cons.injEq] at h
    rw [digitChar_inj (h1 a (by simp)) (h2 b (by simp)) h.1,
      map_digit_inj (fun d hd => h1 d (by simp [hd])) (fun d hd => h2 d (by simp [hd])) h.2]

/-- Numerals are different for different numbers. -/
theorem numeral_inj {base n m : Nat} (h1 : 1 < base) (h2 : base ≤ 16) (h : numeral base n = numeral base m) : n = m := by
  obtain ⟨ds, e, hd, hv, _⟩ := numeral_digits n h1 h2
  obtain ⟨ds', e', hd', hv', _⟩ := numeral_digits m h1 h2
  rw [e, e'] at h
  rw [← hv, ← hv', map_digit_inj (fun d hx => by have := hd d hx; omega) (fun d hx => by have := hd' d hx; omega) h]

theorem numeral_clean (n : Nat) {base : Nat} (h1 : 1 < base) (h2 : base ≤ 16) : (44 : UInt8) ∉ numeral base n := by
  obtain ⟨ds, e, hd, _, _⟩ := numeral_digits n h1 h2
  rw [e, List.mem_map]
  rintro ⟨d, hx, h⟩
  exact (digitChar_range (by have := hd d hx; omega)).1 h

theorem numeral_ne_nil (n : Nat) {base : Nat} (h1 : 1 < base) (h2 : base ≤ 16) : 1 ≤ (numeral base n).length := by
  obtain ⟨ds, e, _, _, h0⟩ := numeral_digits n h1 h2
  rw [e, List.length_map]
  exact List.length_pos_iff.2 h0

theorem toHexString_long : ∀ s : Bytes, s.length ≤ (toHexString s).length
  | [] => by simp [toHexString]
  | b :: s => by
    have h1 := numeral_ne_nil (charInt b) (base := 16) (by decide) (by decide)
    have h2 := toHexString_long s
    simp only [toHexString, List.flatMap_cons, List.length_append, List.length_cons] at h2 ⊢
    omega

/-- Splitting at a comma that occurs in neither first part. -/
theorem split_comma : ∀ {a a' : Bytes} {r r' : Bytes}, (44 : UInt8) ∉ a → (44 : UInt8) ∉ a' → a ++ [44] ++ r = a' ++ [44] ++ r' → a = a' ∧ r = r'
  | [], [], r, r', _, _, h => ⟨rfl, by simpa using h⟩
  | [], b :: a', r, r', _, h2, h => by
    simp only [List.nil_append, List.cons_append, List.cons.injEq] at h
    exact absurd h.1.symm (by rintro rfl; simp at h2)
  | b :: a, [], r, r', h1, _, h => by
    simp only [List.nil_append, List.cons_append, List.cons.injEq] at h
    exact absurd h.1 (by rintro rfl; simp at h1)
  | b :: a, b' :: a', r, r', h1, h2, h => by
    simp only [List.cons_append, List.cons.injEq] at h
    obtain ⟨e1, e2⟩ := split_comma (a := a) (a' := a') (fun hm => h1 (by simp [hm])) (fun hm => h2 (by simp [hm])) h.2
    exact ⟨by rw [h.1, e1], e2⟩

/-! ### Names -/

section
variable {G : Type} (H : G → Bytes)

/-- **C116** The name of a table file is determined by the first 16 characters of the hexadecimal hash of the base, the range and the
tradeoff, and determines all three. -/
theorem table_name_iff (hH : ∀ g, 16 ≤ (H g).length) (g g' : G) (L T L' T' : Nat) :
    tableFileName H g L T = tableFileName H g' L' T' ↔
      (toHexString (H g)).take 16 = (toHexString (H g')).take 16 ∧ L = L' ∧ T = T' := by
  constructor
  · intro h
    have hl : ∀ g, ((toHexString (H g)).take 16).length = 16 := fun g => by
      rw [List.length_take]
      have := toHexString_long (H g)
      have := hH g
      omega
    unfold tableFileName at h
    simp only [List.append_assoc] at h
    obtain ⟨e1, h⟩ := List.append_inj h (by rw [hl, hl])
    simp only [List.singleton_append, List.append_cancel_left_eq, List.cons_append, List.cons.injEq, true_and] at h
    have c := fun n => numeral_clean n (base := 10) (by decide) (by decide)
    have h' : numeral 10 L ++ [44] ++ (numeral 10 2 ++ 94 :: (numeral 10 (L / 2 + T) ++ 44 ::
          (numeral 10 2 ++ 94 :: (numeral 10 (L / 2 - T - Nat.log2 searchTaskNum) ++ [93, 46, 116, 97, 98, 108, 101]))))
        = numeral 10 L' ++ [44] ++ (numeral 10 2 ++ 94 :: (numeral 10 (L' / 2 + T') ++ 44 ::
          (numeral 10 2 ++ 94 :: (numeral 10 (L' / 2 - T' - Nat.log2 searchTaskNum) ++ [93, 46, 116, 97, 98, 108, 101])))) := by
      simpa using h
    obtain ⟨e2, h⟩ := split_comma (c _) (c _) h'
    have e2 := numeral_inj (by decide) (by decide) e2
    rw [List.append_cancel_left_eq, List.cons.injEq] at h
    have h' : numeral 10 (L / 2 + T) ++ [44] ++
          (numeral 10 2 ++ 94 :: (numeral 10 (L / 2 - T - Nat.log2 searchTaskNum) ++ [93, 46, 116, 97, 98, 108, 101]))
        = numeral 10 (L' / 2 + T') ++ [44] ++
          (numeral 10 2 ++ 94 :: (numeral 10 (L' / 2 - T' - Nat.log2 searchTaskNum) ++ [93, 46, 116, 97, 98, 108, 101])) := by
      simpa using h.2
    have e3 := numeral_inj (by decide) (by decide) (split_comma (c _) (c _) h').1
    exact ⟨e1, e2, by omega⟩
  · rintro ⟨e1, rfl, rfl⟩
    simp only [tableFileName, e1]

/-- The hexadecimal form of a negative `char`. -/
theorem numeral_high (b : UInt8) (hb : 128 ≤ b.toNat) : (numeral 16 (charInt b)).length = 8 := by
  have hb2 := b.toNat_lt
  have hc : charInt b = 2 ^ 32 - 256 + b.toNat := by rw [charInt, if_neg (by omega)]
  rw [numeral, if_neg (by omega), List.length_map, List.length_reverse, hc]
  rw [Nat.digits_len 16 _ (by decide) (by omega)]
  have : Nat.log 16 (2 ^ 32 - 256 + b.toNat) = 7 := by
    rw [Nat.log_eq_iff (by left; decide)]
    omega
  omega

/-- **C116 (violation)** Two bases whose hashes start with the same two bytes of at least 128 have the same table file, for all ranges and
tradeoffs: each such byte is printed as eight characters, six of them `F`. The other 30 bytes of the hash do not matter. -/
theorem table_name_two_bytes (g g' : G) (a b : UInt8) (s s' : Bytes) (ha : 128 ≤ a.toNat) (hb : 128 ≤ b.toNat)
    (h : H g = a :: b :: s) (h' : H g' = a :: b :: s') (L T : Nat) : tableFileName H g L T = tableFileName H g' L T := by
  have key : ∀ t, (toHexString (a :: b :: t)).take 16 = numeral 16 (charInt a) ++ numeral 16 (charInt b) := by
    intro t
    simp only [toHexString, List.flatMap_cons]
    rw [← List.append_assoc, List.take_append_of_le_length (by simp [numeral_high, ha, hb])]
    exact List.take_of_length_le (by simp [numeral_high, ha, hb])
  simp only [tableFileName, h, h', key]

/-- **C116 (violation)** Among any `2^14 + 1` bases whose hashes start with two bytes of at least 128 (one hash in four does), two different
ones share their table files. -/
theorem table_names_few [DecidableEq G] (S : Finset G) (hS : 2 ^ 14 < S.card)
    (hH : ∀ g ∈ S, ∃ a b s, H g = a :: b :: s ∧ 128 ≤ a.toNat ∧ 128 ≤ b.toNat) :
    ∃ g ∈ S, ∃ g' ∈ S, g ≠ g' ∧ ∀ L T, tableFileName H g L T = tableFileName H g' L T := by
  obtain ⟨g, hg, g', hg', hne, e⟩ := Finset.exists_ne_map_eq_of_card_lt_of_maps_to
    (s := S) (t := Finset.range 128 ×ˢ Finset.range 128) (by rw [Finset.card_product, Finset.card_range]; omega)
    (f := fun g => (((H g).getD 0 0).toNat - 128, ((H g).getD 1 0).toNat - 128)) (by
      intro g _
      have h1 := ((H g).getD 0 0).toNat_lt
      have h2 := ((H g).getD 1 0).toNat_lt
      simp only [Finset.coe_product, Finset.coe_range, Set.mem_prod, Set.mem_Iio]
      omega)
  obtain ⟨a, b, s, h1, ha, hb⟩ := hH g hg
  obtain ⟨a', b', s', h2, ha', hb'⟩ := hH g' hg'
  simp only [h1, h2, List.getD_cons_zero, List.getD_cons_succ, Prod.mk.injEq] at e
  obtain rfl : a = a' := UInt8.toNat_inj.1 (by omega)
  obtain rfl : b = b' := UInt8.toNat_inj.1 (by omega)
  exact ⟨g, hg, g', hg', hne, fun L T => table_name_two_bytes H g g' a b s s' ha hb h1 h2 L T⟩

end

/-- **C116 (violation)** `ToHexString` does not determine its argument: bytes below 16 are printed as one character. -/
theorem toHexString_ambiguous : toHexString [0x01, 0x11] = toHexString [0x11, 0x01] ∧ ([0x01, 0x11] : Bytes) ≠ [0x11, 0x01] := by
  constructor
  · simp [toHexString, numeral, charInt, digitChar]
  · decide

/-! ### Programs -/

section
variable {G : Type} [AddCommGroup G] [DecidableEq G] (H : G → Bytes) (key : G → BitVec 64)

/-- Every file is the table of a base in `S`, for the range and the tradeoff in its name. -/
def DiskOK (S : Set G) (d : Disk G) : Prop :=
  ∀ name f, d name = some f → ∃ g ∈ S, ∃ L T, checkParams L T = true ∧ name = tableFileName H g L T ∧ f = buildTable key g L T

theorem buildTable_keys_length (g : G) {L T : Nat} (h : checkParams L T = true) : (buildTable key g L T).keys.length = babyNum L T := by
  have : 6 ≤ L / 2 + T := by
    unfold checkParams at h
    simp only [decide_eq_true_eq] at h
    omega
  rw [buildTable_keys key g L T this]
  simp

/-- The names of the bases in `S` differ. -/
def NamesDiffer (S : Set G) : Prop := ∀ g ∈ S, ∀ g' ∈ S, (toHexString (H g)).take 16 = (toHexString (H g')).take 16 → g = g'

/-- On a disk that earlier programs left, `Initialize` does what it does with a file of its own. -/
theorem initDisk_ok (hH : ∀ g, 16 ≤ (H g).length) (S : Set G) (hS : NamesDiffer H S) (d : Disk G) (hd : DiskOK H key S d) (gl : Globals G)
    (g : G) (hg : g ∈ S) (L T : Nat) (hp : checkParams L T = true) :
    ∃ d' gl', initDisk H key d gl g L T = some (d', gl') ∧ DiskOK H key S d' ∧ ∃ ex, initTable gl key g L T ex = some gl' := by
  have hlen := buildTable_keys_length key g hp
  cases e : d (tableFileName H g L T) with
  | none =>
    refine ⟨d.write (tableFileName H g L T) (buildTable key g L T),
      loadTable { gl with giant := (buildTable key g L T).giant, anchors := (buildTable key g L T).anchors } (buildTable key g L T),
      ?_, ?_, false, by simp [initTable, hp]⟩
    · simp only [initDisk, hp, if_true, e, Option.isNone_none, Disk.write, Option.bind_some, hlen, ne_eq, not_true, if_false, Bool.false_eq_true]
    · intro name f hf
      unfold Disk.write at hf
      split at hf
      · rename_i hn
        obtain rfl := Option.some.inj hf
        exact ⟨g, hg, L, T, hp, hn, rfl⟩
      · exact hd name f hf
  | some f =>
    obtain ⟨g', hg', L', T', hp', hn, hf⟩ := hd _ _ e
    obtain ⟨h1, rfl, rfl⟩ := (table_name_iff H hH _ _ _ _ _ _).1 hn
    obtain rfl := hS g hg g' hg' h1
    refine ⟨d, loadTable gl (buildTable key g L T), ?_, hd, true, by simp [initTable, hp]⟩
    · simp only [initDisk, hp, if_true, e, Option.isNone_some, Bool.false_eq_true, if_false, Option.bind_some, hf, hlen, ne_eq, not_true]

/-- **C116 (part that holds)** If the hashes of the bases in use differ in their first 16 hexadecimal characters, then however many programs
with whatever bases, ranges and tradeoffs ran before on an empty disk, a new program gets the table of its base: searches are right and
complete (C23). Missing: bases that share the name of the file. -/
theorem table_files_partial (hH : ∀ g, 16 ≤ (H g).length) (S : Set G) (hS : NamesDiffer H S) (before : List (G × Nat × Nat))
    (hb : ∀ p ∈ before, p.1 ∈ S ∧ checkParams p.2.1 p.2.2 = true) (g : G) (hg : g ∈ S) (L T : Nat) (hp : checkParams L T = true) :
    ∃ d d' gl, programs H key (fun _ => none) before = some d ∧ initDisk H key d Globals.init g L T = some (d', gl) ∧ Loaded key g L T gl := by
  have run : ∀ (before : List (G × Nat × Nat)) (d : Disk G), DiskOK H key S d → (∀ p ∈ before, p.1 ∈ S ∧ checkParams p.2.1 p.2.2 = true) →
      ∃ d', programs H key d before = some d' ∧ DiskOK H key S d' := by
    intro before
    induction before with
    | nil => exact fun d hd _ => ⟨d, rfl, hd⟩
    | cons p rest ih =>
      intro d hd hb
      obtain ⟨h1, h2⟩ := hb p (by simp)
      obtain ⟨d1, gl1, e1, hd1, _⟩ := initDisk_ok H key hH S hS d hd Globals.init p.1 h1 p.2.1 p.2.2 h2
      obtain ⟨d2, e2, hd2⟩ := ih d1 hd1 (fun q hq => hb q (by simp [hq]))
      exact ⟨d2, by rw [programs, e1, Option.bind_some, e2], hd2⟩
  obtain ⟨d, e, hd⟩ := run before (fun _ => none) (fun _ _ h => by simp at h) hb
  obtain ⟨d', gl, e', _, ex, hi⟩ := initDisk_ok H key hH S hS d hd Globals.init g hg L T hp
  exact ⟨d, d', gl, e, e', loaded_of_initTable key g L T ex gl hi⟩

/-- **C116 (violation)** If two bases share the name of their file and a program used the first before, a program that uses the second gets
the table of the first without any message, and no search for an exponent other than zero gives it: the decryption of every message other
than 0 fails or returns a wrong message. -/
theorem table_file_of_other_base (cv : Curve G) (g g' : G) (hgg : g ≠ g') (L T : Nat) (hp : checkParams L T = true)
    (hname : tableFileName H g L T = tableFileName H g' L T) (hq : 2 ^ L ≤ cv.order) :
    ∃ d gl d' gl', initDisk H key (fun _ => none) Globals.init g L T = some (d, gl) ∧
      initDisk H key d Globals.init g' L T = some (d', gl') ∧ Loaded key g L T gl' ∧
      ∀ (n : Nat), 0 < n → n < 2 ^ L → NoCollision key g ((n : ℤ) • g') L T →
        ∀ x0 sched x, shanks gl' key ((n : ℤ) • g') L T x0 sched = some (true, x) → x ≠ n := by
  have hlen := buildTable_keys_length key g hp
  have h1 : initDisk H key (fun _ => none) Globals.init g L T = some (Disk.write (fun _ => none) (tableFileName H g L T) (buildTable key g L T),
      loadTable { (Globals.init : Globals G) with giant := (buildTable key g L T).giant, anchors := (buildTable key g L T).anchors }
        (buildTable key g L T)) := by
    simp only [initDisk, hp, if_true, Option.isNone_none, Disk.write, Option.bind_some, hlen, ne_eq, not_true, if_false]
  have h2 : initDisk H key (Disk.write (fun _ => none) (tableFileName H g L T) (buildTable key g L T)) Globals.init g' L T
      = some (Disk.write (fun _ => none) (tableFileName H g L T) (buildTable key g L T), loadTable Globals.init (buildTable key g L T)) := by
    simp only [initDisk, hp, if_true, ← hname, Disk.write, Option.isNone_some, Bool.false_eq_true, if_false, Option.bind_some, hlen, ne_eq,
      not_true]
  have hi : initTable Globals.init key g L T true = some (loadTable Globals.init (buildTable key g L T)) := by
    simp only [initTable, hp, if_true]
  refine ⟨_, _, _, _, h1, h2, loaded_of_initTable key g L T true _ hi, ?_⟩
  rintro n h0 hn hk x0 sched x hr rfl
  have hx := (dlog_search_sound key g _ L T true _ hi hk x0 sched _ hr).1
  have : ((n : ℕ) : ℤ) • (g - g') = 0 := by rw [smul_sub, hx, sub_self]
  have hz := (cv.smul_eq_zero_iff _ (g - g') (sub_ne_zero.2 hgg)).1 this
  have := Int.le_of_dvd (by exact_mod_cast h0) hz
  omega

end

/-- A hash that starts with two bytes of at least 128. -/
def exHash (p : ZMod 8209) : Bytes := 200 :: 201 :: List.replicate 30 (UInt8.ofNat p.val)

/-- **C116 (violation)** A run: a program with base 1, then one with base 2; the second program decrypts the message 100 to 200. -/
theorem table_file_wrong_message : ∃ d gl d' gl', initDisk exHash exKey (fun _ => none) Globals.init 1 12 0 = some (d, gl) ∧
    initDisk exHash exKey d Globals.init 2 12 0 = some (d', gl') ∧
    shanks gl' exKey ((100 : ℤ) • (2 : ZMod 8209)) 12 0 0 ((List.range 64).flatMap fun i => List.replicate 5 (i, false)) = some (true, 200) := by
  have hp : checkParams 12 0 = true := by decide
  have hlen := buildTable_keys_length exKey (1 : ZMod 8209) hp
  have hname : tableFileName exHash 1 12 0 = tableFileName exHash 2 12 0 :=
    table_name_two_bytes _ 1 2 200 201 _ _ (by decide) (by decide) rfl rfl 12 0
  refine ⟨Disk.write (fun _ => none) (tableFileName exHash 1 12 0) (buildTable exKey 1 12 0),
    loadTable { (Globals.init : Globals (ZMod 8209)) with giant := (buildTable exKey 1 12 0).giant, anchors := (buildTable exKey 1 12 0).anchors }
      (buildTable exKey 1 12 0), Disk.write (fun _ => none) (tableFileName exHash 1 12 0) (buildTable exKey 1 12 0),
    loadTable Globals.init (buildTable exKey 1 12 0), ?_, ?_, ?_⟩
  · simp only [initDisk, hp, if_true, Option.isNone_none, Disk.write, Option.bind_some, hlen, ne_eq, not_true, if_false]
  · simp only [initDisk, hp, if_true, ← hname, Disk.write, Option.isNone_some, Bool.false_eq_true, if_false, Option.bind_some, hlen, ne_eq,
      not_true]
  · decide +kernel

/-- Bases 1 and 2 of the example curve with a hash that starts with two bytes of at least 128 for both; bases 1 and 3 with hashes whose
first 16 characters differ. -/
example : (∀ L T, tableFileName (fun p : ZMod 8209 => 200 :: 201 :: List.replicate 30 (UInt8.ofNat p.val)) 1 L T
      = tableFileName (fun p : ZMod 8209 => 200 :: 201 :: List.replicate 30 (UInt8.ofNat p.val)) 2 L T) ∧
    NamesDiffer (fun p : ZMod 8209 => List.replicate 32 (UInt8.ofNat p.val)) {1, 3} ∧ checkParams 12 0 = true ∧ 2 ^ 12 ≤ exCurve.order := by
  refine ⟨fun L T => table_name_two_bytes _ 1 2 200 201 _ _ (by decide) (by decide) rfl rfl L T, ?_, by decide, by decide⟩
  have h1 : (toHexString (List.replicate 32 (UInt8.ofNat (1 : ZMod 8209).val))).take 16 = List.replicate 16 49 := by
    have : (1 : ZMod 8209).val = 1 := by decide
    rw [this]
    simp [toHexString, numeral, charInt, digitChar, List.replicate]
  have h3 : (toHexString (List.replicate 32 (UInt8.ofNat (3 : ZMod 8209).val))).take 16 = List.replicate 16 51 := by
    have : (3 : ZMod 8209).val = 3 := by decide
    rw [this]
    simp [toHexString, numeral, charInt, digitChar, List.replicate]
  intro g hg g' hg' h
  simp only [Set.mem_insert_iff, Set.mem_singleton_iff] at hg hg'
  rcases hg with rfl | rfl <;> rcases hg' with rfl | rfl
  · rfl
  · rw [h1, h3] at h; exact absurd h (by decide)
  · rw [h1, h3] at h; exact absurd h (by decide)
  · rfl

end Kunlun.Dlog
