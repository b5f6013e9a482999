import Verif.Model.ExConv
import Verif.Props.OtExt
import Verif.Props.Prg
/-! The expand-convolute code: every access is inside its vector, and the map commutes with additive maps of the entries. -/

namespace Kunlun.VOLE

open Kunlun Kunlun.AES

theorem genRandomMod_spec (mmod len : Nat) (hm : 0 < mmod) (hm2 : mmod < 2 ^ 32) (hl : len < 2 ^ 32) (seed : PRG.Seed) :
    ∃ r, genRandomMod mmod len seed = some r ∧ r.length = len ∧ ∀ x ∈ r, x < mmod := by
  unfold genRandomMod
  rw [Nat.mod_eq_of_lt hl, Nat.mod_eq_of_lt hm2]
  obtain ⟨bs, s1, h1, h2⟩ : ∃ bs s1, PRG.genRandomBlocks OTE.uninit seed (len / 4 + 1) = some (bs, s1) ∧ bs.length = len / 4 + 1 := by
    rw [PRG.genRandomBlocks_spec _ rfl]
    exact ⟨_, _, rfl, by simp [PRG.stream]⟩
  rw [h1, Option.bind_some]
  have hb : (PRG.bytesOf bs).length = 16 * (len / 4 + 1) := by rw [PRG.bytesOf_length, h2]
  have := OTE.mapM_range_spec (fun i => (load (PRG.bytesOf bs) (4 * i) 4).bind fun w => if mmod = 0 then none else some (ofLE w % mmod))
    (fun i => ofLE (((PRG.bytesOf bs).drop (4 * i)).take 4) % mmod) len (by
      intro i hi
      have : load (PRG.bytesOf bs) (4 * i) 4 = some (((PRG.bytesOf bs).drop (4 * i)).take 4) := by
        unfold load; rw [if_pos (by omega)]
      rw [this, Option.bind_some, if_neg (by omega)])
  refine ⟨_, this, by simp, ?_⟩
  intro x hx
  rw [List.mem_map] at hx
  obtain ⟨i, -, rfl⟩ := hx
  exact Nat.mod_lt _ hm

section
variable {V : Type} (add : V → V → V)

theorem addAt_some (x : List V) (j i : Nat) (hj : j < x.length) (hi : i < x.length) : ∃ y, addAt add x j i = some y ∧ y.length = x.length := by
  unfold addAt
  rw [List.getElem?_eq_getElem hj, List.getElem?_eq_getElem hi]
  exact ⟨_, rfl, by simp⟩

theorem accBits_some (i n j : Nat) (x : List V) (rnd : Bytes) (hi : i < x.length) (hj : j + n ≤ x.length) (hr : n ≤ rnd.length) :
    ∃ y, accBits add i n j x rnd = some (y, rnd.drop n) ∧ y.length = x.length := by
  induction n generalizing j x rnd with
  | zero => exact ⟨x, by simp [accBits], rfl⟩
  | succ n ih =>
    rw [accBits, List.getElem?_eq_getElem (by omega), Option.bind_some]
    have hd : ∀ r : Bytes, (r.drop 1).drop n = r.drop (n + 1) := by intro r; rw [List.drop_drop, Nat.add_comm]
    split
    · obtain ⟨y, h1, h2⟩ := addAt_some add x j i (by omega) hi
      rw [h1, Option.bind_some]
      obtain ⟨z, h3, h4⟩ := ih (j + 1) y (rnd.drop 1) (by omega) (by omega) (by simp; omega)
      exact ⟨z, by rw [h3, hd], by omega⟩
    · obtain ⟨z, h3, h4⟩ := ih (j + 1) x (rnd.drop 1) (by omega) (by omega) (by simp; omega)
      exact ⟨z, by rw [h3, hd], by omega⟩

theorem accMain_some (n i : Nat) (x : List V) (rnd : Bytes) (hi : i + n + 24 ≤ x.length) (hr : 23 * n ≤ rnd.length) :
    ∃ y, accMain add n i x rnd = some (y, rnd.drop (23 * n)) ∧ y.length = x.length := by
  induction n generalizing i x rnd with
  | zero => exact ⟨x, by simp [accMain], rfl⟩
  | succ n ih =>
    rw [accMain]
    obtain ⟨y, h1, h2⟩ := accBits_some add i 23 (i + 1) x rnd (by omega) (by omega) (by omega)
    rw [h1, Option.bind_some]
    obtain ⟨z, h3, h4⟩ := addAt_some add y (i + 24) i (by omega) (by omega)
    rw [h3, Option.bind_some]
    obtain ⟨w, h5, h6⟩ := ih (i + 1) z (rnd.drop 23) (by omega) (by simp; omega)
    refine ⟨w, ?_, by omega⟩
    rw [h5, List.drop_drop]
    congr 3
    omega

theorem accTail_some (size n i : Nat) (x : List V) (rnd : Bytes) (hx : x.length = size) (hi : i + n = size) (h24 : n ≤ 24) (hr : 24 * n ≤ rnd.length) :
    ∃ y r, accTail add size n i x rnd = some (y, r) ∧ y.length = x.length := by
  induction n generalizing i x rnd with
  | zero => exact ⟨x, rnd, by simp [accTail], rfl⟩
  | succ n ih =>
    rw [accTail]
    obtain ⟨y, h1, h2⟩ := accBits_some add i (size - (i + 1)) (i + 1) x rnd (by omega) (by omega) (by omega)
    rw [h1, Option.bind_some]
    obtain ⟨w, r, h5, h6⟩ := ih (i + 1) y (rnd.drop (size - (i + 1))) (by omega) (by omega) (by omega) (by simp; omega)
    exact ⟨w, r, h5, by omega⟩

theorem accWith_some (x : List V) (rnd : Bytes) (h24 : 24 ≤ x.length) (hr : rnd.length = x.length * 24) :
    ∃ y, accWith add x.length (x.length - 24) x rnd = some y ∧ y.length = x.length := by
  unfold accWith
  obtain ⟨y, h1, h2⟩ := accMain_some add (x.length - 24) 0 x rnd (by omega) (by omega)
  rw [h1, Option.bind_some]
  obtain ⟨z, r, h3, h4⟩ := accTail_some add x.length (x.length - (x.length - 24)) (x.length - 24) y (rnd.drop (23 * (x.length - 24))) h2 (by omega)
    (by omega) (by simp; omega)
  exact ⟨z, by rw [h3]; rfl, by omega⟩

theorem foldlM_some {α β : Type} (f : β → α → Option β) (l : List α) (h : ∀ a ∈ l, ∀ b, ∃ c, f b a = some c) (b : β) : ∃ c, l.foldlM f b = some c := by
  induction l generalizing b with
  | nil => exact ⟨b, rfl⟩
  | cons a l ih =>
    obtain ⟨c, hc⟩ := h a (by simp) b
    obtain ⟨d, hd⟩ := ih (fun a ha => h a (by simp [ha])) c
    exact ⟨d, by rw [List.foldlM_cons, hc]; exact hd⟩

theorem expandOne_some (e : List V) (pos : List Nat) (i : Nat) (hl : 21 * i + 21 ≤ pos.length) (hp : ∀ p ∈ pos, p < e.length) :
    ∃ v, expandOne add e pos i = some v := by
  have hg : ∀ j < pos.length, ∃ v, (pos[j]?).bind (fun p => e[p]?) = some v := by
    intro j hj
    rw [List.getElem?_eq_getElem hj, Option.bind_some, List.getElem?_eq_getElem (hp _ (List.getElem_mem hj))]
    exact ⟨_, rfl⟩
  unfold expandOne
  rw [List.getElem?_eq_getElem (by omega), Option.bind_some, List.getElem?_eq_getElem (hp _ (List.getElem_mem _)), Option.bind_some]
  apply foldlM_some
  intro jj hjj v
  rw [List.mem_range] at hjj
  rw [List.getElem?_eq_getElem (by omega), Option.bind_some, List.getElem?_eq_getElem (hp _ (List.getElem_mem _))]
  exact ⟨_, rfl⟩

theorem mapM_exists {α β : Type} (f : α → Option β) (l : List α) (h : ∀ a ∈ l, ∃ b, f a = some b) : ∃ r, l.mapM f = some r ∧ r.length = l.length := by
  induction l with
  | nil => exact ⟨[], rfl, rfl⟩
  | cons a l ih =>
    obtain ⟨b, hb⟩ := h a (by simp)
    obtain ⟨r, hr, hl⟩ := ih (fun a ha => h a (by simp [ha]))
    exact ⟨b :: r, by rw [List.mapM_cons, hb, hr]; rfl, by simp [hl]⟩

/-- The code is defined on every vector of 24 entries or more whose size times 24 fits 32 bits, and halves its length. -/
theorem encodeWith_some (seed : PRG.Seed) (x : List V) (h24 : 24 ≤ x.length) (h32 : x.length * 24 < 2 ^ 32) :
    ∃ y, encodeWith add (x.length - 24) seed x = some y ∧ y.length = x.length / 2 := by
  unfold encodeWith
  obtain ⟨bs, s1, bytes, -, -, -, h4, h5⟩ := PRG.prg_bytes_bits OTE.uninit rfl seed (x.length * 24)
  rw [Nat.mod_eq_of_lt h32, h5, Option.bind_some]
  obtain ⟨d, h6, h7⟩ := accWith_some add x (bytes.map (· &&& 1)) h24 (by simp [h4])
  rw [h6, Option.bind_some]
  obtain ⟨pos, h8, h9, h10⟩ := genRandomMod_spec x.length (x.length / 2 * 21) (by omega) (by omega) (by omega) s1
  rw [h8, Option.bind_some]
  have := mapM_exists (expandOne add d pos) (List.range (x.length / 2)) (by
    intro i hi
    rw [List.mem_range] at hi
    exact expandOne_some add d pos i (by omega) (by rw [h7]; exact h10))
  simpa using this

end

theorem mapM_option_map {α β γ : Type} (g : α → Option β) (h : β → γ) (l : List α) : l.mapM (fun a => (g a).map h) = (l.mapM g).map (List.map h) := by
  induction l with
  | nil => rfl
  | cons a l ih =>
    rw [List.mapM_cons, List.mapM_cons, ih]
    cases g a with
    | none => rfl
    | some b => cases l.mapM g <;> rfl

/-! ### Additive maps -/

section
variable {V W : Type} (add : V → V → V) (add' : W → W → W) (f : V → W) (hf : ∀ a b, f (add a b) = add' (f a) (f b))
include hf

theorem addAt_map (x : List V) (j i : Nat) : addAt add' (x.map f) j i = (addAt add x j i).map (List.map f) := by
  unfold addAt
  rw [List.getElem?_map, List.getElem?_map]
  cases x[j]? with
  | none => rfl
  | some a =>
    cases x[i]? with
    | none => rfl
    | some b => simp [List.map_set, hf]

theorem accBits_map (i n j : Nat) (x : List V) (rnd : Bytes) :
    accBits add' i n j (x.map f) rnd = (accBits add i n j x rnd).map fun s => (s.1.map f, s.2) := by
  induction n generalizing j x rnd with
  | zero => rfl
  | succ n ih =>
    rw [accBits, accBits]
    cases rnd[0]? with
    | none => rfl
    | some b =>
      simp only [Option.bind_some]
      split
      · rw [addAt_map add add' f hf]
        cases addAt add x j i with
        | none => rfl
        | some y => simp only [Option.map_some, Option.bind_some, ih]
      · rw [ih]

theorem accMain_map (n i : Nat) (x : List V) (rnd : Bytes) :
    accMain add' n i (x.map f) rnd = (accMain add n i x rnd).map fun s => (s.1.map f, s.2) := by
  induction n generalizing i x rnd with
  | zero => rfl
  | succ n ih =>
    rw [accMain, accMain, accBits_map add add' f hf]
    cases accBits add i 23 (i + 1) x rnd with
    | none => rfl
    | some s =>
      simp only [Option.map_some, Option.bind_some]
      rw [addAt_map add add' f hf]
      cases addAt add s.1 (i + 24) i with
      | none => rfl
      | some y => simp only [Option.map_some, Option.bind_some, ih]

theorem accTail_map (size n i : Nat) (x : List V) (rnd : Bytes) :
    accTail add' size n i (x.map f) rnd = (accTail add size n i x rnd).map fun s => (s.1.map f, s.2) := by
  induction n generalizing i x rnd with
  | zero => rfl
  | succ n ih =>
    rw [accTail, accTail, accBits_map add add' f hf]
    cases accBits add i (size - (i + 1)) (i + 1) x rnd with
    | none => rfl
    | some s => simp only [Option.map_some, Option.bind_some, ih]

theorem accWith_map (size main : Nat) (x : List V) (rnd : Bytes) :
    accWith add' size main (x.map f) rnd = (accWith add size main x rnd).map (List.map f) := by
  unfold accWith
  rw [accMain_map add add' f hf]
  cases accMain add main 0 x rnd with
  | none => rfl
  | some s =>
    simp only [Option.map_some, Option.bind_some]
    rw [accTail_map add add' f hf]
    cases accTail add size (size - main) main s.1 s.2 <;> rfl

theorem expandOne_map (e : List V) (pos : List Nat) (i : Nat) : expandOne add' (e.map f) pos i = (expandOne add e pos i).map f := by
  unfold expandOne
  have hfold : ∀ (l : List Nat) (v : V),
      l.foldlM (fun w jj => (pos[21 * i + 1 + jj]?).bind fun p => ((e.map f)[p]?).map fun y => add' w y) (f v) =
        (l.foldlM (fun w jj => (pos[21 * i + 1 + jj]?).bind fun p => (e[p]?).map fun y => add w y) v).map f := by
    intro l
    induction l with
    | nil => intro v; rfl
    | cons a l ih =>
      intro v
      rw [List.foldlM_cons, List.foldlM_cons]
      cases h : pos[21 * i + 1 + a]? with
      | none => rfl
      | some p =>
        simp only [Option.bind_some, List.getElem?_map]
        cases e[p]? with
        | none => rfl
        | some y =>
          simp only [Option.map_some, Option.bind_eq_bind, Option.bind_some]
          rw [← hf]
          simpa only [List.getElem?_map] using ih (add v y)
  cases pos[21 * i]? with
  | none => rfl
  | some p =>
    simp only [Option.bind_some, List.getElem?_map]
    cases e[p]? with
    | none => rfl
    | some v => simpa only [Option.map_some, Option.bind_some, List.getElem?_map] using hfold (List.range 20) v

/-- The code commutes with every additive map of the entries. -/
theorem encodeWith_map (main : Nat) (seed : PRG.Seed) (x : List V) :
    encodeWith add' main seed (x.map f) = (encodeWith add main seed x).map (List.map f) := by
  unfold encodeWith
  rw [List.length_map]
  cases PRG.genRandomBits OTE.uninit seed (x.length * 24 % 2 ^ 32) with
  | none => rfl
  | some r =>
    simp only [Option.bind_some]
    rw [accWith_map add add' f hf]
    cases accWith add x.length main x r.1 with
    | none => rfl
    | some d =>
      simp only [Option.map_some, Option.bind_some]
      cases genRandomMod x.length (x.length / 2 * 21) r.2 with
      | none => rfl
      | some pos =>
        simp only [Option.bind_some]
        rw [← mapM_option_map]
        congr 1
        funext i
        exact expandOne_map add add' f hf d pos i

end

end Kunlun.VOLE
