import Verif.Props.CwPrf
import Verif.Model.BloomOrder
import Mathlib.Logic.Equiv.Fintype
import Mathlib.Data.Fintype.Perm
import Mathlib.Data.Fintype.EquivFin
import Mathlib.Data.List.NodupEquivFin
/-!
Property C109: what the server of the cwPRF membership test sees besides its bits.

The server gets the masked items of the client, in order, and its own items doubly masked, either in a Bloom filter (which does not depend on the
order) or shuffled. The client's function enters its messages only through `f x = F_k2(H(x))`. For a random function `f` the view says nothing
more than the bits: a client with other items and the same bits has the same view, after a renaming of `f` and of the shuffle.
-/

namespace Kunlun.CwPRF.Rpmt

open Kunlun Proto

variable {G P : Type} [AddCommGroup G]

/-- A shuffle of a list of `n` elements: a permutation of the positions. -/
def reorder {n : Nat} (σ : Equiv.Perm (Fin n)) (l : List P) : List P :=
  if h : l.length = n then List.ofFn fun i => l[(σ i).val]'(by have := (σ i).isLt; omega) else l

/-- The server without Bloom filter (`serverShuffle`) that ends with what it received. -/
def viewShuffle (net : Net G) (pt : Pts G P) (H : Block → P) (F : P → P) (pp : PP) (Y : List Block) : Proc (List P × List P) :=
  if pp.serverLen ≠ Y.length then .fail else
  sendPts net pt (Y.map fun y => F (H y)) <| recvPts net pt pp.clientLen fun F2X =>
  recvPts net pt pp.serverLen fun S => .done (F2X, S)

/-- The server with Bloom filter (`server`) that ends with what it received. -/
def view (net : Net G) (pt : Pts G P) (H : Block → P) (F : P → P) (pp : PP) (Y : List Block) : Proc (List P × Bytes) :=
  if pp.serverLen ≠ Y.length then .fail else
  sendPts net pt (Y.map fun y => F (H y)) <| recvPts net pt pp.clientLen fun F2X =>
  recvInt net 8 fun size => recvBytes net size fun buf => .done (F2X, buf)

theorem ofProg_bind {α β γ : Type} (p : Chan.Prog γ) (k : γ → Proc α) (h : α → Proc β) :
    (Proc.ofProg p k).bind h = Proc.ofProg p fun c => (k c).bind h := by
  induction p with
  | done v => rfl
  | recv n f ih => exact congrArg (Proc.recv n) (funext ih)

theorem sendChunks_bind {α β : Type} (bs : List Bytes) (k : Proc α) (h : α → Proc β) : (Proc.sendChunks k bs).bind h = Proc.sendChunks (k.bind h) bs := by
  induction bs with
  | nil => rfl
  | cons b bs ih => exact congrArg (Proc.send b) ih

theorem sendM_bind {α β : Type} (net : Net G) (m : Chan.Msg G) (k : Proc α) (h : α → Proc β) : (sendM net m k).bind h = sendM net m (k.bind h) := by
  unfold sendM
  cases Chan.sendMsg net.C net.g m with
  | none => rfl
  | some bs => exact sendChunks_bind _ _ _

theorem recvM_bind {α β : Type} (net : Net G) (sh : Chan.Shape) (k : Chan.Msg G → Proc α) (h : α → Proc β) :
    (recvM net sh k).bind h = recvM net sh fun m => (k m).bind h := ofProg_bind _ _ _

/-- The bits are computed from the view. -/
theorem server_from_view (net : Net G) (b : BloomEnv) (pt : Pts G P) (H : Block → P) (F : P → P) (pp : PP) (Y : List Block) :
    server net b pt H F pp Y = (view net pt H F pp Y).bind fun v => Proc.ofOption (indicationBits b pt v.2 (v.1.map F)) := by
  unfold server view
  split
  · rfl
  · unfold sendPts recvPts recvInt recvBytes
    simp only [sendM_bind, recvM_bind]
    congr 2
    funext m
    cases pt.back m with
    | none => rfl
    | some ps =>
      simp only [recvM_bind]
      congr 1
      funext m
      cases m <;> rfl

theorem serverShuffle_from_view [DecidableEq P] (net : Net G) (pt : Pts G P) (H : Block → P) (F : P → P) (pp : PP) (Y : List Block) :
    serverShuffle net pt H F pp Y = (viewShuffle net pt H F pp Y).bind fun v => .done ((v.1.map F).map fun p => if p ∈ v.2 then 1 else 0) := by
  unfold serverShuffle viewShuffle
  split
  · rfl
  · unfold sendPts recvPts
    simp only [sendM_bind, recvM_bind]
    congr 2
    funext m
    cases pt.back m with
    | none => rfl
    | some ps =>
      simp only [recvM_bind]
      refine congrArg (recvM net _) (funext fun m => ?_)
      cases pt.back m <;> rfl

theorem reorder_perm {n : Nat} (σ : Equiv.Perm (Fin n)) (l : List P) : (reorder σ l).Perm l := by
  unfold reorder
  split
  · rename_i h
    subst h
    refine (Equiv.Perm.ofFn_comp_perm σ fun i => l[i.val]).trans (List.Perm.of_eq ?_)
    exact List.ofFn_getElem
  · exact .rfl

/-- **C109** What the server receives depends on the client's key only through `f x = F_k2(H(x))`: the values `f x` in the order of the
client's items, and the values `F_k1(f y)` of its own items, shuffled. -/
theorem rpmt_view_shuffle (net : Net G) (hn : net.Ok) (pt : Pts G P) (good : P → Prop) (hp : pt.Ok net good) (H : Block → P)
    (F1 F2 : P → P) (pp : PP) (X Y : List Block) (σ : Equiv.Perm (Fin Y.length)) (hX : X.length = pp.clientLen)
    (hY : Y.length = pp.serverLen) (h1 : ∀ y ∈ Y, good (F1 (H y))) (h2 : ∀ x ∈ X, good (F2 (H x))) (h3 : ∀ y ∈ Y, good (F2 (F1 (H y))))
    (hc : ∀ y ∈ Y, F2 (F1 (H y)) = F1 (F2 (H y))) :
    Runs (clientShuffle net pt H F2 (reorder σ) pp X) (viewShuffle net pt H F1 pp Y) ()
      (X.map (fun x => F2 (H x)), reorder σ (Y.map fun y => F1 (F2 (H y)))) := by
  unfold clientShuffle viewShuffle
  rw [if_neg (by simp [hX]), if_neg (by simp [hY])]
  have e : (Y.map fun y => F1 (H y)).map F2 = Y.map fun y => F1 (F2 (H y)) := by
    rw [List.map_map]
    exact List.map_congr_left hc
  refine Runs.ptsRL net hn hp (by simp [hY]) ?_ (Runs.ptsLR net hn hp (by simp [hX]) ?_ (Runs.ptsLR net hn hp ?_ ?_ ?_))
  · intro p hp
    obtain ⟨y, hy, rfl⟩ := List.mem_map.1 hp
    exact h1 y hy
  · intro p hp
    obtain ⟨x, hx, rfl⟩ := List.mem_map.1 hp
    exact h2 x hx
  · rw [(reorder_perm _ _).length_eq]; simp [hY]
  · intro p hp
    rw [(reorder_perm _ _).mem_iff, List.map_map] at hp
    obtain ⟨y, hy, rfl⟩ := List.mem_map.1 hp
    exact h3 y hy
  · rw [e]
    exact .done _ _

/-- **C109** The same with the Bloom filter, which is made of the values `F_k1(f y)`. -/
theorem rpmt_view (net : Net G) (hn : net.Ok) (b : BloomEnv) (pt : Pts G P) (good : P → Prop) (hp : pt.Ok net good) (H : Block → P) (F1 F2 : P → P)
    (pp : PP) (X Y : List Block) (hX : X.length = pp.clientLen) (hY : Y.length = pp.serverLen)
    (h1 : ∀ y ∈ Y, good (F1 (H y))) (h2 : ∀ x ∈ X, good (F2 (H x))) (hst : pp.stat < 2 ^ 32) (hlen : Y.length < 2 ^ 64)
    (f0 : Bloom.Filter) (hnew : Bloom.new b.rnd Y.length pp.stat (b.raw Y.length pp.stat) = some f0)
    (hraw : 0 < (b.raw Y.length pp.stat).toNat ∧ (b.raw Y.length pp.stat).toNat ≤ 2 ^ 32 - 8) (hc : ∀ y ∈ Y, F2 (F1 (H y)) = F1 (F2 (H y))) :
    ∃ size buf, filterBytes b pt net.g pp.stat (Y.map fun y => F1 (F2 (H y))) = some (size, buf) ∧
      Runs (client net b pt H F2 pp X) (view net pt H F1 pp Y) () (X.map (fun x => F2 (H x)), buf) := by
  have e : (Y.map fun y => F1 (H y)).map F2 = Y.map fun y => F1 (F2 (H y)) := by
    rw [List.map_map]
    exact List.map_congr_left hc
  obtain ⟨size, buf, e1, e2, e3, -⟩ := filter_spec b pt net.g hn.g pp.stat hst ((Y.map fun y => F1 (H y)).map F2) (by simpa using hlen) f0
    (by simpa using hnew) (by simpa using hraw)
  refine ⟨size, buf, by rw [← e, e1], ?_⟩
  unfold client view
  rw [if_neg (by simp [hX]), if_neg (by simp [hY])]
  refine Runs.ptsRL net hn hp (by simp [hY]) ?_ (Runs.ptsLR net hn hp (by simp [hX]) ?_ ?_)
  · intro p hp
    obtain ⟨y, hy, rfl⟩ := List.mem_map.1 hp
    exact h1 y hy
  · intro p hp
    obtain ⟨x, hx, rfl⟩ := List.mem_map.1 hp
    exact h2 x hx
  · rw [e1]
    exact .intLR net hn e2 (.bytesLR net hn e3 (.done _ _))

instance : Finite Block := Finite.of_injective (fun b : Block => (⟨b.toNat, b.isLt⟩ : Fin (2 ^ 128)))
  fun a b h => BitVec.eq_of_toNat_eq (Fin.mk.inj h)

/-- Two lists of items with the same membership bits are renamings of each other, by a renaming that keeps the server's set. -/
theorem exists_rename (X X' Y : List Block) (hl : X'.length = X.length) (hX : X.Nodup) (hX' : X'.Nodup)
    (hp : ∀ (i : Nat) (x x' : Block), X[i]? = some x → X'[i]? = some x' → (x ∈ Y ↔ x' ∈ Y)) :
    ∃ π : Equiv.Perm Block, X.map π = X' ∧ ∀ y, π y ∈ Y ↔ y ∈ Y := by
  classical
  have hp' : ∀ i : Fin X.length, X[i] ∈ Y ↔ X'[i] ∈ Y := fun i =>
    hp i _ _ (List.getElem?_eq_getElem i.isLt) (List.getElem?_eq_getElem (by omega))
  have inj : ∀ i j : Fin X.length, X[i] = X[j] → i = j := fun i j h => Fin.ext ((hX.getElem_inj_iff).1 h)
  have inj' : ∀ i j : Fin X.length, X'[i] = X'[j] → i = j := fun i j h => Fin.ext ((hX'.getElem_inj_iff).1 h)
  have : Finite {y // y ∈ Y} := inferInstance
  have : Finite {y // y ∉ Y} := inferInstance
  obtain ⟨a, ha⟩ := Equiv.Perm.exists_extending_pair (α := {i : Fin X.length // X[i] ∈ Y}) (β := {y // y ∈ Y})
    (fun i => ⟨X[i.val], i.2⟩) (fun i => ⟨X'[i.val], (hp' i.1).1 i.2⟩)
    (fun i j h => Subtype.ext (inj _ _ (Subtype.mk.inj h))) (fun i j h => Subtype.ext (inj' _ _ (Subtype.mk.inj h)))
  obtain ⟨c, hc⟩ := Equiv.Perm.exists_extending_pair (α := {i : Fin X.length // X[i] ∉ Y}) (β := {y // y ∉ Y})
    (fun i => ⟨X[i.val], i.2⟩) (fun i => ⟨X'[i.val], fun h => i.2 ((hp' i.1).2 h)⟩)
    (fun i j h => Subtype.ext (inj _ _ (Subtype.mk.inj h))) (fun i j h => Subtype.ext (inj' _ _ (Subtype.mk.inj h)))
  refine ⟨Equiv.Perm.subtypeCongr a c, ?_, fun y => ?_⟩
  · apply List.ext_getElem (by simp [hl])
    intro i h1 h2
    rw [List.length_map] at h1
    rw [List.getElem_map]
    by_cases h : X[i] ∈ Y
    · rw [Equiv.Perm.subtypeCongr.left_apply _ _ h]
      exact congrArg Subtype.val (ha ⟨⟨i, h1⟩, h⟩)
    · rw [Equiv.Perm.subtypeCongr.right_apply _ _ h]
      exact congrArg Subtype.val (hc ⟨⟨i, h1⟩, h⟩)
  · by_cases h : y ∈ Y
    · rw [Equiv.Perm.subtypeCongr.left_apply _ _ h]
      exact ⟨fun _ => h, fun _ => (a ⟨y, h⟩).2⟩
    · rw [Equiv.Perm.subtypeCongr.right_apply _ _ h]
      exact ⟨fun h' => absurd h' (c ⟨y, h⟩).2, fun h' => absurd h' h⟩

theorem filterBytes_perm (b : BloomEnv) (pt : Pts G P) (g : Nat → Bytes) (stat : Nat) {ps qs : List P} (h : ps.Perm qs) :
    filterBytes b pt g stat ps = filterBytes b pt g stat qs := by
  unfold filterBytes
  rw [h.length_eq]
  congr 1
  funext f
  rw [Bloom.insertAll_perm _ _ (h.map pt.key)]

/-- **C109** Let the client have items `X` or other items `X'` with the same membership bits. There is a renaming `π` of items and a renaming `τ`
of shuffles such that a client with items `X'`, function `f ∘ π⁻¹` and shuffle `τ ∘ σ` shows the server the same messages as a client with items `X`,
function `f` and shuffle `σ`, whatever `f`, the server's key and `σ` are; with the Bloom filter no shuffle is needed. Renaming a uniformly
distributed function (injective or not) and a uniformly distributed shuffle gives such ones again. -/
theorem rpmt_view_hides (X X' Y : List Block) (hl : X'.length = X.length) (hX : X.Nodup) (hX' : X'.Nodup) (hY : Y.Nodup)
    (hp : ∀ (i : Nat) (x x' : Block), X[i]? = some x → X'[i]? = some x' → (x ∈ Y ↔ x' ∈ Y)) :
    ∃ (π : Equiv.Perm Block) (τ : Equiv.Perm (Fin Y.length)), ∀ (f : Block → P) (F1 : P → P),
      (∀ σ : Equiv.Perm (Fin Y.length), (X'.map (f ∘ π.symm), reorder (τ * σ) (Y.map fun y => F1 ((f ∘ π.symm) y))) =
        (X.map f, reorder σ (Y.map fun y => F1 (f y)))) ∧
      (∀ (b : BloomEnv) (pt : Pts G P) (g : Nat → Bytes) (stat : Nat), (X'.map (f ∘ π.symm), filterBytes b pt g stat (Y.map fun y => F1 ((f ∘ π.symm) y))) =
        (X.map f, filterBytes b pt g stat (Y.map fun y => F1 (f y)))) := by
  classical
  obtain ⟨π, h1, h2⟩ := exists_rename X X' Y hl hX hX' hp
  have hπ : ∀ y, y ∈ Y ↔ π y ∈ Y := fun y => (h2 y).symm
  set e := hY.getEquiv Y with he
  refine ⟨π, e.trans ((π.subtypePerm h2).trans e.symm), fun f F1 => ?_⟩
  have hX1 : X'.map (f ∘ π.symm) = X.map f := by
    rw [← h1, List.map_map]
    apply List.map_congr_left
    intro x _
    simp
  have hτ : ∀ i : Fin Y.length, Y[(e.trans ((π.subtypePerm h2).trans e.symm)) i] = π Y[i] := by
    intro i
    have : (e ((e.trans ((π.subtypePerm h2).trans e.symm)) i) : Block) = π (e i) := by simp
    exact this
  constructor
  · intro σ
    rw [hX1]
    congr 1
    unfold reorder
    simp only [List.length_map, dite_true]
    congr 1
    funext i
    have := hτ (σ i)
    simp only [List.getElem_map, Equiv.Perm.coe_mul, Function.comp_apply]
    simp only [Fin.getElem_fin] at this
    rw [this, Equiv.symm_apply_apply]
  · intro b pt g stat
    rw [hX1]
    congr 1
    apply filterBytes_perm
    have hperm : (Y.map π.symm).Perm Y := by
      rw [List.perm_ext_iff_of_nodup (hY.map π.symm.injective) hY]
      intro y
      rw [List.mem_map]
      constructor
      · rintro ⟨z, hz, rfl⟩
        rw [hπ, Equiv.apply_symm_apply]
        exact hz
      · intro hy
        exact ⟨π y, (hπ y).1 hy, by simp⟩
    have := hperm.map fun y => F1 (f y)
    rwa [List.map_map] at this

/-- **C109 (violation)** Shuffles: `global_built_in_prg` (include/global.hpp:16) is seeded with one 32-bit number, so at any call of `std::shuffle` at
most `2^32` shuffles are possible; from 13 items on some cannot occur. -/
theorem rpmt_shuffles_missing (n : Nat) (hn : 13 ≤ n) (shuffleOf : BitVec 32 → Equiv.Perm (Fin n)) : ∃ σ, ∀ seed, shuffleOf seed ≠ σ := by
  by_contra h
  push Not at h
  have hs : Function.Surjective fun i : Fin (2 ^ 32) => shuffleOf (BitVec.ofFin i) := fun σ => by
    obtain ⟨s, hs⟩ := h σ
    exact ⟨s.toFin, hs⟩
  have := Fintype.card_le_of_surjective _ hs
  rw [Fintype.card_perm, Fintype.card_fin, Fintype.card_fin] at this
  have h13 : Nat.factorial 13 ≤ Nat.factorial n := Nat.factorial_le hn
  have : Nat.factorial 13 ≤ 2 ^ 32 := h13.trans this
  exact absurd this (by decide)

/-- **C109 (violation)** The default build: the client's key is the public constant, so the server tests any item `z` against the messages of an ordinary
run; items of the client always test positive, and the test is exact when multiplication by the key separates the hashed items. -/
theorem rpmt_25519_guess (net : Net G) (hn : net.Ok) (b : BloomEnv) (mul : Bytes → Bytes → Bytes) (hmul : ∀ k p, (mul k p).length = 32)
    (pp : PP) (hst : pp.stat ≤ 128) (X Y : List Block) (hX : X.length = pp.clientLen) (hY : Y.length = pp.serverLen) (hlen : Y.length < 2 ^ 64)
    (hraw : 0 < (b.raw Y.length pp.stat).toNat ∧ (b.raw Y.length pp.stat).toNat ≤ 2 ^ 32 - 8) :
    ∃ k F2X buf, fixedKey = some k ∧
      Runs (client25519 net b mul pp X) (view net x25519Pts hash (mul k) pp Y) () (F2X, buf) ∧ (∀ z ∈ X, mul k (hash z) ∈ F2X) ∧
      ((∀ a b : Block, mul k (hash a) = mul k (hash b) → hash a = hash b) → ∀ z, mul k (hash z) ∈ F2X ↔ z ∈ X) := by
  obtain ⟨k, hk, -⟩ := fixedKey_spec
  obtain ⟨f0, hf⟩ := Option.isSome_iff_exists.1 (Bloom.new_isSome b.rnd Y.length pp.stat (b.raw Y.length pp.stat) hst)
  obtain ⟨size, buf, -, h⟩ := rpmt_view net hn b x25519Pts _ (x25519Pts_ok net) hash (mul k) (mul k) pp X Y hX hY (fun _ _ => hmul _ _)
    (fun _ _ => hmul _ _) (by omega) hlen f0 hf hraw (fun _ _ => rfl)
  refine ⟨k, _, buf, hk, ?_, fun z hz => List.mem_map.2 ⟨z, hz, rfl⟩, fun hi z => ⟨fun h => ?_, fun h => List.mem_map.2 ⟨z, h, rfl⟩⟩⟩
  · unfold client25519
    rw [if_neg (by simp [hX]), hk]
    exact h
  · obtain ⟨x, hx, e⟩ := List.mem_map.1 h
    rw [← hash_inj (hi x z e)]
    exact hx

/-- Items 1, 2 and items 1, 3 against a server with 2, 3: the bits are the same. -/
example : ∃ (π : Equiv.Perm Block) (τ : Equiv.Perm (Fin 2)), ∀ (f : Block → Bytes) (F1 : Bytes → Bytes) (σ : Equiv.Perm (Fin 2)),
    ([1, 3].map (f ∘ π.symm), reorder (τ * σ) ([2, 3].map fun y => F1 ((f ∘ π.symm) y))) = ([1, 2].map f, reorder σ ([2, 3].map fun y => F1 (f y))) := by
  obtain ⟨π, τ, h⟩ := rpmt_view_hides (G := ZMod 7) (P := Bytes) [1, 2] [1, 3] [2, 3] rfl (by decide) (by decide) (by decide) (by
    intro i x x' h h'
    match i with
    | 0 => cases h; cases h'; rfl
    | 1 => cases h; cases h'; decide
    | n + 2 => cases h)
  exact ⟨π, τ, fun f F1 σ => (h f F1).1 σ⟩

/-- The run of the default build with two items each. -/
example : ∃ k F2X buf, fixedKey = some k ∧
    Runs (client25519 toyNet toyBloom toyMul (Rpmt.setup 40 1 1) [1, 2]) (view toyNet x25519Pts hash (toyMul k) (Rpmt.setup 40 1 1) [2, 3]) () (F2X, buf) := by
  obtain ⟨k, F2X, buf, h1, h2, -⟩ := rpmt_25519_guess toyNet toyNet_ok toyBloom toyMul toyMul_length (Rpmt.setup 40 1 1) (by decide) [1, 2] [2, 3] rfl rfl
    (by decide) (by decide)
  exact ⟨k, F2X, buf, h1, h2⟩

end Kunlun.CwPRF.Rpmt
