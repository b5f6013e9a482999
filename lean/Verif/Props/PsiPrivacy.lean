import Verif.Props.RpmtPrivacy
/-!
Property C112: what the parties of the cwPRF set intersection (`mpc/psi/cwprf_psi.hpp`) see besides the result.

The sender's key enters its messages only through `f y = F_k1(H(y))`: the receiver gets the values `f y` in the order of the sender's items, and the
truncated values `F_k2(f x)` of its own items.  Nothing is shuffled, so the receiver also sees where in the sender's list a common item stands.
-/

namespace Kunlun.CwPRF.PSI

open Kunlun Proto Kunlun.CwPRF.Rpmt

variable {G : Type} [AddCommGroup G]

/-- The receiver (`receiveWith`) that ends with what it received. -/
def viewReceive (net : Net G) (mul : Bytes → Bytes → Bytes) (k2 : Bytes) (pp : PP) (X : List Block) : Proc (List Bytes × List Bytes) :=
  match hashAll X with
  | none => .fail
  | some HX =>
    recvX25519 net pp.senderNum fun F1Y => sendX25519 net (HX.map (mul k2)) <|
    recvStringVector net pp.truncateLen fun TX => .done (F1Y, TX)

/-- The sender (`sendWith`) that ends with what it received. -/
def viewSend (net : Net G) (mul : Bytes → Bytes → Bytes) (k1 : Bytes) (pp : PP) (Y : List Block) : Proc (List Bytes) :=
  match hashAll Y with
  | none => .fail
  | some HY =>
    sendX25519 net (HY.map (mul k1)) <| recvX25519 net pp.receiverNum fun F2X =>
    match (F2X.map (mul k1)).mapM (truncate pp.truncateLen) with
    | none => .fail
    | some T => sendStringVector net pp.truncateLen T <| .done F2X

/-- What the receiver computes from what it received: for every one of its items the positions in the sender's list that match it. -/
def positions (mul : Bytes → Bytes → Bytes) (k2 : Bytes) (len : Nat) (v : List Bytes × List Bytes) : List (List Nat) :=
  v.2.map fun t => (List.range v.1.length).filter fun i => (v.1[i]?.map fun p => (mul k2 p).take len) = some t

/-- The receiver's result is computed from its view. -/
theorem receive_from_view (net : Net G) (mul : Bytes → Bytes → Bytes) (k2 : Bytes) (pp : PP) (X : List Block) :
    receiveWith net mul k2 pp X = (viewReceive net mul k2 pp X).bind fun v =>
      match (v.1.map (mul k2)).mapM (truncate pp.truncateLen) with
      | none => .fail
      | some S => Proc.ofOption (((List.range pp.receiverNum).mapM fun i =>
          v.2[i]?.bind fun t => if t ∈ S then X[i]?.map some else some none).map fun l => l.filterMap id) := by
  unfold receiveWith viewReceive recvX25519 sendX25519 recvStringVector
  simp only [hashAll_spec, recvM_bind]
  congr 1
  funext m
  cases m with
  | x25519 ps =>
    simp only [sendM_bind, recvM_bind]
    congr 2
    funext m
    cases m <;> rfl
  | _ => rfl

/-- The sender's actions do not depend on the ending. -/
theorem send_from_view (net : Net G) (mul : Bytes → Bytes → Bytes) (k1 : Bytes) (pp : PP) (Y : List Block) :
    sendWith net mul k1 pp Y = (viewSend net mul k1 pp Y).bind fun _ => .done () := by
  unfold sendWith viewSend recvX25519 sendX25519 sendStringVector
  simp only [hashAll_spec, sendM_bind, recvM_bind]
  congr 2
  funext m
  cases m with
  | x25519 ps =>
    simp only
    cases (ps.map (mul k1)).mapM (truncate pp.truncateLen) with
    | none => rfl
    | some T =>
      simp only [sendM_bind]
      rfl
  | _ => rfl

/-- **C112** The messages of a run: the sender sees `F_k2(H(x))` in the order of the receiver's items; the receiver sees `F_k1(H(y))` in the order of the
sender's items, and the truncated `F_k1(F_k2(H(x)))` in the order of its own. -/
theorem psi_views (net : Net G) (hn : net.Ok) (mul : Bytes → Bytes → Bytes) (hmul : ∀ k p, (mul k p).length = 32) (k1 k2 : Bytes)
    (pp : PP) (ht : pp.truncateLen ≤ 32) (Y X : List Block) (hY : Y.length = pp.senderNum) (hX : X.length = pp.receiverNum)
    (hs : X.length * 32 < 2 ^ 64) :
    Runs (viewSend net mul k1 pp Y) (viewReceive net mul k2 pp X) (X.map fun x => mul k2 (hash x))
      (Y.map fun y => mul k1 (hash y), X.map fun x => (mul k1 (mul k2 (hash x))).take pp.truncateLen) := by
  unfold viewSend viewReceive
  simp only [hashAll_spec]
  have h32 : ∀ (k : Bytes) (l : List Bytes), ∀ p ∈ l.map (mul k), p.length = 32 := by
    intro k l p hp
    rw [List.mem_map] at hp
    obtain ⟨q, -, rfl⟩ := hp
    exact hmul _ _
  refine .x25519LR net hn (by simp [hY]) (h32 _ _) ?_
  refine .x25519RL net hn (by simp [hX]) (h32 _ _) ?_
  rw [truncate_all ht _ (h32 _ _)]
  have hst : ∀ v ∈ List.map (List.take pp.truncateLen) (List.map (mul k1) (List.map (mul k2) (X.map fun x => (Hash.blockToBytes x).getD []))),
      v.length = pp.truncateLen := by
    intro v hv
    rw [List.mem_map] at hv
    obtain ⟨p, hp, rfl⟩ := hv
    rw [List.length_take, h32 _ _ p hp]
    omega
  refine .stringVectorLR net hn ⟨hst, ?_, ?_⟩ ?_
  · simp; omega
  · simp only [List.length_map]
    calc X.length * pp.truncateLen ≤ X.length * 32 := Nat.mul_le_mul_left _ ht
      _ < _ := hs
  · simp only [List.map_map]
    exact .done _ _

/-- **C112 (violation)** From what it receives the receiver computes, for every item of its own, at which positions of the sender's list it stands, if
the truncated images do not collide. -/
theorem psi_reveals_positions (mul : Bytes → Bytes → Bytes) (k1 k2 : Bytes) (len : Nat) (X Y : List Block)
    (hc : ∀ y ∈ Y, mul k1 (mul k2 (hash y)) = mul k2 (mul k1 (hash y))) (hn : NoCollision (tag mul k1 k2 len) X Y) :
    positions mul k2 len (Y.map fun y => mul k1 (hash y), X.map fun x => (mul k1 (mul k2 (hash x))).take len) =
      X.map fun x => (List.range Y.length).filter fun i => Y[i]? = some x := by
  unfold positions
  simp only [List.map_map, List.length_map]
  apply List.map_congr_left
  intro x hx
  simp only [Function.comp_apply]
  apply List.filter_congr
  intro i hi
  rw [List.mem_range] at hi
  rw [decide_eq_decide, List.getElem?_map, List.getElem?_eq_getElem hi]
  simp only [Option.map_some, Option.some.injEq]
  have hy : Y[i] ∈ Y := List.getElem_mem hi
  rw [← hc _ hy]
  constructor
  · intro h
    exact (hn x hx _ hy h.symm).symm
  · intro h
    rw [h]

/-- **C112 (violation)** So the receiver tells two lists of the sender apart that have the same items, if a common item stands at another place. -/
theorem psi_tells_order (mul : Bytes → Bytes → Bytes) (k1 k2 k1' : Bytes) (len : Nat) (X Y Y' : List Block)
    (hc : ∀ y ∈ Y, mul k1 (mul k2 (hash y)) = mul k2 (mul k1 (hash y))) (hn : NoCollision (tag mul k1 k2 len) X Y)
    (hc' : ∀ y ∈ Y', mul k1' (mul k2 (hash y)) = mul k2 (mul k1' (hash y))) (hn' : NoCollision (tag mul k1' k2 len) X Y')
    (x : Block) (hx : x ∈ X) (i : Nat) (hi : Y[i]? = some x) (hi' : Y'[i]? ≠ some x) :
    (Y.map fun y => mul k1 (hash y), X.map fun x => (mul k1 (mul k2 (hash x))).take len) ≠
      (Y'.map fun y => mul k1' (hash y), X.map fun x => (mul k1' (mul k2 (hash x))).take len) := by
  intro h
  have h1 := psi_reveals_positions mul k1 k2 len X Y hc hn
  rw [h, psi_reveals_positions mul k1' k2 len X Y' hc' hn'] at h1
  have h2 := List.map_inj_left.1 h1 x hx
  have hm : i ∈ (List.range Y.length).filter fun i => Y[i]? = some x := by
    rw [List.mem_filter, List.mem_range, decide_eq_true_eq]
    exact ⟨(List.getElem?_eq_some_iff.1 hi).1, hi⟩
  rw [← h2, List.mem_filter, decide_eq_true_eq] at hm
  exact hi' hm.2

/-- A renaming that moves one list to another and leaves the items of `X` where they are. -/
theorem exists_rename_fix (X Y Y' : List Block) (hl : Y'.length = Y.length) (hY : Y.Nodup) (hY' : Y'.Nodup)
    (hp : ∀ (i : Nat) (x : Block), x ∈ X → (Y[i]? = some x ↔ Y'[i]? = some x)) :
    ∃ π : Equiv.Perm Block, Y.map π = Y' ∧ ∀ x ∈ X, π x = x := by
  classical
  have inj : ∀ i j : Fin Y.length, Y[i] = Y[j] → i = j := fun i j h => Fin.ext ((hY.getElem_inj_iff).1 h)
  have inj' : ∀ i j : Fin Y.length, Y'[i] = Y'[j] → i = j := fun i j h => Fin.ext ((hY'.getElem_inj_iff).1 h)
  have same : ∀ i : Fin Y.length, Y[i] ∈ X ∨ Y'[i] ∈ X → Y[i] = Y'[i] := by
    intro i h
    have e : Y[i.val]? = some Y[i] := List.getElem?_eq_getElem i.isLt
    have e' : Y'[i.val]? = some Y'[i] := List.getElem?_eq_getElem (by omega)
    rcases h with h | h
    · exact (Option.some.inj (e'.symm.trans ((hp i _ h).1 e))).symm
    · exact Option.some.inj (e.symm.trans ((hp i _ h).2 e'))
  have : Finite {y // y ∉ X} := inferInstance
  obtain ⟨c, hc⟩ := Equiv.Perm.exists_extending_pair (α := {i : Fin Y.length // Y[i] ∉ X}) (β := {y // y ∉ X})
    (fun i => ⟨Y[i.val], i.2⟩) (fun i => ⟨Y'[i.val], fun h => i.2 (by rw [same i.1 (Or.inr h)]; exact h)⟩)
    (fun i j h => Subtype.ext (inj _ _ (Subtype.mk.inj h))) (fun i j h => Subtype.ext (inj' _ _ (Subtype.mk.inj h)))
  refine ⟨Equiv.Perm.subtypeCongr (Equiv.refl {y // y ∈ X}) c, ?_, fun x hx => ?_⟩
  · apply List.ext_getElem (by simp [hl])
    intro i h1 h2
    rw [List.length_map] at h1
    rw [List.getElem_map]
    by_cases h : Y[i] ∈ X
    · rw [Equiv.Perm.subtypeCongr.left_apply _ _ h]
      exact same ⟨i, h1⟩ (Or.inl h)
    · rw [Equiv.Perm.subtypeCongr.right_apply _ _ h]
      exact congrArg Subtype.val (hc ⟨⟨i, h1⟩, h⟩)
  · rw [Equiv.Perm.subtypeCongr.left_apply _ _ hx]
    rfl

/-- **C112** The receiver learns no more than the common items and their positions: for two lists of the sender in which the items of the receiver stand
at the same positions there is a renaming `π` under which a sender with the second list and function `f ∘ π⁻¹` shows the receiver what a sender with the first
list and function `f` shows it, whatever `f` and the receiver's key are. Missing: that the receiver does not learn the positions, which is
false (`psi_tells_order`), and that the sender's function is not known, which is false (`cwprf_dictionary_attack`). -/
theorem psi_receiver_view_hides_partial (X Y Y' : List Block) (hl : Y'.length = Y.length) (hY : Y.Nodup) (hY' : Y'.Nodup)
    (hp : ∀ (i : Nat) (x : Block), x ∈ X → (Y[i]? = some x ↔ Y'[i]? = some x)) :
    ∃ π : Equiv.Perm Block, ∀ (f : Block → Bytes) (F2 : Bytes → Bytes) (len : Nat),
      (Y'.map (f ∘ π.symm), X.map fun x => (F2 ((f ∘ π.symm) x)).take len) = (Y.map f, X.map fun x => (F2 (f x)).take len) := by
  obtain ⟨π, h1, h2⟩ := exists_rename_fix X Y Y' hl hY hY' hp
  refine ⟨π, fun f F2 len => ?_⟩
  congr 1
  · rw [← h1, List.map_map]
    apply List.map_congr_left
    intro x _
    simp
  · apply List.map_congr_left
    intro x hx
    have : π.symm x = x := by rw [Equiv.symm_apply_eq, h2 x hx]
    simp [this]

/-- **C112** The sender learns the number of items of the receiver: any other list of as many different items gives the same messages, after a renaming. -/
theorem psi_sender_view_hides_partial (X X' : List Block) (hl : X'.length = X.length) (hX : X.Nodup) (hX' : X'.Nodup) :
    ∃ π : Equiv.Perm Block, ∀ f : Block → Bytes, X'.map (f ∘ π.symm) = X.map f := by
  obtain ⟨π, h1, -⟩ := exists_rename_fix [] X X' hl hX hX' (by simp)
  refine ⟨π, fun f => ?_⟩
  rw [← h1, List.map_map]
  apply List.map_congr_left
  intro x _
  simp

/-- **C112 (violation)** As the code draws them the keys are a constant: after an ordinary run the sender tests any item against the receiver's set,
and the receiver any item against the sender's set. -/
theorem psi_guess (net : Net G) (hn : net.Ok) (mul : Bytes → Bytes → Bytes) (hmul : ∀ k p, (mul k p).length = 32)
    (pp : PP) (ht : pp.truncateLen ≤ 32) (Y X : List Block) (hY : Y.length = pp.senderNum) (hX : X.length = pp.receiverNum)
    (hs : X.length * 32 < 2 ^ 64) :
    ∃ k F1Y F2X T, fixedKey = some k ∧ send net mul pp Y = (viewSend net mul k pp Y).bind (fun _ => .done ()) ∧
      Runs (viewSend net mul k pp Y) (viewReceive net mul k pp X) F2X (F1Y, T) ∧
      (∀ z ∈ X, mul k (hash z) ∈ F2X) ∧ (∀ z ∈ Y, mul k (hash z) ∈ F1Y) ∧
      ((∀ a b : Block, mul k (hash a) = mul k (hash b) → hash a = hash b) →
        ∀ z, (mul k (hash z) ∈ F2X ↔ z ∈ X) ∧ (mul k (hash z) ∈ F1Y ↔ z ∈ Y)) := by
  obtain ⟨k, hk, h1, -⟩ := psi_keys_equal net mul pp Y X hY hX
  have test : ∀ (l : List Block), (∀ a b : Block, mul k (hash a) = mul k (hash b) → hash a = hash b) →
      ∀ z, mul k (hash z) ∈ (l.map fun y => mul k (hash y)) ↔ z ∈ l := by
    intro l hi z
    refine ⟨fun h => ?_, fun h => List.mem_map.2 ⟨z, h, rfl⟩⟩
    obtain ⟨x, hx, e⟩ := List.mem_map.1 h
    rw [← hash_inj (hi x z e)]
    exact hx
  refine ⟨k, _, _, _, hk, by rw [h1, send_from_view], psi_views net hn mul hmul k k pp ht Y X hY hX hs, fun z hz => List.mem_map.2 ⟨z, hz, rfl⟩,
    fun z hz => List.mem_map.2 ⟨z, hz, rfl⟩, fun hi z => ⟨test X hi z, test Y hi z⟩⟩

/-- A run with two items each. -/
example : ∃ k F1Y F2X T, fixedKey = some k ∧
    Runs (viewSend toyNet toyMul k (setup 40 1 1) [1, 2]) (viewReceive toyNet toyMul k (setup 40 1 1) [2, 3]) F2X (F1Y, T) := by
  obtain ⟨k, F1Y, F2X, T, h, -, h', -⟩ := psi_guess toyNet toyNet_ok toyMul toyMul_length (setup 40 1 1) (by decide) [1, 2] [2, 3] rfl rfl (by decide)
  exact ⟨k, F1Y, F2X, T, h, h'⟩

/-- Sender lists `1, 2` and `5, 2` against a receiver with `2, 3`. -/
example : ∃ π : Equiv.Perm Block, ∀ (f : Block → Bytes) (F2 : Bytes → Bytes) (len : Nat),
    ([5, 2].map (f ∘ π.symm), [2, 3].map fun x => (F2 ((f ∘ π.symm) x)).take len) = ([1, 2].map f, [2, 3].map fun x => (F2 (f x)).take len) :=
  psi_receiver_view_hides_partial [2, 3] [1, 2] [5, 2] rfl (by decide) (by decide) (by
    intro i x hx
    match i with
    | 0 => simp only [List.mem_cons, List.not_mem_nil, or_false] at hx; rcases hx with rfl | rfl <;> decide
    | 1 => rfl
    | n + 2 => simp)

/-- The same items in another order, with a multiplication that commutes and does not collide: the views differ. -/
example : ∃ mul : Bytes → Bytes → Bytes, ∀ k1 k2 : Bytes,
    (([1, 2] : List Block).map fun y => mul k1 (hash y), [1].map fun x => (mul k1 (mul k2 (hash x))).take 32) ≠
      ([2, 1].map fun y => mul k1 (hash y), [1].map fun x => (mul k1 (mul k2 (hash x))).take 32) := by
  have hlen : ∀ z, (hash z).length = 32 := fun z => by
    obtain ⟨b, hb, hl⟩ := Hash.blockToBytes_length z
    unfold hash
    rw [hb]
    exact hl
  have hno : ∀ Y : List Block, NoCollision (tag (fun _ p => p) [] [] 32) [1] Y := fun Y x _ y _ h => by
    unfold tag at h
    rw [List.take_of_length_le (hlen x).le, List.take_of_length_le (hlen y).le] at h
    exact hash_inj h
  exact ⟨fun _ p => p, fun k1 k2 => psi_tells_order (fun _ p => p) k1 k2 k1 32 [1] [1, 2] [2, 1] (fun _ _ => rfl) (hno _) (fun _ _ => rfl) (hno _)
    1 (by simp) 0 rfl (by decide)⟩

end Kunlun.CwPRF.PSI
