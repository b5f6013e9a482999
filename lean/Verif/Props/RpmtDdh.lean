import Verif.Props.OprfPrivacy
/-!
C109: the views of the cwPRF membership test over a group in which Diffie-Hellman values look random, with a random hash to the curve (cwprf_mqrpmt.hpp without
`ENABLE_X25519_ACCELERATION`, lines 94-240).
-/

namespace Kunlun.CwPRF.Rpmt

open Kunlun Proto Finset Hiding

variable {G : Type} [AddCommGroup G]

/-- The client (`client`) that ends with what it received. -/
def viewClient (net : Net G) (b : BloomEnv) (pt : Pts G G) (H : Block → G) (F : G → G) (pp : PP) (X : List Block) : Proc (List G) :=
  if pp.clientLen ≠ X.length then .fail else
  recvPts net pt pp.serverLen fun F1Y => sendPts net pt (X.map fun x => F (H x)) <|
  match filterBytes b pt net.g pp.stat (F1Y.map F) with
  | none => .fail
  | some (size, buf) => sendInt net 8 size <| sendBytes net buf <| .done F1Y

/-- **C109** What the client receives in a run: the masked hashes of the server's items in their order. -/
theorem rpmt_client_view (net : Net G) (hn : net.Ok) (b : BloomEnv) (pt : Pts G G) (good : G → Prop) (hp : pt.Ok net good) (H : Block → G) (F1 F2 : G → G)
    (pp : PP) (X Y : List Block) (hX : X.length = pp.clientLen) (hY : Y.length = pp.serverLen)
    (h1 : ∀ y ∈ Y, good (F1 (H y))) (h2 : ∀ x ∈ X, good (F2 (H x))) (hst : pp.stat < 2 ^ 32) (hlen : Y.length < 2 ^ 64)
    (f0 : Bloom.Filter) (hnew : Bloom.new b.rnd Y.length pp.stat (b.raw Y.length pp.stat) = some f0)
    (hraw : 0 < (b.raw Y.length pp.stat).toNat ∧ (b.raw Y.length pp.stat).toNat ≤ 2 ^ 32 - 8) :
    ∃ v, Runs (viewClient net b pt H F2 pp X) (view net pt H F1 pp Y) (Y.map fun y => F1 (H y)) v := by
  obtain ⟨size, buf, e1, e2, e3, -⟩ := filter_spec b pt net.g hn.g pp.stat hst ((Y.map fun y => F1 (H y)).map F2) (by simpa using hlen) f0
    (by simpa using hnew) (by simpa using hraw)
  refine ⟨(X.map (fun x => F2 (H x)), buf), ?_⟩
  unfold viewClient view
  rw [if_neg (by simp [hX]), if_neg (by simp [hY])]
  refine Runs.ptsRL net hn hp (by simp [hY]) ?_ (Runs.ptsLR net hn hp (by simp [hX]) ?_ ?_)
  · intro p hp
    obtain ⟨y, hy, rfl⟩ := List.mem_map.1 hp
    exact h1 y hy
  · intro p hp
    obtain ⟨x, hx, rfl⟩ := List.mem_map.1 hp
    exact h2 x hx
  · rw [e1]
    exact .intLR net hn e2 (.bytesLR net hn e3 (.done _ _))

variable [Fintype G]

/-- **C109** The server, which may use any function `F1` of its own: whatever test `D` it makes of the hash, the masked items of the client and the Bloom filter,
two item lists of the client with the same bits are told apart only as far as Diffie-Hellman values are told from random points. -/
theorem rpmt_server_view_ddh (cv : Curve G) (g : G) (hg : Generates g) (X X' Y : List Block) (hl : X'.length = X.length) (hX : X.Nodup) (hX' : X'.Nodup)
    (hY : Y.Nodup) (hp : ∀ (i : Nat) (x x' : Block), X[i]? = some x → X'[i]? = some x' → (x ∈ Y ↔ x' ∈ Y)) (F1 : G → G) (b : BloomEnv) (pt : Pts G G)
    (blank : Nat → Bytes) (stat : Nat) (D : (Block → G) → List G → Option (Nat × Bytes) → ℝ) :
    (1 - 1 / (cv.order : ℝ)) *
        |prfReal cv (fun H F => D H (X.map F) (filterBytes b pt blank stat (Y.map fun y => F1 (F y)))) -
          prfReal cv (fun H F => D H (X'.map F) (filterBytes b pt blank stat (Y.map fun y => F1 (F y))))| ≤
      ddhAdv cv g (prfTest cv g fun H F => D H (X.map F) (filterBytes b pt blank stat (Y.map fun y => F1 (F y)))) +
        ddhAdv cv g (prfTest cv g fun H F => D H (X'.map F) (filterBytes b pt blank stat (Y.map fun y => F1 (F y)))) := by
  refine ddh_views cv g hg _ _ ?_
  obtain ⟨π, τ, h⟩ := rpmt_view_hides (G := G) (P := G) X X' Y hl hX hX' hY hp
  rw [← prfIdeal_rename π.symm fun H F => D H (X'.map F) (filterBytes b pt blank stat (Y.map fun y => F1 (F y)))]
  congr 1
  funext H F
  have e := (h F F1).2 b pt blank stat
  rw [Prod.mk.injEq] at e
  rw [e.1]
  exact congrArg (D H _) e.2.symm

/-- **C109** The same for the build without Bloom filter, with a uniform shuffle of the client. -/
theorem rpmt_server_view_shuffle_ddh (cv : Curve G) (g : G) (hg : Generates g) (X X' Y : List Block) (hl : X'.length = X.length) (hX : X.Nodup) (hX' : X'.Nodup)
    (hY : Y.Nodup) (hp : ∀ (i : Nat) (x x' : Block), X[i]? = some x → X'[i]? = some x' → (x ∈ Y ↔ x' ∈ Y)) (F1 : G → G)
    (D : (Block → G) → List G → List G → ℝ) :
    (1 - 1 / (cv.order : ℝ)) *
        |prfReal cv (fun H F => (∑ σ : Equiv.Perm (Fin Y.length), D H (X.map F) (reorder σ (Y.map fun y => F1 (F y)))) / Y.length.factorial) -
          prfReal cv (fun H F => (∑ σ : Equiv.Perm (Fin Y.length), D H (X'.map F) (reorder σ (Y.map fun y => F1 (F y)))) / Y.length.factorial)| ≤
      ddhAdv cv g (prfTest cv g fun H F => (∑ σ : Equiv.Perm (Fin Y.length), D H (X.map F) (reorder σ (Y.map fun y => F1 (F y)))) / Y.length.factorial) +
        ddhAdv cv g (prfTest cv g fun H F => (∑ σ : Equiv.Perm (Fin Y.length), D H (X'.map F) (reorder σ (Y.map fun y => F1 (F y)))) / Y.length.factorial) := by
  refine ddh_views cv g hg _ _ ?_
  obtain ⟨π, τ, h⟩ := rpmt_view_hides (G := G) (P := G) X X' Y hl hX hX' hY hp
  rw [← prfIdeal_rename π.symm
    fun H F => (∑ σ : Equiv.Perm (Fin Y.length), D H (X'.map F) (reorder σ (Y.map fun y => F1 (F y)))) / (Y.length.factorial : ℝ)]
  congr 1
  funext H F
  congr 1
  refine Eq.trans (sum_congr rfl fun σ _ => ?_) (Equiv.sum_comp (Equiv.mulLeft τ) _)
  have e := (h F F1).1 σ
  rw [Prod.mk.injEq] at e
  show D H (X.map F) _ = D H (X'.map (F ∘ π.symm)) (reorder (τ * σ) _)
  rw [e.1]
  exact congrArg (D H _) e.2.symm

/-- **C109** The client: two item lists of the server without repetitions are told apart only as far as Diffie-Hellman values are told from random points, whatever the
client computes from the hash and the masked items it gets. -/
theorem rpmt_client_view_ddh (cv : Curve G) (g : G) (hg : Generates g) (Y Y' : List Block) (hl : Y'.length = Y.length) (hY : Y.Nodup) (hY' : Y'.Nodup)
    (D : (Block → G) → List G → ℝ) :
    (1 - 1 / (cv.order : ℝ)) * |prfReal cv (fun H F => D H (Y.map F)) - prfReal cv (fun H F => D H (Y'.map F))| ≤
      ddhAdv cv g (prfTest cv g fun H F => D H (Y.map F)) + ddhAdv cv g (prfTest cv g fun H F => D H (Y'.map F)) :=
  ddh_views cv g hg _ _ (ideal_lists Y Y' (.of_nodup hl hY hY') D)

/-- The hypotheses are met: items 1, 2 and items 1, 3 of the client against a server with 2, 3. -/
example : ([1, 3] : List Block).length = ([1, 2] : List Block).length ∧ ([1, 2] : List Block).Nodup ∧ ([1, 3] : List Block).Nodup ∧ ([2, 3] : List Block).Nodup ∧
    ∀ (i : Nat) (x x' : Block), ([1, 2] : List Block)[i]? = some x → ([1, 3] : List Block)[i]? = some x' → (x ∈ ([2, 3] : List Block) ↔ x' ∈ ([2, 3] : List Block)) := by
  refine ⟨rfl, by decide, by decide, by decide, fun i x x' h h' => ?_⟩
  match i with
  | 0 => cases h; cases h'; rfl
  | 1 => cases h; cases h'; decide
  | n + 2 => cases h

end Kunlun.CwPRF.Rpmt
