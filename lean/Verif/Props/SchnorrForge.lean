import Verif.Model.Forking
import Verif.Model.Oracle
import Verif.Props.Sigma
import Verif.Props.FiatShamir
/-!
C127: whoever forges Schnorr signatures after having obtained signatures on messages of their choice computes discrete logarithms.

Random-oracle model: the hash values of the strings in `Q` are drawn from `S` independently. The forger is any program that asks for hash values
and for signatures and ends with a message and a signature.
-/

namespace Kunlun.Schnorr

open Kunlun Fork Oracle

variable {G : Type} [AddCommGroup G] [DecidableEq G] {Q : Finset Bytes} {S : Finset ℤ}

/-- A program that asks for hash values and signatures. -/
inductive Forger (G : Type) (Q : Finset Bytes) (S : Finset ℤ) where
  | done : Bytes → SIG G → Forger G Q S
  | ask : Q → (S → Forger G Q S) → Forger G Q S
  | sign : Bytes → (SIG G → Forger G Q S) → Forger G Q S

/-- At most `a` questions for hash values and `s` for signatures, whatever the answers; the strings hashed for signatures are in `Q`. -/
def Forger.Within (cv : Curve G) : Forger G Q S → Nat → Nat → Prop
  | .done _ _, _, _ => True
  | .ask _ k, a, s => 0 < a ∧ ∀ v, (k v).Within cv (a - 1) s
  | .sign m k, a, s => 0 < s ∧ (∀ A, cv.toBytes A ++ m ∈ Q) ∧ ∀ t, (k t).Within cv a (s - 1)

/-- The hash function. -/
def hash (v0 : S) (o : Q → S) (b : Bytes) : ℤ := (ext v0 o b).1

/-- A forgery: a signature that `Verify` accepts, on a message that was not signed. -/
def wins (cv : Curve G) (v0 : S) (o : Q → S) (pk : G) (signed : List Bytes) (m : Bytes) (s : SIG G) : Bool :=
  decide (m ∉ signed) && decide (cv.toBytes s.A ++ m ∈ Q) && verify cv (hash v0 o) pk m s

/-- The attack: hash values and signatures are those of the code, the nonces are drawn. -/
def attack (cv : Curve G) (v0 : S) (sk : ℤ) (o : Q → S) : Forger G Q S → List (Fin cv.order) → List Bytes → Bool
  | .done m s, _, signed => wins cv v0 o (keyGen cv sk) signed m s
  | .ask x k, rs, signed => attack cv v0 sk o (k (o x)) rs signed
  | .sign m k, r :: rs, signed => attack cv v0 sk o (k (Schnorr.sign cv (hash v0 o) sk m ((r : ℕ) : ℤ))) rs (m :: signed)
  | .sign _ _, [], _ => false

/-- The commitment that fits a challenge and a response. -/
def fit (cv : Curve G) (pk : G) (e : S) (z : Fin cv.order) : G := ((z : ℕ) : ℤ) • cv.gen - (e : ℤ) • pk

/-- The attack without the secret key (proof device): signatures are made by setting hash values. -/
def sim (cv : Curve G) (v0 : S) (pk : G) : Forger G Q S → (Q → S) → List (S × Fin cv.order) → List Bytes → List Bytes → Bool
  | .done m s, o, _, _, signed => wins cv v0 o pk signed m s
  | .ask x k, o, l, known, signed => sim cv v0 pk (k (o x)) o l (x.1 :: known) signed
  | .sign m k, o, (e, z) :: l, known, signed =>
    if cv.toBytes (fit cv pk e z) ++ m ∈ known then false else
      sim cv v0 pk (k ⟨fit cv pk e z, ((z : ℕ) : ℤ)⟩) (put o (cv.toBytes (fit cv pk e z) ++ m) e) l ((cv.toBytes (fit cv pk e z) ++ m) :: known) (m :: signed)
  | .sign _ _, _, [], _, _ => false

/-- The value set for a string, if any. -/
def look (l : List (Bytes × S)) (b : Bytes) : Option S := (l.find? fun p => decide (p.1 = b)).map (·.2)

/-- The forger turned into a program that asks for hash values only: it makes the signatures itself, from the drawn challenges and responses. -/
def reduce (cv : Curve G) (pk : G) : Forger G Q S → List (S × Fin cv.order) → List (Bytes × S) → List Bytes → Adv Q S (Option (Bytes × SIG G))
  | .done m s, _, _, _ => if h : cv.toBytes s.A ++ m ∈ Q then .ask ⟨_, h⟩ fun _ => .done (some (m, s)) else .done none
  | .ask x k, l, st, known =>
    match look st x.1 with
    | some v => reduce cv pk (k v) l st (x.1 :: known)
    | none => .ask x fun v => reduce cv pk (k v) l st (x.1 :: known)
  | .sign m k, (e, z) :: l, st, known =>
    if cv.toBytes (fit cv pk e z) ++ m ∈ known then .done none else
      reduce cv pk (k ⟨fit cv pk e z, ((z : ℕ) : ℤ)⟩) l ((cv.toBytes (fit cv pk e z) ++ m, e) :: st) ((cv.toBytes (fit cv pk e z) ++ m) :: known)
  | .sign _ _, [], _, _ => .done none

/-- Computing the secret key from the public key: run the forger, change the hash value of its forgery to `c`, run it again, and solve for the key. -/
def breaker (cv : Curve G) (v0 : S) (pk : G) (T : Forger G Q S) (l : List (S × Fin cv.order)) (o : Q → S) (c : S) : Option ℤ :=
  ((reduce cv pk T l [] []).run o).bind fun f =>
    ((reduce cv pk T l [] []).run (put o (cv.toBytes f.2.A ++ f.1) c)).map fun f' =>
      extract cv f.2.z f'.2.z (hash v0 o (cv.toBytes f.2.A ++ f.1)) c

theorem prog_fixed (st : List (Bytes × S)) (x : Q) (h : x.1 ∈ st.map Prod.fst) : ∃ v, ∀ o : Q → S, prog st o x = v := by
  induction st with
  | nil => simp at h
  | cons p st ih =>
    obtain ⟨b, e⟩ := p
    by_cases hb : x.1 = b
    · exact ⟨e, fun o => by simp [prog, put, hb]⟩
    · simp only [List.map_cons, List.mem_cons, hb, false_or] at h
      obtain ⟨v, hv⟩ := ih h
      exact ⟨v, fun o => by simp [prog, put, hb, hv]⟩

theorem look_some (st : List (Bytes × S)) (x : Q) (v : S) (h : look st x.1 = some v) (o : Q → S) : prog st o x = v := by
  induction st with
  | nil => simp [look] at h
  | cons p st ih =>
    obtain ⟨b, e⟩ := p
    by_cases hb : b = x.1
    · simp [look, hb] at h
      simp [prog, put, hb, h]
    · rw [look, List.find?_cons_of_neg (by simpa using hb)] at h
      simp only [prog, put, if_neg (Ne.symm hb)]
      exact ih h

theorem look_none (st : List (Bytes × S)) (x : Q) (h : look st x.1 = none) (o : Q → S) : prog st o x = o x := by
  induction st with
  | nil => rfl
  | cons p st ih =>
    obtain ⟨b, e⟩ := p
    by_cases hb : b = x.1
    · simp [look, hb] at h
    · rw [look, List.find?_cons_of_neg (by simpa using hb)] at h
      simp only [prog, put, if_neg (Ne.symm hb)]
      exact ih h

theorem put_update (o : Q → S) (x : Q) (c : S) : put o x.1 c = Function.update o x c := by
  funext y
  unfold put
  by_cases h : y = x
  · subst h; simp
  · rw [if_neg (fun e => h (Subtype.ext e)), Function.update_of_ne h]

/-- What the program that makes its signatures itself returns. -/
theorem reduce_wins (cv : Curve G) {W : Nat} (hE : cv.Encodes W) (v0 : S) (pk : G) (T : Forger G Q S) (o : Q → S) (l : List (S × Fin cv.order))
    (st : List (Bytes × S)) (known signed : List Bytes) (hst : ∀ b ∈ st.map Prod.fst, ∃ A, ∃ m ∈ signed, b = cv.toBytes A ++ m)
    (h : sim cv v0 pk T (prog st o) l known signed = true) :
    ∃ m s, (reduce cv pk T l st known).run o = some (m, s) ∧ cv.toBytes s.A ++ m ∈ Q ∧ verify cv (hash v0 o) pk m s = true := by
  induction T generalizing l st known signed with
  | done m s =>
    simp only [sim, wins, Bool.and_eq_true, decide_eq_true_eq] at h
    obtain ⟨⟨h1, h2⟩, h3⟩ := h
    refine ⟨m, s, by simp [reduce, h2, Adv.run], h2, ?_⟩
    have hn : cv.toBytes s.A ++ m ∉ st.map Prod.fst := by
      intro hm
      obtain ⟨A, m', hm', e⟩ := hst _ hm
      exact h1 ((hE.append e).2 ▸ hm')
    unfold verify at h3 ⊢
    unfold hash at h3 ⊢
    rwa [ext_prog _ _ _ _ hn] at h3
  | ask x k ih =>
    rw [sim] at h
    rw [reduce]
    cases hl : look st x.1 with
    | some v =>
      rw [look_some st x v hl o] at h
      exact ih v l st _ signed hst h
    | none =>
      rw [look_none st x hl o] at h
      exact ih (o x) l st _ signed hst h
  | sign m k ih =>
    cases l with
    | nil => simp [sim] at h
    | cons p l =>
      obtain ⟨e, z⟩ := p
      rw [sim] at h
      rw [reduce]
      split at h
      · cases h
      · next hk =>
        rw [if_neg hk]
        refine ih _ l ((_, e) :: st) _ (m :: signed) ?_ h
        intro b hb
        rw [List.map_cons, List.mem_cons] at hb
        rcases hb with rfl | hb
        · exact ⟨_, m, List.mem_cons_self, rfl⟩
        · obtain ⟨A, m', hm', e⟩ := hst b hb
          exact ⟨A, m', List.mem_cons_of_mem _ hm', e⟩

theorem reduce_within (cv : Curve G) (pk : G) (T : Forger G Q S) (l : List (S × Fin cv.order)) (st : List (Bytes × S)) (known : List Bytes) (a s : Nat)
    (h : T.Within cv a s) : (reduce cv pk T l st known).Within (a + 1) := by
  induction T generalizing l st known a s with
  | done m s =>
    rw [reduce]
    split
    · exact fun _ => trivial
    · trivial
  | ask x k ih =>
    obtain ⟨h0, h1⟩ := h
    rw [reduce]
    obtain ⟨a, rfl⟩ : ∃ b, a = b + 1 := ⟨a - 1, by omega⟩
    cases look st x.1 with
    | some v =>
      have := ih v l st (x.1 :: known) a s (h1 v)
      exact Adv.within_mono _ _ _ this (by omega)
    | none => exact fun v => ih v l st _ a s (h1 v)
  | sign m k ih =>
    cases l with
    | nil => trivial
    | cons p l =>
      obtain ⟨e, z⟩ := p
      rw [reduce]
      split
      · trivial
      · exact ih _ _ _ _ a (s - 1) (h.2.2 _)

/-- A result that forges was asked for. -/
theorem reduce_asked (cv : Curve G) (pk : G) (T : Forger G Q S) (l : List (S × Fin cv.order)) (st : List (Bytes × S)) (known : List Bytes) (o : Q → S)
    (m : Bytes) (s : SIG G) (h : (reduce cv pk T l st known).run o = some (m, s)) :
    ∃ hb : cv.toBytes s.A ++ m ∈ Q, (⟨_, hb⟩ : Q) ∈ (reduce cv pk T l st known).queries o := by
  induction T generalizing l st known with
  | done m' s' =>
    rw [reduce] at h ⊢
    split at h
    · next hb =>
      simp only [Adv.run, Option.some.injEq, Prod.mk.injEq] at h
      obtain ⟨rfl, rfl⟩ := h
      exact ⟨hb, by rw [dif_pos hb]; simp [Adv.queries]⟩
    · simp [Adv.run] at h
  | ask x k ih =>
    rw [reduce] at h ⊢
    cases hl : look st x.1 with
    | some v => rw [hl] at h; exact ih v _ _ _ h
    | none =>
      rw [hl] at h
      obtain ⟨hb, hm⟩ := ih (o x) _ _ _ h
      exact ⟨hb, List.mem_cons_of_mem _ hm⟩
  | sign m' k ih =>
    cases l with
    | nil => simp [reduce, Adv.run] at h
    | cons p l =>
      obtain ⟨e, z⟩ := p
      rw [reduce] at h ⊢
      split at h
      · simp [Adv.run] at h
      · next hk => rw [if_neg hk]; exact ih _ _ _ _ h

/-- 1 for true. -/
def ind (b : Bool) : ℝ := if b then 1 else 0

theorem ind_nonneg (b : Bool) : 0 ≤ ind b := by unfold ind; split <;> norm_num

theorem ind_le_one (b : Bool) : ind b ≤ 1 := by unfold ind; split <;> norm_num

/-- A value that was not asked for yet can as well be drawn now. -/
theorem draw_now [Nonempty S] (st : List (Bytes × S)) (x : Q) (hx : x.1 ∉ st.map Prod.fst) (φ : (Q → S) → ℝ) :
    (avg fun o => φ (prog st o)) = avg fun c => avg fun o => φ (prog ((x.1, c) :: st) o) := by
  rw [avg_update (fun _ => some x) (fun _ _ _ h => h) (fun o => φ (prog st o)), isAvg_avg.swap]
  refine congrArg avg (funext fun c => congrArg avg (funext fun o => ?_))
  dsimp only
  rw [← put_update, prog_put _ _ _ _ hx]
  rfl

theorem prog_here (st : List (Bytes × S)) (x : Q) (c : S) (o : Q → S) : prog ((x.1, c) :: st) o x = c := by
  simp [prog, put]

theorem ext_here (v0 : S) (st : List (Bytes × S)) (b : Bytes) (hb : b ∈ Q) (c : S) (o : Q → S) : ext v0 (prog ((b, c) :: st) o) b = c := by
  rw [prog, ext_put _ _ _ _ hb]

/-- The nonce that a challenge and a response correspond to. -/
theorem avg_response (cv : Curve G) (x : ℤ) (f : G → ℤ → ℝ) :
    (avg fun r : Fin cv.order => f (((r : ℕ) : ℤ) • cv.gen) (BigInt.mod (((r : ℕ) : ℤ) + x) cv.order)) =
      avg fun z : Fin cv.order => f (((z : ℕ) : ℤ) • cv.gen - x • cv.gen) ((z : ℕ) : ℤ) := by
  have hq : (0 : ℤ) < cv.order := by exact_mod_cast cv.order_pos
  unfold avg
  refine congrArg (· / _) ?_
  have small : ∀ y : ℤ, (y % (cv.order : ℤ)).toNat < cv.order := fun y => by
    have := Int.emod_lt_of_pos y hq
    have := Int.emod_nonneg y cv.order_ne
    omega
  have key : ∀ y : ℤ, (((y % (cv.order : ℤ)).toNat : ℕ) : ℤ) = y % cv.order := fun y => Int.toNat_of_nonneg (Int.emod_nonneg _ cv.order_ne)
  have back : ∀ (r : Fin cv.order) (y : ℤ), ((((r : ℕ) : ℤ) + y) % (cv.order : ℤ) - y) % (cv.order : ℤ) = ((r : ℕ) : ℤ) := by
    intro r y
    rw [Int.emod_sub_emod, add_sub_cancel_right]
    exact Int.emod_eq_of_lt (by omega) (by exact_mod_cast r.2)
  refine Fintype.sum_bijective (fun r : Fin cv.order => (⟨((((r : ℕ) : ℤ) + x) % (cv.order : ℤ)).toNat, small _⟩ : Fin cv.order)) ?_ _ _ ?_
  · refine Function.bijective_iff_has_inverse.2 ⟨fun z => ⟨((((z : ℕ) : ℤ) - x) % (cv.order : ℤ)).toNat, small _⟩, fun r => ?_, fun z => ?_⟩
    · apply Fin.ext
      dsimp only
      rw [key, back]
      rfl
    · apply Fin.ext
      dsimp only
      rw [key, sub_eq_add_neg]
      have := back z (-x)
      rw [sub_neg_eq_add] at this
      rw [this]
      rfl
  · intro r
    dsimp only
    rw [key, cv.mod_eq, cv.emod_smul]
    congr 1
    module

/-- Signing without the key changes the outcome only if a string to be hashed for a signature was hashed before. -/
theorem attack_le_sim (cv : Curve G) {W : Nat} (hE : cv.Encodes W) (v0 : S) (sk : ℤ) (M : Nat) (T : Forger G Q S) (a s : Nat) (hT : T.Within cv a s)
    (st : List (Bytes × S)) (known : List Bytes) (hk : ∀ b, b ∈ known ↔ b ∈ st.map Prod.fst) (hM : known.length + a + s ≤ M) (signed : List Bytes) :
    (avgList s fun rs => avg fun o => ind (attack cv v0 sk (prog st o) T rs signed)) ≤
      (avgList s fun l => avg fun o => ind (sim cv v0 (keyGen cv sk) T (prog st o) l known signed)) + s * (M / cv.order) := by
  haveI : Nonempty S := ⟨v0⟩
  haveI : Nonempty (Fin cv.order) := Fin.pos_iff_nonempty.1 cv.order_pos
  have hc : (0 : ℝ) ≤ M / cv.order := by positivity
  induction T generalizing a s st known signed with
  | done m t =>
    simp only [attack, sim]
    rw [(isAvg_avgList s).const, (isAvg_avgList s).const]
    have : (0 : ℝ) ≤ s * (M / cv.order) := by positivity
    linarith
  | ask x k ih =>
    obtain ⟨ha, hT⟩ := hT
    simp only [attack, sim]
    by_cases hx : x.1 ∈ st.map Prod.fst
    · obtain ⟨v, hv⟩ := prog_fixed st x hx
      simp only [hv]
      refine ih v (a - 1) s (hT v) st (x.1 :: known) (fun b => ?_) (by simp only [List.length_cons]; omega) signed
      rw [List.mem_cons, hk b]
      constructor
      · rintro (rfl | h)
        · exact hx
        · exact h
      · exact Or.inr
    · have h1 : ∀ rs, (avg fun o => ind (attack cv v0 sk (prog st o) (k (prog st o x)) rs signed)) =
          avg fun c => avg fun o => ind (attack cv v0 sk (prog ((x.1, c) :: st) o) (k c) rs signed) := fun rs => by
        rw [draw_now st x hx (fun o => ind (attack cv v0 sk o (k (o x)) rs signed))]
        simp only [prog_here]
      have h2 : ∀ l, (avg fun o => ind (sim cv v0 (keyGen cv sk) (k (prog st o x)) (prog st o) l (x.1 :: known) signed)) =
          avg fun c => avg fun o => ind (sim cv v0 (keyGen cv sk) (k c) (prog ((x.1, c) :: st) o) l (x.1 :: known) signed) := fun l => by
        rw [draw_now st x hx (fun o => ind (sim cv v0 (keyGen cv sk) (k (o x)) o l (x.1 :: known) signed))]
        simp only [prog_here]
      simp only [h1, h2]
      rw [(isAvg_avgList s).swap, (isAvg_avgList s).swap, ← (isAvg_avg (α := S)).const ((s : ℝ) * (M / cv.order)), ← isAvg_avg.add]
      refine isAvg_avg.mono _ _ fun v => ?_
      refine ih v (a - 1) s (hT v) ((x.1, v) :: st) (x.1 :: known) (fun b => ?_) (by simp only [List.length_cons]; omega) signed
      rw [List.map_cons, List.mem_cons, List.mem_cons, hk b]
  | sign m k ih =>
    obtain ⟨hs, hQ, hT⟩ := hT
    obtain ⟨s, rfl⟩ : ∃ b, s = b + 1 := ⟨s - 1, by omega⟩
    simp only [Nat.add_sub_cancel] at hT
    have len : (avg fun r : Fin cv.order => if cv.toBytes (((r : ℕ) : ℤ) • cv.gen) ++ m ∈ known then (1 : ℝ) else 0) ≤ M / cv.order := by
      unfold avg
      rw [Fintype.card_fin]
      refine div_le_div_of_nonneg_right ?_ (Nat.cast_nonneg _)
      rw [Finset.sum_boole]
      have h1 : (Finset.univ.filter fun r : Fin cv.order => cv.toBytes (((r : ℕ) : ℤ) • cv.gen) ++ m ∈ known).card ≤ known.toFinset.card := by
        refine Finset.card_le_card_of_injOn (fun r => cv.toBytes (((r : ℕ) : ℤ) • cv.gen) ++ m) (fun r hr => ?_) fun r _ r' _ e => ?_
        · simpa using hr
        · have := (hE.append e).1
          rw [cv.smul_eq_iff _ _ _ cv.gen_ne] at this
          obtain ⟨d, hd⟩ := this
          have h1 := r.2; have h2 := r'.2
          have : ((r : ℕ) : ℤ) = ((r' : ℕ) : ℤ) := by
            have := Int.emod_eq_emod_iff_emod_sub_eq_zero.2 (Int.emod_eq_zero_of_dvd ⟨d, hd⟩)
            rwa [Int.emod_eq_of_lt (by omega) (by exact_mod_cast h1), Int.emod_eq_of_lt (by omega) (by exact_mod_cast h2)] at this
          exact Fin.ext (by exact_mod_cast this)
      have h2 := List.toFinset_card_le known
      have : (Finset.univ.filter fun r : Fin cv.order => cv.toBytes (((r : ℕ) : ℤ) • cv.gen) ++ m ∈ known).card ≤ M := by omega
      exact_mod_cast this
    let w : S → G → ℤ → ℝ := fun e A z => if cv.toBytes A ++ m ∈ known then 0 else
      avgList s fun l => avg fun o => ind (sim cv v0 (keyGen cv sk) (k ⟨A, z⟩) (prog ((cv.toBytes A ++ m, e) :: st) o) l
        ((cv.toBytes A ++ m) :: known) (m :: signed))
    have right : (avgList (s + 1) fun l => avg fun o => ind (sim cv v0 (keyGen cv sk) (.sign m k) (prog st o) l known signed)) =
        avg fun e : S => avg fun r : Fin cv.order => w e (((r : ℕ) : ℤ) • cv.gen) (BigInt.mod (((r : ℕ) : ℤ) + sk * e) cv.order) := by
      simp only [avg_response cv _ (w _)]
      have : (avgList (s + 1) fun l => avg fun o => ind (sim cv v0 (keyGen cv sk) (.sign m k) (prog st o) l known signed)) =
          avg fun p : S × Fin cv.order => w p.1 (fit cv (keyGen cv sk) p.1 p.2) ((p.2 : ℕ) : ℤ) := by
        rw [avgList]
        refine congrArg avg (funext fun p => ?_)
        obtain ⟨e, z⟩ := p
        simp only [sim, w]
        split
        · have : ind false = 0 := by simp [ind]
          simp only [this]
          rw [isAvg_avg.const, (isAvg_avgList s).const]
        · rfl
      rw [this]
      unfold avg
      rw [Fintype.sum_prod_type, Fintype.card_prod, Nat.cast_mul, ← Finset.sum_div, div_div, mul_comm]
      refine congrArg (· / _) (Finset.sum_congr rfl fun e _ => Finset.sum_congr rfl fun z _ => ?_)
      have : fit cv (keyGen cv sk) e z = ((z : ℕ) : ℤ) • cv.gen - (sk * (e : ℤ)) • cv.gen := by
        rw [fit, keyGen, smul_smul, mul_comm sk]
      rw [this]
    have left : ∀ r : Fin cv.order, (avgList s fun rs => avg fun o => ind (attack cv v0 sk (prog st o) (.sign m k) (r :: rs) signed)) ≤
        ((if cv.toBytes (((r : ℕ) : ℤ) • cv.gen) ++ m ∈ known then (1 : ℝ) else 0) +
          avg fun e : S => w e (((r : ℕ) : ℤ) • cv.gen) (BigInt.mod (((r : ℕ) : ℤ) + sk * e) cv.order)) + s * (M / cv.order) := by
      intro r
      have pos : (0 : ℝ) ≤ s * (M / cv.order) := by positivity
      by_cases hm : cv.toBytes (((r : ℕ) : ℤ) • cv.gen) ++ m ∈ known
      · have h1 : (avgList s fun rs => avg fun o => ind (attack cv v0 sk (prog st o) (.sign m k) (r :: rs) signed)) ≤ 1 := by
          have := (isAvg_avgList (α := Fin cv.order) s).mono _ _ fun rs => isAvg_avg.mono (fun o => ind (attack cv v0 sk (prog st o) (.sign m k) (r :: rs) signed))
            (fun _ => 1) fun o => ind_le_one _
          rw [isAvg_avg.const, (isAvg_avgList s).const] at this
          exact this
        have h2 : (avg fun e : S => w e (((r : ℕ) : ℤ) • cv.gen) (BigInt.mod (((r : ℕ) : ℤ) + sk * e) cv.order)) = 0 := by
          simp only [w, if_pos hm]
          exact isAvg_avg.const 0
        rw [if_pos hm, h2]
        linarith
      · rw [if_neg hm, zero_add]
        simp only [attack]
        have hx : cv.toBytes (((r : ℕ) : ℤ) • cv.gen) ++ m ∉ st.map Prod.fst := fun h => hm ((hk _).2 h)
        have h1 : ∀ rs, (avg fun o => ind (attack cv v0 sk (prog st o) (k (Schnorr.sign cv (hash v0 (prog st o)) sk m ((r : ℕ) : ℤ))) rs (m :: signed))) =
            avg fun c : S => avg fun o => ind (attack cv v0 sk (prog ((cv.toBytes (((r : ℕ) : ℤ) • cv.gen) ++ m, c) :: st) o)
              (k ⟨((r : ℕ) : ℤ) • cv.gen, BigInt.mod (((r : ℕ) : ℤ) + sk * c) cv.order⟩) rs (m :: signed)) := fun rs => by
          rw [draw_now st ⟨_, hQ (((r : ℕ) : ℤ) • cv.gen)⟩ hx
            (fun o => ind (attack cv v0 sk o (k (Schnorr.sign cv (hash v0 o) sk m ((r : ℕ) : ℤ))) rs (m :: signed)))]
          simp only [Schnorr.sign, hash, ext_here v0 st _ (hQ _)]
        simp only [h1]
        rw [(isAvg_avgList s).swap, ← (isAvg_avg (α := S)).const ((s : ℝ) * (M / cv.order)), ← isAvg_avg.add]
        refine isAvg_avg.mono _ _ fun e => ?_
        simp only [w, if_neg hm]
        refine ih _ a s (hT _) _ _ (fun b => ?_) (by simp only [List.length_cons]; omega) (m :: signed)
        rw [List.map_cons, List.mem_cons, List.mem_cons, hk b]
    rw [right]
    rw [avgList]
    refine (isAvg_avg.mono _ _ left).trans ?_
    rw [isAvg_avg.add, isAvg_avg.add, isAvg_avg.const, isAvg_avg.swap]
    push_cast
    linarith

/-- How often the forger succeeds, over all secret keys, random choices `ω` of the forger, nonces and hash functions. -/
noncomputable def forges (cv : Curve G) (v0 : S) {Ω : Type} [Fintype Ω] (T : G → Ω → Forger G Q S) (s : Nat) : ℝ :=
  avg fun sk : Fin cv.order => avg fun ω => avgList s fun rs => avg fun o : Q → S => ind (attack cv v0 ((sk : ℕ) : ℤ) o (T (keyGen cv ((sk : ℕ) : ℤ)) ω) rs [])

/-- How often `breaker` finds the secret key, given the public key. -/
noncomputable def solves (cv : Curve G) (v0 : S) {Ω : Type} [Fintype Ω] (T : G → Ω → Forger G Q S) (s : Nat) : ℝ :=
  avg fun sk : Fin cv.order => avg fun ω => avgList s fun l => avg fun o : Q → S => avg fun c : S =>
    ind ((breaker cv v0 (keyGen cv ((sk : ℕ) : ℤ)) (T (keyGen cv ((sk : ℕ) : ℤ)) ω) l o c).any fun x => decide (x • cv.gen = keyGen cv ((sk : ℕ) : ℤ)))

/-- The point at which the program without the key forges. -/
def forgedAt (cv : Curve G) (v0 : S) (pk : G) (T : Forger G Q S) (l : List (S × Fin cv.order)) (o : Q → S) : Option Q :=
  ((reduce cv pk T l [] []).run o).bind fun f =>
    if h : cv.toBytes f.2.A ++ f.1 ∈ Q ∧ verify cv (hash v0 o) pk f.1 f.2 = true then some ⟨_, h.1⟩ else none

theorem forgedAt_some (cv : Curve G) (v0 : S) (pk : G) (T : Forger G Q S) (l : List (S × Fin cv.order)) (o : Q → S) (x : Q)
    (h : forgedAt cv v0 pk T l o = some x) :
    ∃ m s, (reduce cv pk T l [] []).run o = some (m, s) ∧ x.1 = cv.toBytes s.A ++ m ∧ verify cv (hash v0 o) pk m s = true := by
  unfold forgedAt at h
  rw [Option.bind_eq_some_iff] at h
  obtain ⟨⟨m, s⟩, h1, h2⟩ := h
  split at h2
  · next h3 =>
    rw [Option.some.injEq] at h2
    exact ⟨m, s, h1, by rw [← h2], h3.2⟩
  · cases h2

/-- One key, one choice of the forger's randomness, challenges and responses. -/
theorem breaker_succeeds (cv : Curve G) {W : Nat} (hE : cv.Encodes W) (hS : ∀ x ∈ S, ∀ y ∈ S, (cv.order : ℤ) ∣ x - y → x = y) (v0 : S) (pk : G)
    (T : Forger G Q S) (a s : Nat) (hT : T.Within cv a s) (l : List (S × Fin cv.order)) :
    (avg fun o => ind (forgedAt cv v0 pk T l o).isSome) ^ 2 / (a + 1 : ℕ) - (avg fun o => ind (forgedAt cv v0 pk T l o).isSome) / Fintype.card S ≤
      avg fun o : Q → S => avg fun c : S => ind ((breaker cv v0 pk T l o c).any fun x => decide (x • cv.gen = pk)) := by
  haveI : Nonempty S := ⟨v0⟩
  have hf := forking (reduce cv pk T l [] []) (a + 1) (by omega) (reduce_within cv pk T l [] [] a s hT) (forgedAt cv v0 pk T l) (by
    intro o x h
    obtain ⟨m, t, h1, h2, -⟩ := forgedAt_some cv v0 pk T l o x h
    obtain ⟨hb, hq⟩ := reduce_asked cv pk T l [] [] o m t h1
    have : x = ⟨_, hb⟩ := Subtype.ext h2
    rw [this]
    exact hq)
  refine hf.trans (isAvg_avg.mono _ _ fun o => isAvg_avg.mono _ _ fun c => ?_)
  unfold twice
  split
  · next h =>
    obtain ⟨x, h1, h2, hne⟩ := h
    obtain ⟨m, t, r1, e1, v1⟩ := forgedAt_some cv v0 pk T l o x h1
    obtain ⟨m', t', r2, e2, v2⟩ := forgedAt_some cv v0 pk T l _ x h2
    obtain ⟨hA, rfl⟩ := hE.append (e1.symm.trans e2)
    have hput : put o (cv.toBytes t.A ++ m) c = Function.update o x c := by rw [← e1, put_update]
    have hr : breaker cv v0 pk T l o c = some (extract cv t.z t'.z (hash v0 o (cv.toBytes t.A ++ m)) c) := by
      unfold breaker
      rw [r1]
      simp only [Option.bind_some]
      rw [hput, r2]
      rfl
    have h3 : hash v0 o (cv.toBytes t.A ++ m) = (o x : ℤ) := by
      rw [← e1]; simp [hash, ext, x.2]
    have h4 : hash v0 (Function.update o x c) (cv.toBytes t.A ++ m) = (c : ℤ) := by
      rw [← e1]; simp [hash, ext, x.2]
    simp only [verify, decide_eq_true_eq] at v1 v2
    rw [← hA] at v2
    rw [h3, add_comm] at v1
    rw [h4, add_comm] at v2
    have := extract_spec cv t.z t'.z _ _ cv.gen t.A pk v1 v2 (fun hd => hne (Subtype.ext (hS _ (o x).2 _ c.2 hd).symm))
    rw [hr, h3]
    simp only [Option.any_some, ← this, decide_true]
    simp [ind]
  · exact ind_nonneg _

/-- **C127** Schnorr signatures cannot be forged by attacks with chosen messages, unless discrete logarithms can be computed: if a forger that asks for at most `a` hash values
and `s` signatures succeeds with probability `ε`, then `breaker`, which runs it twice and is given the public key only, finds the secret key with probability
at least `ε' * (ε' / (a + 1) - 1 / |S|)`, where `ε' = ε - s * (a + s) / q`. -/
theorem schnorr_unforgeable (cv : Curve G) {W : Nat} (hE : cv.Encodes W) (hS : ∀ x ∈ S, ∀ y ∈ S, (cv.order : ℤ) ∣ x - y → x = y) (v0 : S)
    {Ω : Type} [Fintype Ω] [Nonempty Ω] (T : G → Ω → Forger G Q S) (a s : Nat) (hT : ∀ pk ω, (T pk ω).Within cv a s) (ε' : ℝ) (h0 : 0 ≤ ε')
    (hε : forges cv v0 T s = ε' + s * ((a + s : ℕ) / cv.order)) :
    ε' * (ε' / (a + 1 : ℕ) - 1 / Fintype.card S) ≤ solves cv v0 T s := by
  haveI : Nonempty S := ⟨v0⟩
  haveI : Nonempty (Fin cv.order) := Fin.pos_iff_nonempty.1 cv.order_pos
  let pk : Fin cv.order → G := fun sk => keyGen cv ((sk : ℕ) : ℤ)
  let B : Fin cv.order × Ω × List (S × Fin cv.order) → ℝ := fun i => avg fun o => ind (forgedAt cv v0 (pk i.1) (T (pk i.1) i.2.1) i.2.2 o).isSome
  let A : (Fin cv.order × Ω × List (S × Fin cv.order) → ℝ) → ℝ := fun f => avg fun sk => avg fun ω => avgList s fun l => f (sk, ω, l)
  have hA : IsAvg A := isAvg_avg.comp (isAvg_avg.comp (isAvg_avgList s))
  have h1 : ε' ≤ A B := by
    have : forges cv v0 T s ≤ A B + s * ((a + s : ℕ) / cv.order) := by
      rw [← (isAvg_avg (α := Fin cv.order)).const (s * ((a + s : ℕ) / cv.order)), ← isAvg_avg.add]
      refine isAvg_avg.mono _ _ fun sk => ?_
      rw [← (isAvg_avg (α := Ω)).const (s * ((a + s : ℕ) / cv.order)), ← isAvg_avg.add]
      refine isAvg_avg.mono _ _ fun ω => ?_
      refine (attack_le_sim cv hE v0 _ (a + s) _ a s (hT _ ω) [] [] (by simp) (by simp) []).trans ?_
      refine add_le_add_left ((isAvg_avgList s).mono _ _ fun l => isAvg_avg.mono _ _ fun o => ?_) _
      cases hs : sim cv v0 (keyGen cv ((sk : ℕ) : ℤ)) (T (keyGen cv ((sk : ℕ) : ℤ)) ω) (prog [] o) l [] [] with
      | false => exact ind_nonneg _
      | true =>
        obtain ⟨m, t, r1, r2, r3⟩ := reduce_wins cv hE v0 _ _ o l [] [] [] (by simp) hs
        have : (forgedAt cv v0 (pk sk) (T (pk sk) ω) l o).isSome = true := by
          unfold forgedAt
          rw [r1]
          simp only [Option.bind_some]
          rw [dif_pos ⟨r2, r3⟩]
          rfl
        dsimp only
        rw [this]
    linarith
  have h2 : A B ^ 2 / (a + 1 : ℕ) - A B / Fintype.card S ≤ solves cv v0 T s := by
    have h3 : A (fun i => B i ^ 2 / (a + 1 : ℕ) - B i / Fintype.card S) ≤ solves cv v0 T s :=
      isAvg_avg.mono _ _ fun sk => isAvg_avg.mono _ _ fun ω => (isAvg_avgList s).mono _ _ fun l => breaker_succeeds cv hE hS v0 _ _ a s (hT _ ω) l
    refine le_trans ?_ h3
    have e : (fun i => B i ^ 2 / ((a + 1 : ℕ) : ℝ) - B i / Fintype.card S) =
        fun i => (((a + 1 : ℕ) : ℝ)⁻¹ * B i ^ 2) + (-(Fintype.card S : ℝ)⁻¹) * B i := by funext i; ring
    rw [e]
    have e3 := hA.add (fun i => ((a + 1 : ℕ) : ℝ)⁻¹ * B i ^ 2) (fun i => -(Fintype.card S : ℝ)⁻¹ * B i)
    rw [hA.smul _ (fun i => B i ^ 2), hA.smul _ B] at e3
    rw [e3]
    have := mul_le_mul_of_nonneg_left (hA.sq_le B) (show (0 : ℝ) ≤ ((a + 1 : ℕ) : ℝ)⁻¹ by positivity)
    have e2 : A B ^ 2 / ((a + 1 : ℕ) : ℝ) - A B / Fintype.card S = ((a + 1 : ℕ) : ℝ)⁻¹ * A B ^ 2 + -(Fintype.card S : ℝ)⁻¹ * A B := by ring
    rw [e2]
    linarith
  have h4 : 0 ≤ solves cv v0 T s :=
    isAvg_avg.nonneg _ fun sk => isAvg_avg.nonneg _ fun ω => (isAvg_avgList s).nonneg _ fun l => isAvg_avg.nonneg _ fun o => isAvg_avg.nonneg _ fun c => ind_nonneg _
  by_cases h5 : ε' / (a + 1 : ℕ) - 1 / Fintype.card S ≤ 0
  · exact (mul_nonpos_of_nonneg_of_nonpos h0 h5).trans h4
  · push Not at h5
    refine le_trans ?_ h2
    have e2 : A B ^ 2 / ((a + 1 : ℕ) : ℝ) - A B / Fintype.card S = A B * (A B / (a + 1 : ℕ) - 1 / Fintype.card S) := by ring
    rw [e2]
    have h6 : ε' / ((a + 1 : ℕ) : ℝ) ≤ A B / (a + 1 : ℕ) := div_le_div_of_nonneg_right h1 (by positivity)
    exact mul_le_mul h1 (by linarith) h5.le (h0.trans h1)

/-- The strings hashed for messages of one byte below 3 over the toy group. -/
def exQ : Finset Bytes := Finset.univ.image fun p : ZMod 7 × Fin 3 => [UInt8.ofNat p.1.val, UInt8.ofNat p.2.val]

/-- Three challenges. -/
def exS : Finset ℤ := {1, 2, 3}

/-- A forger that gets message 1 signed and forges message 2 by computing the secret key (in the toy group the public key itself) after asking for one hash value. -/
def exForger (pk : ZMod 7) : Forger (ZMod 7) exQ exS :=
  .sign [1] fun _ => .ask ⟨[5, 2], by decide⟩ fun v => .done [2] ⟨5, 5 + pk.val * v.1⟩

example : toyCurve.Encodes 1 ∧ (∀ x ∈ exS, ∀ y ∈ exS, (toyCurve.order : ℤ) ∣ x - y → x = y) ∧ (∀ pk : ZMod 7, (exForger pk).Within toyCurve 1 1) := by
  refine ⟨⟨by decide, by decide⟩, by decide, fun pk => ⟨by decide, by decide, fun t => ⟨by decide, fun v => trivial⟩⟩⟩

/-- It succeeds with every hash function. -/
example (o : exQ → exS) (r : Fin 7) : attack toyCurve ⟨1, by decide⟩ 3 o (exForger (keyGen toyCurve 3)) [r] [] = true := by
  have h : hash ⟨1, by decide⟩ o [5, 2] = (o ⟨[5, 2], by decide⟩ : ℤ) := by
    have : [5, 2] ∈ exQ := by decide
    simp [hash, ext, this]
  have hb : toyCurve.toBytes 5 ++ [2] = [5, 2] := by decide
  simp only [exForger, attack, wins, verify, hb, h]
  generalize (o ⟨[5, 2], by decide⟩ : ℤ) = e
  have h1 : [5, 2] ∈ exQ := by decide
  have h2 : (keyGen toyCurve 3 : ZMod 7) = 3 := by decide
  have h3 : ((3 : ZMod 7).val : ℤ) = 3 := by decide
  simp only [h1, h2, h3]
  simp [toyCurve]
  ring

end Kunlun.Schnorr
