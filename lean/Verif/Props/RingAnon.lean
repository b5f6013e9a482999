import Verif.Props.RingSig
import Verif.Props.PkeHiding
import Mathlib.Tactic.Linarith
import Mathlib.Tactic.Ring
import Mathlib.Algebra.BigOperators.Group.Finset.Basic
/-!
C126: whether an accountable ring signature tells who signed. `Prove` of the one-out-of-many proof returns the responses `z` and `vec_f` as integers, without
reduction modulo the order; both tell the secret.
-/

namespace Kunlun.EncRelation

open Kunlun

variable {G : Type} [AddCommGroup G] [DecidableEq G]

theorem fold_rho (rho : List ℤ) (e c : ℤ) (m : Nat) :
    (List.range m).foldl (fun z k => z - (rho[k]?).getD 0 * e ^ k) c = c - ∑ k ∈ Finset.range m, (rho[k]?).getD 0 * e ^ k := by
  induction m with
  | zero => simp
  | succ m ih => rw [List.range_succ, List.foldl_append, ih, Finset.sum_range_succ]; simp only [List.foldl_cons, List.foldl_nil]; ring

theorem digits_bound (rho : List ℤ) (e q : ℤ) (m : Nat) (he : 0 ≤ e) (hr : ∀ a ∈ rho, 0 ≤ a ∧ a < q) (hq : 0 < q) :
    0 ≤ ∑ k ∈ Finset.range m, (rho[k]?).getD 0 * e ^ k ∧ (∑ k ∈ Finset.range m, (rho[k]?).getD 0 * e ^ k) * (e - 1) ≤ (q - 1) * (e ^ m - 1) ∨ e = 0 := by
  by_cases h0 : e = 0
  · exact .inr h0
  left
  have h1 : 1 ≤ e := by omega
  have hd : ∀ k : Nat, 0 ≤ (rho[k]?).getD 0 ∧ (rho[k]?).getD 0 ≤ q - 1 := by
    intro k
    cases h : rho[k]? with
    | none => simp; omega
    | some a =>
      have := hr a (List.mem_of_getElem? h)
      simp only [Option.getD_some]
      omega
  induction m with
  | zero => simp
  | succ m ih =>
    obtain ⟨i1, i2⟩ := ih
    obtain ⟨d1, d2⟩ := hd m
    have hp : 0 < e ^ m := by positivity
    rw [Finset.sum_range_succ]
    constructor
    · have := mul_nonneg d1 hp.le
      omega
    · rw [add_mul, pow_succ]
      have : (rho[m]?).getD 0 * e ^ m * (e - 1) ≤ (q - 1) * e ^ m * (e - 1) :=
        mul_le_mul_of_nonneg_right (mul_le_mul_of_nonneg_right d2 hp.le) (by omega)
      nlinarith [this, i2]

/-- What everybody can compute from the proof: candidates for the randomness of the ciphertext that encrypts zero. `e` is the challenge, which is the hash of the
transcript. -/
def candidates (q : ℕ) (e : ℤ) (m : ℕ) (z : ℤ) : List ℤ :=
  (List.range (((q : ℤ) - 1) / (e - 1) + 1).toNat).map fun j : ℕ => -(-z / e ^ m) + (j : ℤ)

/-- **C126 fails**, one-out-of-many proof: the randomness of the ciphertext that encrypts zero, which `Prove` was given as witness, is one of the
`(q-1)/(e-1) + 1` numbers from `z/e^m` (rounded up) on, whatever was drawn. -/
theorem encRelation_tells_randomness (cv : Curve G) (flog : Nat → Nat → Nat) (pp : PP G) (H : Bytes → ℤ) (x : Instance G) (l : Nat) (r : ℤ) (rnd : Rand)
    (tr tr' : Bytes) (pf : Proof G) (h : prove cv flog pp H x l r rnd tr = some (pf, tr')) (hrho : ∀ a ∈ rnd.rho, 0 ≤ a ∧ a < cv.order)
    (he : 2 ≤ H (addFirst cv tr pf.B pf.A pf.C pf.D)) :
    tr' = addFirst cv tr pf.B pf.A pf.C pf.D ∧ r ∈ candidates cv.order (H tr') (flog x.cts.length pp.n) pf.z := by
  unfold prove at h
  simp only [Option.bind_eq_bind, Option.pure_def, Option.bind_eq_some_iff, Option.some.injEq, Prod.mk.injEq] at h
  obtain ⟨B, -, A, -, C, -, D, -, P, -, rfl, rfl⟩ := h
  refine ⟨rfl, ?_⟩
  dsimp only at he ⊢
  rw [fold_rho]
  generalize H (addFirst cv tr B A C D) = e at *
  generalize flog x.cts.length pp.n = m at *
  have hq : (1 : ℤ) < cv.order := by exact_mod_cast cv.prime.one_lt
  rcases digits_bound rnd.rho e cv.order m (by omega) hrho (by omega) with ⟨h1, h2⟩ | h0
  swap
  · omega
  generalize (∑ k ∈ Finset.range m, (rnd.rho[k]?).getD 0 * e ^ k) = S at *
  have hp : 0 < e ^ m := by positivity
  have c1 : -(-(r * e ^ m - S) / e ^ m) ≤ r := by
    have : -r ≤ -(r * e ^ m - S) / e ^ m := by
      rw [Int.le_ediv_iff_mul_le hp]
      linarith
    omega
  have c2 : r - -(-(r * e ^ m - S) / e ^ m) ≤ ((cv.order : ℤ) - 1) / (e - 1) := by
    rw [Int.le_ediv_iff_mul_le (by omega)]
    have a1 : -(r * e ^ m - S) / e ^ m * e ^ m ≤ -(r * e ^ m - S) := Int.ediv_mul_le _ hp.ne'
    generalize -(r * e ^ m - S) / e ^ m = c at *
    have a2 : (r + c) * e ^ m ≤ S := by linarith
    have a3 : (r + c) * (e - 1) * e ^ m ≤ (cv.order - 1) * e ^ m := by
      have := mul_le_mul_of_nonneg_right a2 (show 0 ≤ e - 1 by omega)
      nlinarith
    have := le_of_mul_le_mul_right a3 hp
    linarith
  unfold candidates
  rw [List.mem_map]
  refine ⟨(r - -(-(r * e ^ m - S) / e ^ m)).toNat, ?_, ?_⟩
  · rw [List.mem_range]
    omega
  · rw [Int.toNat_of_nonneg (by omega)]
    ring

/-- With a challenge above the order (the hash has 256 bits, the order of P-256 a little less) there is one candidate. -/
theorem candidates_one (q : ℕ) (e : ℤ) (m : ℕ) (z : ℤ) (hq : 1 < q) (he : (q : ℤ) < e) : candidates q e m z = [-(-z / e ^ m)] := by
  unfold candidates
  rw [Int.ediv_eq_zero_of_lt (a := (q : ℤ) - 1) (b := e - 1) (by omega) (by omega)]
  simp

/-- **C126 fails**, responses of the digits: for `1 ≤ i < n`, the response for the value `i` of a digit of the index is at least the challenge if the digit
is `i` and below the order if not; so a response below the challenge, or not below the order, tells whether it is. -/
theorem encRelation_tells_digit (cv : Curve G) (flog : Nat → Nat → Nat) (pp : PP G) (H : Bytes → ℤ) (x : Instance G) (l : Nat) (r : ℤ) (rnd : Rand)
    (tr tr' : Bytes) (pf : Proof G) (h : prove cv flog pp H x l r rnd tr = some (pf, tr'))
    (hlen : rnd.cols.length = flog x.cts.length pp.n) (hcol : ∀ c ∈ rnd.cols, c.length = pp.n ∧ ∀ a ∈ c, 0 ≤ a ∧ a < cv.order)
    (j i : Nat) (hj : j < flog x.cts.length pp.n) (hi : i < pp.n) (h0 : 0 < i) :
    ∃ f, pf.vecF[j * pp.n + i]? = some f ∧ (f < H tr' → l / pp.n ^ j % pp.n ≠ i) ∧ ((cv.order : ℤ) ≤ f → l / pp.n ^ j % pp.n = i) := by
  unfold prove at h
  simp only [Option.bind_eq_bind, Option.pure_def, Option.bind_eq_some_iff, Option.some.injEq, Prod.mk.injEq] at h
  obtain ⟨B, -, A, -, C, -, D, -, P, -, rfl, rfl⟩ := h
  dsimp only
  generalize H (addFirst cv tr B A C D) = e at *
  have hjc : j < rnd.cols.length := by omega
  obtain ⟨hl, hr⟩ := hcol _ (List.getElem_mem hjc)
  have ha : ((rnd.cols.map aCol).flatten)[j * pp.n + i]? = (rnd.cols[j])[i]? := by
    rw [flatten_get _ pp.n (by simp only [List.mem_map]; rintro c ⟨s, hs, rfl⟩; rw [aCol_length]; exact (hcol s hs).1) _ _ hi, List.getElem?_map,
      List.getElem?_eq_getElem hjc]
    simp only [Option.map_some, Option.bind_some]
    generalize rnd.cols[j] = c at *
    cases c with
    | nil => rfl
    | cons a t =>
      obtain ⟨i, rfl⟩ := Nat.exists_eq_add_of_lt h0
      simp [aCol]
  rw [List.getElem?_eq_getElem (show i < (rnd.cols[j]).length by omega)] at ha
  have hm := hr _ (List.getElem_mem (show i < (rnd.cols[j]).length by omega))
  refine ⟨(if l / pp.n ^ j % pp.n = i then 1 else 0) * e + (rnd.cols[j])[i], ?_, ?_, ?_⟩
  · rw [List.getElem?_zipWith, delta_get _ _ _ _ _ hj hi, ha]
  · intro hf hd
    rw [if_pos hd] at hf
    omega
  · intro hf
    by_contra hd
    rw [if_neg hd] at hf
    omega

end Kunlun.EncRelation

namespace Kunlun.RingSig

open Kunlun EncRelation

variable {G : Type} [AddCommGroup G] [DecidableEq G]

/-- Opening a signature without the opening key: the candidate that fits the ciphertext is subtracted. -/
def openByAnyone (cv : Curve G) (flog : Nat → Nat → Nat) (H : Bytes → ℤ) (pp : PP G) (ring : List G) (msg : Bytes) (sig : Signature G) : Option G :=
  let e := H (addFirst cv msg sig.proof.B sig.proof.A sig.proof.C sig.proof.D)
  (candidates cv.order e (flog ring.length 2) sig.proof.z).findSome? fun r =>
    if sig.ctVk.X = r • pp.ek then some (sig.ctVk.Y - r • pp.enc.g) else none

/-- **C126 fails**: from every signature everybody computes the public key of the signer, with parameters, ring and message alone, whatever the signer drew. -/
theorem ringSig_tells_signer (cv : Curve G) (flog : Nat → Nat → Nat) (H : Bytes → ℤ) (pp : PP G) (hek : pp.ek ≠ 0) (sk : ℤ) (ring : List G) (msg : Bytes)
    (rnd : Rand) (sig : Signature G) (h : sign cv flog H pp sk ring msg rnd = some sig) (hrho : ∀ a ∈ rnd.rel.rho, 0 ≤ a ∧ a < cv.order)
    (he : 2 ≤ H (addFirst cv msg sig.proof.B sig.proof.A sig.proof.C sig.proof.D)) :
    openByAnyone cv flog H pp ring msg sig = some (keyGen pp sk) := by
  unfold sign at h
  simp only [Option.bind_eq_bind, Option.pure_def, Option.bind_eq_some_iff, Option.some.injEq] at h
  obtain ⟨⟨pf, tr⟩, hp, rfl⟩ := h
  obtain ⟨rfl, hm⟩ := encRelation_tells_randomness cv flog _ H _ _ _ _ _ _ _ hp hrho he
  rw [statement_length] at hm
  unfold openByAnyone
  dsimp only at hm ⊢
  generalize candidates cv.order _ _ _ = l at *
  have key : ∀ r : ℤ, (Twisted.encPoint pp.enc pp.ek (sk • pp.enc.g) rnd.r).X = r • pp.ek →
      (Twisted.encPoint pp.enc pp.ek (sk • pp.enc.g) rnd.r).Y - r • pp.enc.g = keyGen pp sk := by
    intro r hr
    simp only [Twisted.encPoint] at hr ⊢
    have hz : (rnd.r - r) • pp.ek = 0 := by rw [sub_smul, hr, sub_self]
    have hd := (cv.smul_eq_zero_iff _ _ hek).1 hz
    have hg : (rnd.r - r) • pp.enc.g = 0 := by
      obtain ⟨c, hc⟩ := hd
      rw [hc, mul_comm, mul_smul]
      have := cv.smul_order pp.enc.g
      rw [natCast_zsmul, this, smul_zero]
    rw [sub_smul, sub_eq_zero] at hg
    rw [hg]
    simp [keyGen]
  cases hf : l.findSome? fun r => if (Twisted.encPoint pp.enc pp.ek (sk • pp.enc.g) rnd.r).X = r • pp.ek then
      some ((Twisted.encPoint pp.enc pp.ek (sk • pp.enc.g) rnd.r).Y - r • pp.enc.g) else none with
  | none =>
    rw [List.findSome?_eq_none_iff] at hf
    have := hf _ hm
    rw [if_pos (by simp [Twisted.encPoint])] at this
    cases this
  | some y =>
    obtain ⟨r, -, hr⟩ := List.exists_of_findSome?_eq_some hf
    split at hr
    · rename_i hx
      rw [Option.some.injEq] at hr
      rw [← hr, key r hx]
    · cases hr

open Finset Hiding in
/-- C126, the part that holds: without the proof, that is given the opening key's public part and the ciphertext of the signer's key (which `sign` puts into the
signature, first part), telling one signer from another is solving decisional Diffie-Hellman. -/
theorem ringSig_ciphertext_hides_signer_partial (cv : Curve G) (pp : PP G) (sk0 sk1 : ℤ) (D : G → CT G → ℝ) :
    (∀ (flog : Nat → Nat → Nat) (H : Bytes → ℤ) (pp : PP G) (sk : ℤ) (ring : List G) (msg : Bytes) (rnd : Rand) (sig : Signature G),
      sign cv flog H pp sk ring msg rnd = some sig → sig.ctVk = Twisted.encPoint pp.enc pp.ek (keyGen pp sk) rnd.r) ∧
    |game cv (fun dk r => D (Twisted.keyGen pp.enc dk) (Twisted.encPoint pp.enc (Twisted.keyGen pp.enc dk) (keyGen pp sk0) r)) -
      game cv (fun dk r => D (Twisted.keyGen pp.enc dk) (Twisted.encPoint pp.enc (Twisted.keyGen pp.enc dk) (keyGen pp sk1) r))| ≤
      ddhAdv cv pp.enc.g (fun A B C => D A ⟨C, B + sk0 • pp.enc.g⟩) + ddhAdv cv pp.enc.g (fun A B C => D A ⟨C, B + sk1 • pp.enc.g⟩) := by
  constructor
  · intro flog H pp sk ring msg rnd sig h
    unfold sign at h
    simp only [Option.bind_eq_bind, Option.pure_def, Option.bind_eq_some_iff, Option.some.injEq] at h
    obtain ⟨⟨pf, tr⟩, hp, rfl⟩ := h
    rfl
  have e : ∀ (m a b : ℤ), D (Twisted.keyGen pp.enc a) (Twisted.encPoint pp.enc (Twisted.keyGen pp.enc a) (keyGen pp m) b) =
      D (a • pp.enc.g) ⟨(a * b) • pp.enc.g, b • pp.enc.g + m • pp.enc.g⟩ := fun m a b => by
    simp only [Twisted.keyGen, Twisted.encPoint, keyGen]
    rw [smul_smul, mul_comm b a]
  have z : ∀ m : ℤ, (∑ a ∈ range cv.order, ∑ b ∈ range cv.order, ∑ c ∈ range cv.order,
        D ((a : ℤ) • pp.enc.g) ⟨(c : ℤ) • pp.enc.g, (b : ℤ) • pp.enc.g + m • pp.enc.g⟩) =
      ∑ a ∈ range cv.order, ∑ b ∈ range cv.order, ∑ c ∈ range cv.order, D ((a : ℤ) • pp.enc.g) ⟨(c : ℤ) • pp.enc.g, (b : ℤ) • pp.enc.g⟩ := fun m => by
    refine sum_congr rfl fun a _ => ?_
    exact sum_shift cv pp.enc.g m fun B => ∑ c ∈ range cv.order, D ((a : ℤ) • pp.enc.g) ⟨(c : ℤ) • pp.enc.g, B⟩
  exact gap cv pp.enc.g (fun A B C => D A ⟨C, B + sk0 • pp.enc.g⟩) (fun A B C => D A ⟨C, B + sk1 • pp.enc.g⟩) _ _
    (fun a b => e sk0 a b) (fun a b => e sk1 a b) _ (z sk0) (z sk1)

/-- A signature of the second of two members, with challenge 3, tells the second; one of the first tells the first. -/
example : ((sign toyCurve (fun _ _ => 1) (fun _ => 3) (⟨⟨1, [2, 3], 2⟩, ⟨1, 3⟩, 5⟩ : PP (ZMod 7)) 4 [2, 4] [9]
      ⟨1, 2, 3, ⟨1, 2, 3, 4, [[5, 6]], [2]⟩⟩).bind (openByAnyone toyCurve (fun _ _ => 1) (fun _ => 3) ⟨⟨1, [2, 3], 2⟩, ⟨1, 3⟩, 5⟩ [2, 4] [9])) = some 4 ∧
    ((sign toyCurve (fun _ _ => 1) (fun _ => 3) (⟨⟨1, [2, 3], 2⟩, ⟨1, 3⟩, 5⟩ : PP (ZMod 7)) 2 [2, 4] [9]
      ⟨1, 2, 3, ⟨1, 2, 3, 4, [[5, 6]], [2]⟩⟩).bind (openByAnyone toyCurve (fun _ _ => 1) (fun _ => 3) ⟨⟨1, [2, 3], 2⟩, ⟨1, 3⟩, 5⟩ [2, 4] [9])) = some 2 := by
  constructor <;> decide

/-- With challenge 8, above the order 7, the digit response 13 = 8·1 + 5 or 5 = 8·0 + 5 tells the index. -/
example : ((sign toyCurve (fun _ _ => 1) (fun _ => 8) (⟨⟨1, [2, 3], 2⟩, ⟨1, 3⟩, 5⟩ : PP (ZMod 7)) 4 [2, 4] [9]
      ⟨1, 2, 3, ⟨1, 2, 3, 4, [[6, 5]], [2]⟩⟩).map fun s => s.proof.vecF[1]?) = some (some 13) ∧
    ((sign toyCurve (fun _ _ => 1) (fun _ => 8) (⟨⟨1, [2, 3], 2⟩, ⟨1, 3⟩, 5⟩ : PP (ZMod 7)) 2 [2, 4] [9]
      ⟨1, 2, 3, ⟨1, 2, 3, 4, [[6, 5]], [2]⟩⟩).map fun s => s.proof.vecF[1]?) = some (some 5) := by
  constructor <;> decide

end Kunlun.RingSig
