import Verif.Model.OteOprfLemmas
import Verif.Model.ProtoNever
import Verif.Props.Pso
/-! Property C52: the OPRF from OT extension gives the client the values the server computes with its key. -/

namespace Kunlun.OTEOPRF

open Kunlun Kunlun.Proto Kunlun.AES

variable {G : Type} [AddCommGroup G] {pp : PP}

theorem prgBytes_spec (k : Block) (n : Nat) : ∃ p, prgBytes k n = some p ∧ p.length = n := by
  obtain ⟨bs, s1, bytes, -, h2, -, h4, -⟩ := PRG.prg_bytes_bits OTE.uninit rfl (PRG.setSeed k 0) n
  exact ⟨bytes, by unfold prgBytes; rw [h2]; rfl, h4⟩

/-! ### `Evaluate` -/

/-- Columns covered by the first `t` buckets. -/
def covered (pp : PP) (t : Nat) : Nat := min (t * pp.sb) pp.width

theorem covered_succ (t : Nat) : covered pp t + pp.bucketSize t = covered pp (t + 1) := by
  unfold covered PP.bucketSize
  rw [Nat.add_mul, Nat.one_mul]; omega

theorem covered_all (g : Good pp) : covered pp pp.buckets = pp.width := by
  unfold covered PP.buckets
  have h := g.sb.1
  have : pp.width ≤ (pp.width + pp.sb - 1) / pp.sb * pp.sb := by
    have := Nat.div_add_mod (pp.width + pp.sb - 1) pp.sb
    have := Nat.mod_lt (pp.width + pp.sb - 1) (show 0 < pp.sb by omega)
    rw [Nat.mul_comm]; omega
  omega

theorem bucket_lt (g : Good pp) {t : Nat} (h : t < pp.buckets) : t * pp.sb < pp.width ∧ t < pp.width / pp.sb + 1 := by
  have hs := g.sb.1
  unfold PP.buckets at h
  have h1 : (t + 1) * pp.sb ≤ pp.width + pp.sb - 1 := (Nat.le_div_iff_mul_le (by omega)).1 h
  rw [Nat.add_mul, Nat.one_mul] at h1
  refine ⟨by omega, ?_⟩
  have : t ≤ pp.width / pp.sb := (Nat.le_div_iff_mul_le (by omega)).2 (by omega)
  omega

/-- Rows computed so far are right for the columns `cols`. -/
def RowsOk (BH : Bytes → Bytes) (pp : PP) (salts X : List Block) (cols : Nat → Bytes) (acc : List Bytes) : Prop :=
  ∀ c < acc.length, RowOk BH pp salts X (cols c) c (acc.getD c [])

theorem RowsOk.append {BH : Bytes → Bytes} {salts X : List Block} {cols : Nat → Bytes} {acc : List Bytes} (h : RowsOk BH pp salts X cols acc)
    (new : Nat → Bytes) (n : Nat) (hn : ∀ i < n, RowOk BH pp salts X (cols (acc.length + i)) (acc.length + i) (new i)) :
    RowsOk BH pp salts X cols (acc ++ (List.range n).map new) := by
  intro c hc
  rw [List.length_append, List.length_map, List.length_range] at hc
  by_cases h1 : c < acc.length
  · have : (acc ++ (List.range n).map new).getD c [] = acc.getD c [] := by
      simp only [List.getD]; rw [List.getElem?_append_left h1]
    rw [this]; exact h c h1
  · have : (acc ++ (List.range n).map new).getD c [] = new (c - acc.length) := by
      simp only [List.getD]
      rw [List.getElem?_append_right (by omega), List.getElem?_map, List.getElem?_range (by omega)]; rfl
    rw [this]
    have := hn (c - acc.length) (by omega)
    rwa [show acc.length + (c - acc.length) = c by omega] at this

theorem mapBucket_spec (g : Good pp) (BH : Bytes → Bytes) (salts X : List Block) (cols : Nat → Bytes) (s : Locs) (t : Nat)
    (hX : X.length ≤ pp.height) (hc : ∀ i < pp.bucketSize t, pp.hb ≤ (cols i).length)
    (hs : ∀ i < pp.bucketSize t, ∃ r, s.rows[i]? = some r ∧ ∀ j x, X[j]? = some x → location pp r j = some (spot BH pp salts (t * pp.sb + i) x)) :
    ∃ new : Nat → Bytes, mapBucket pp cols s X.length t = some ((List.range (pp.bucketSize t)).map new) ∧
      ∀ i < pp.bucketSize t, RowOk BH pp salts X (cols i) (t * pp.sb + i) (new i) := by
  have : ∀ i, ∃ m, i < pp.bucketSize t → ((s.rows[i]?).bind fun r => mapRow pp (cols i) r X.length) = some m ∧
      RowOk BH pp salts X (cols i) (t * pp.sb + i) m := by
    intro i
    by_cases hi : i < pp.bucketSize t
    · obtain ⟨r, r1, r2⟩ := hs i hi
      obtain ⟨m, m1, m2⟩ := mapRow_spec g BH salts X (cols i) r (t * pp.sb + i) (hc i hi) hX r2
      exact ⟨m, fun _ => ⟨by rw [r1, Option.bind_some, m1], m2⟩⟩
    · exact ⟨[], fun h => absurd h hi⟩
  choose new hnew using this
  exact ⟨new, OTE.mapM_range_spec _ _ _ fun i hi => (hnew i hi).1, fun i hi => (hnew i hi).2⟩

theorem evalBuckets_spec (g : Good pp) (BH : Bytes → Bytes) (key : Bytes) (salts X : List Block) (hX : X.length ≤ pp.height)
    (hm : X.length % pp.batch = 0) (hsalt : salts.length = pp.width / pp.sb + 2) (hkey : pp.width * pp.height ≤ key.length)
    (n t : Nat) (hn : t + n = pp.buckets) (s : Locs) (ok : LocsOk BH pp salts X t s) (acc : List Bytes) (hl : acc.length = covered pp t)
    (ha : RowsOk BH pp salts X (keyCol pp key) acc) :
    ∃ rows, evalBuckets pp key salts X.length n t s acc = some rows ∧ rows.length = pp.width ∧ RowsOk BH pp salts X (keyCol pp key) rows := by
  induction n generalizing t s acc with
  | zero => exact ⟨acc, rfl, by rw [hl, show t = pp.buckets by omega, covered_all g], ha⟩
  | succ n ih =>
    obtain ⟨b1, b2⟩ := bucket_lt g (show t < pp.buckets by omega)
    obtain ⟨s', e1, ok', hs'⟩ := step_spec g BH salts X t s (by omega) ok hm
    have hcov : covered pp t = t * pp.sb := by unfold covered; omega
    have hbs : t * pp.sb + pp.bucketSize t ≤ pp.width := by
      have := covered_succ (pp := pp) t
      rw [hcov] at this
      rw [this]; unfold covered; omega
    obtain ⟨new, n1, n2⟩ := mapBucket_spec g BH salts X (fun i => keyCol pp key (t * pp.sb + i)) s' t hX (by
      intro i hi
      have h1 : (t * pp.sb + i) * pp.height + pp.height ≤ key.length := by
        calc (t * pp.sb + i) * pp.height + pp.height = (t * pp.sb + i + 1) * pp.height := by ring
          _ ≤ pp.width * pp.height := Nat.mul_le_mul_right _ (by omega)
          _ ≤ key.length := hkey
      have := g.hb
      simp only [keyCol, List.length_take, List.length_drop]
      omega) hs'
    obtain ⟨rows, r1, r2, r3⟩ := ih (t + 1) (by omega) s' ok' (acc ++ (List.range (pp.bucketSize t)).map new)
      (by rw [List.length_append, List.length_map, List.length_range, hl, covered_succ])
      (ha.append new _ (by rw [hl, hcov]; exact n2))
    exact ⟨rows, by simp only [evalBuckets, e1, n1, r1, Option.bind_eq_bind, Option.bind_some], r2, r3⟩

/-- `Evaluate` maps every input through the PRF; positions after the last input hold the value of an all-zero row. -/
theorem evaluate_spec (g : Good pp) (BH : Bytes → Bytes) (seed : PRG.Seed) (key : Bytes) (hkey : pp.width * pp.height ≤ key.length) (X : List Block)
    (hX : X.length ≤ pp.height) (hm : X.length % pp.batch = 0) :
    ∃ salts seed', PRG.genRandomBlocks OTE.uninit seed (pp.width / pp.sb + 2) = some (salts, seed') ∧
      evaluate BH pp seed key X X.length =
        some (X.map (prfCols BH pp salts (keyCol pp key)) ++ List.replicate (pp.height - X.length) (blank BH pp), seed') := by
  obtain ⟨salts, seed', s, e1, e2, l, ok⟩ := start_spec g BH seed X
  obtain ⟨rows, r1, r2, r3⟩ := evalBuckets_spec g BH key salts X hX hm l hkey pp.buckets 0 (by omega) s ok [] (by simp [covered]) (by
    intro c hc; simp at hc)
  refine ⟨salts, seed', e1, ?_⟩
  unfold evaluate
  rw [if_neg (by omega)]
  simp only [e2, r1, packing_spec g BH salts X (keyCol pp key) rows r2 hX (fun c hc => r3 c (by omega)), Option.bind_eq_bind, Option.bind_some,
    Option.pure_def]

/-! ### The protocol -/

theorem xor_twice (p m : Bytes) (h : p.length = m.length) : List.zipWith (· ^^^ ·) p (List.zipWith (· ^^^ ·) p m) = m := by
  induction p generalizing m with
  | nil => cases m <;> simp_all
  | cons x xs ih =>
    cases m with
    | nil => simp at h
    | cons y ys =>
      simp only [List.zipWith_cons_cons, List.cons.injEq]
      exact ⟨by rw [← UInt8.xor_assoc, UInt8.xor_self, UInt8.zero_xor], ih ys (by simpa using h)⟩

/-- The all-one column with the places of the inputs cleared. -/
def holes (BH : Bytes → Bytes) (pp : PP) (salts Y : List Block) (c : Nat) : Bytes :=
  (clearBits (fun j => some (spot BH pp salts c (Y.getD j 0))) Y.length 0 (List.replicate pp.hb 255)).getD []

/-- Column `c` of the server's key. -/
def keyColumn (BH : Bytes → Bytes) (pp : PP) (salts Y K0 : List Block) (sel : Bytes) (c : Nat) : Bytes :=
  let A := (prgBytes (K0.getD c 0) pp.hb).getD []
  if sel.getD c 0 = 0 then A else List.zipWith (· ^^^ ·) A (holes BH pp salts Y c)

theorem clearBits_congr (f f' : Nat → Option Nat) (n j : Nat) (m : Bytes) (h : ∀ i, j ≤ i → i < j + n → f i = f' i) :
    clearBits f n j m = clearBits f' n j m := by
  induction n generalizing j m with
  | zero => rfl
  | succ n ih =>
    simp only [clearBits, h j (by omega) (by omega)]
    congr 1; funext v; congr 1; funext m'
    exact ih (j + 1) m' fun i h1 h2 => h i (by omega) (by omega)

/-- The columns the client sends allow the server to compute a column that agrees with the client's at every place it uses. -/
theorem column_agrees (g : Good pp) (BH : Bytes → Bytes) (salts Y : List Block) (K0 K1 : List Block) (s : Locs) (t i : Nat)
    (hs : ∃ r, s.rows[i]? = some r ∧ ∀ j x, Y[j]? = some x → location pp r j = some (spot BH pp salts (t * pp.sb + i) x)) :
    ∃ A B, clientCol pp K0 K1 s Y.length t i = some (A, B) ∧ A.length = pp.hb ∧ B.length = pp.hb ∧
      ∀ (K : List Block) (sel M : Bytes), (M.drop (i * pp.hb)).take pp.hb = B →
        (K.getD (t * pp.sb + i) 0 = if sel.getD (t * pp.sb + i) 0 = 0 then K0.getD (t * pp.sb + i) 0 else K1.getD (t * pp.sb + i) 0) →
        ∃ C, serverCol pp K sel M t i = some C ∧ C.length = pp.hb ∧
          (∀ y ∈ Y, colBit BH pp salts A (t * pp.sb + i) y = colBit BH pp salts C (t * pp.sb + i) y) ∧
          C = keyColumn BH pp salts Y K0 sel (t * pp.sb + i) := by
  obtain ⟨r, r1, r2⟩ := hs
  obtain ⟨A, a1, a2⟩ := prgBytes_spec (K0.getD (t * pp.sb + i) 0) pp.hb
  obtain ⟨P, p1, p2⟩ := prgBytes_spec (K1.getD (t * pp.sb + i) 0) pp.hb
  obtain ⟨D, d1, d2, d3⟩ := clearBits_spec (location pp r) (fun j => spot BH pp salts (t * pp.sb + i) (Y.getD j 0)) Y.length 0
    (List.replicate pp.hb 255)
    (by intro j _ hj; exact r2 j _ (OTE.getD_of_lt Y j 0 (by omega)))
    (by intro j _ _; rw [List.length_replicate]; exact spot_lt g _ _ _ _)
  rw [List.length_replicate] at d2
  have x1 := PRG.xorBytes_spec A D (by omega)
  have lx : (List.zipWith (· ^^^ ·) A D).length = pp.hb := by simp [a2, d2]
  have x2 := PRG.xorBytes_spec P (List.zipWith (· ^^^ ·) A D) (by omega)
  have lb : (List.zipWith (· ^^^ ·) P (List.zipWith (· ^^^ ·) A D)).length = pp.hb := by simp [a2, d2, p2]
  refine ⟨A, _, ?_, a2, lb, ?_⟩
  · unfold clientCol colD
    simp only [r1, d1, a1, p1, x1, x2, Option.bind_eq_bind, Option.bind_some, Option.pure_def]
  intro K sel M hM hK
  unfold serverCol
  by_cases hsel : sel.getD (t * pp.sb + i) 0 = 0
  · rw [if_pos hsel] at hK
    refine ⟨A, by rw [hK, a1, Option.bind_some, if_pos hsel], a2, fun _ _ => rfl, ?_⟩
    unfold keyColumn
    rw [if_pos hsel, a1, Option.getD_some]
  · rw [if_neg hsel] at hK
    have x3 := PRG.xorBytes_spec P (List.zipWith (· ^^^ ·) P (List.zipWith (· ^^^ ·) A D)) (by omega)
    have dd : holes BH pp salts Y (t * pp.sb + i) = D := by
      unfold holes
      rw [← clearBits_congr (location pp r) _ _ _ _ fun j _ hj => r2 j _ (OTE.getD_of_lt Y j 0 (by omega)), d1, Option.getD_some]
    refine ⟨_, by rw [hK, p1, Option.bind_some, if_neg hsel, hM, x3], by simp [lb, p2, a2, d2], ?_, ?_⟩
    swap
    · unfold keyColumn
      rw [if_neg hsel, a1, Option.getD_some, dd]
      exact xor_twice P _ (by omega)
    intro y hy
    have hsp := spot_lt g BH salts (t * pp.sb + i) y
    obtain ⟨a, ha⟩ := bit?_eq A (spot BH pp salts (t * pp.sb + i) y) (by omega)
    obtain ⟨p, hp⟩ := bit?_eq P (spot BH pp salts (t * pp.sb + i) y) (by omega)
    have hd : bit? D (spot BH pp salts (t * pp.sb + i) y) = some false := by
      rw [d3, bit?_replicate _ _ _ hsp, Option.map_some]
      congr 1
      rw [Bool.and_eq_false_iff]
      right
      rw [decide_eq_false_iff_not]
      intro h
      obtain ⟨j, hj, rfl⟩ := List.mem_iff_getElem.1 hy
      refine h j (by omega) (by omega) ?_
      simp [List.getD, hj]
    have h1 := bit?_xor A D (by omega) _ _ _ ha hd
    have h2 := bit?_xor P _ (by omega) _ _ _ hp h1
    have h3 := bit?_xor P _ (by omega) _ _ _ hp h2
    unfold colBit
    rw [ha, h3]
    cases a <;> cases p <;> rfl

theorem flatten_drop_take (bs : List Bytes) (h i : Nat) (hb : ∀ b ∈ bs, b.length = h) (hi : i < bs.length) :
    (bs.flatten.drop (i * h)).take h = bs[i] := by
  induction bs generalizing i with
  | nil => simp at hi
  | cons b bs ih =>
    have hbl : b.length = h := hb b (by simp)
    cases i with
    | zero => simp [← hbl]
    | succ i =>
      rw [List.flatten_cons, show (i + 1) * h = b.length + i * h by rw [hbl]; ring, ← List.drop_drop, List.drop_left]
      simpa using ih i (fun x hx => hb x (by simp [hx])) (by simpa using hi)

theorem flatten_length (bs : List Bytes) (h : Nat) (hb : ∀ b ∈ bs, b.length = h) : bs.flatten.length = bs.length * h := by
  induction bs with
  | nil => simp
  | cons b bs ih =>
    rw [List.flatten_cons, List.length_append, ih fun x hx => hb x (by simp [hx]), hb b (by simp), List.length_cons]; ring

theorem buckets_run (g : Good pp) (net : Net G) (hn : net.Ok) (BH : Bytes → Bytes) (salts Y K0 K1 K : List Block) (sel : Bytes)
    (hY : Y.length ≤ pp.height) (hm : Y.length % pp.batch = 0) (hsalt : salts.length = pp.width / pp.sb + 2)
    (hK : ∀ c < pp.width, K.getD c 0 = if sel.getD c 0 = 0 then K0.getD c 0 else K1.getD c 0)
    {α β : Type} (kS : List Bytes → Proc α) (kC : List Bytes → Proc β)
    (n t : Nat) (ht : t + n = pp.buckets) (s : Locs) (ok : LocsOk BH pp salts Y t s) (accS accC : List Bytes)
    (hlS : accS.length = covered pp t) (hlC : accC.length = covered pp t) (hS : ∀ c ∈ accS, c.length = pp.hb)
    (hC : RowsOk BH pp salts Y (fun c => accS.getD c []) accC)
    (hE : accS = (List.range (covered pp t)).map (keyColumn BH pp salts Y K0 sel)) :
    ∃ cols rows, cols = (List.range pp.width).map (keyColumn BH pp salts Y K0 sel) ∧ cols.length = pp.width ∧ (∀ c ∈ cols, c.length = pp.hb) ∧ rows.length = pp.width ∧
      RowsOk BH pp salts Y (fun c => cols.getD c []) rows ∧
      ∀ a b, Runs (kS cols) (kC rows) a b →
        Runs (serverBuckets net pp K sel n t accS kS) (clientBuckets net pp K0 K1 salts Y.length n t s accC kC) a b := by
  induction n generalizing t s accS accC with
  | zero =>
    have : covered pp t = pp.width := by rw [show t = pp.buckets by omega, covered_all g]
    exact ⟨accS, accC, by rw [hE, this], by omega, hS, by omega, hC, fun a b h => h⟩
  | succ n ih =>
    obtain ⟨b1, b2⟩ := bucket_lt g (show t < pp.buckets by omega)
    obtain ⟨s', e1, ok', hs'⟩ := step_spec g BH salts Y t s (by omega) ok hm
    have hcov : covered pp t = t * pp.sb := by unfold covered; omega
    have hbs : t * pp.sb + pp.bucketSize t ≤ pp.width := by
      have := covered_succ (pp := pp) t
      rw [hcov] at this
      rw [this]; unfold covered; omega
    have hcol : ∀ i, ∃ A B : Bytes, i < pp.bucketSize t → clientCol pp K0 K1 s' Y.length t i = some (A, B) ∧ A.length = pp.hb ∧ B.length = pp.hb ∧
        ∀ M : Bytes, (M.drop (i * pp.hb)).take pp.hb = B →
        ∃ C, serverCol pp K sel M t i = some C ∧ C.length = pp.hb ∧
          (∀ y ∈ Y, colBit BH pp salts A (t * pp.sb + i) y = colBit BH pp salts C (t * pp.sb + i) y) ∧
          C = keyColumn BH pp salts Y K0 sel (t * pp.sb + i) := by
      intro i
      by_cases hi : i < pp.bucketSize t
      · obtain ⟨A, B, h1, h2, h3, h4⟩ := column_agrees g BH salts Y K0 K1 s' t i (hs' i hi)
        exact ⟨A, B, fun _ => ⟨h1, h2, h3, fun M hM => h4 K sel M hM (hK _ (by omega))⟩⟩
      · exact ⟨[], [], fun h => absurd h hi⟩
    choose A B hAB using hcol
    set M := (((List.range (pp.bucketSize t)).map fun i => (A i, B i)).map (·.2)).flatten with hM
    have hBm : ∀ b ∈ ((List.range (pp.bucketSize t)).map fun i => (A i, B i)).map (·.2), b.length = pp.hb := by
      intro b hb
      simp only [List.map_map, List.mem_map, List.mem_range, Function.comp_apply] at hb
      obtain ⟨i, hi, rfl⟩ := hb
      exact (hAB i hi).2.2.1
    have hMl : M.length = pp.bucketSize t * pp.hb := by rw [hM, flatten_length _ _ hBm]; simp
    have hcolS : ∀ i, ∃ C, i < pp.bucketSize t → serverCol pp K sel M t i = some C ∧ C.length = pp.hb ∧
          (∀ y ∈ Y, colBit BH pp salts (A i) (t * pp.sb + i) y = colBit BH pp salts C (t * pp.sb + i) y) ∧
          C = keyColumn BH pp salts Y K0 sel (t * pp.sb + i) := by
      intro i
      by_cases hi : i < pp.bucketSize t
      · obtain ⟨C, hC⟩ := (hAB i hi).2.2.2 M (by
          rw [hM, flatten_drop_take _ _ i hBm (by simpa using hi)]; simp)
        exact ⟨C, fun _ => hC⟩
      · exact ⟨[], fun h => absurd h hi⟩
    choose C hCC using hcolS
    obtain ⟨new, n1, n2⟩ := mapBucket_spec g BH salts Y
      (fun i => (((List.range (pp.bucketSize t)).map fun i => (A i, B i)).map (·.1)).getD i []) s' t hY (by
        intro i hi
        have : (((List.range (pp.bucketSize t)).map fun i => (A i, B i)).map (·.1)).getD i [] = A i := by
          simp [List.getD, hi]
        rw [this, (hAB i hi).2.1]) hs'
    have hAi : ∀ i < pp.bucketSize t, (((List.range (pp.bucketSize t)).map fun i => (A i, B i)).map (·.1)).getD i [] = A i := by
      intro i hi; simp [List.getD, hi]
    have m1 := OTE.mapM_range_spec (clientCol pp K0 K1 s' Y.length t) (fun i => (A i, B i)) (pp.bucketSize t) fun i hi => (hAB i hi).1
    have m2 := OTE.mapM_range_spec (serverCol pp K sel M t) C (pp.bucketSize t) fun i hi => (hCC i hi).1
    have hget : ∀ c < accS.length, (accS ++ (List.range (pp.bucketSize t)).map C).getD c [] = accS.getD c [] := by
      intro c hc; simp only [List.getD]; rw [List.getElem?_append_left hc]
    have hget2 : ∀ i < pp.bucketSize t, (accS ++ (List.range (pp.bucketSize t)).map C).getD (accS.length + i) [] = C i := by
      intro i hi
      simp only [List.getD]
      rw [List.getElem?_append_right (by omega), show accS.length + i - accS.length = i by omega, List.getElem?_map, List.getElem?_range hi]; rfl
    obtain ⟨cols, rows, q0, q1, q2, q3, q4, q5⟩ := ih (t + 1) (by omega) s' ok' (accS ++ (List.range (pp.bucketSize t)).map C)
      (accC ++ (List.range (pp.bucketSize t)).map new)
      (by rw [List.length_append, List.length_map, List.length_range, hlS, covered_succ])
      (by rw [List.length_append, List.length_map, List.length_range, hlC, covered_succ])
      (by
        intro c hc
        rw [List.mem_append, List.mem_map] at hc
        rcases hc with hc | ⟨i, hi, rfl⟩
        · exact hS c hc
        · exact (hCC i (List.mem_range.1 hi)).2.1)
      (by
        have h0 : RowsOk BH pp salts Y (fun c => (accS ++ (List.range (pp.bucketSize t)).map C).getD c []) accC := by
          intro c hc
          have := hC c hc
          show RowOk BH pp salts Y ((accS ++ (List.range (pp.bucketSize t)).map C).getD c []) c (accC.getD c [])
          rw [hget c (by omega)]
          exact this
        apply h0.append
        intro i hi
        have := (n2 i hi).congr (C' := C i) (by rw [hAi i hi]; exact (hCC i hi).2.2.1)
        rw [show accC.length + i = accS.length + i by omega]
        show RowOk BH pp salts Y ((accS ++ (List.range (pp.bucketSize t)).map C).getD (accS.length + i) []) (accS.length + i) (new i)
        rw [hget2 i hi, hlS, hcov]
        exact this)
      (by
        rw [hE, ← covered_succ, List.range_add, List.map_append, List.map_map]
        congr 1
        apply List.map_congr_left
        intro i hi
        rw [(hCC i (List.mem_range.1 hi)).2.2.2, hcov]; rfl)
    refine ⟨cols, rows, q0, q1, q2, q3, q4, fun a b h => ?_⟩
    unfold serverBuckets clientBuckets
    simp only [e1, m1]
    rw [← hM]
    refine .bytesRL net hn hMl ?_
    simp only [m2, n1]
    exact q5 a b h

theorem keyCol_flatten (g : Good pp) (cols : List Bytes) (hl : cols.length = pp.width) (hc : ∀ c ∈ cols, c.length = pp.hb) :
    (flattenKey pp cols).length = pp.width * pp.height ∧
      ∀ c < pp.width, keyCol pp (flattenKey pp cols) c = cols.getD c [] ++ List.replicate (pp.height - pp.hb) 0 := by
  have hb := g.hb
  have hall : ∀ b ∈ cols.map fun c => c ++ List.replicate (pp.height - c.length) (0 : UInt8), b.length = pp.height := by
    intro b hb'
    rw [List.mem_map] at hb'
    obtain ⟨c, hc', rfl⟩ := hb'
    rw [List.length_append, List.length_replicate, hc c hc']; omega
  refine ⟨?_, fun c hcw => ?_⟩
  · unfold flattenKey
    rw [flatten_length _ _ hall, List.length_map, hl]
  · have hcl : c < cols.length := by omega
    unfold keyCol flattenKey
    rw [flatten_drop_take _ _ c hall (by simpa using hcl)]
    simp only [List.getElem_map, List.getD, List.getElem?_eq_getElem hcl, Option.getD_some]
    rw [hc _ (List.getElem_mem hcl)]

theorem clientSeeds_spec (w : Nat) : ∃ K0 K1, clientSeeds w = some (K0, K1) ∧ K0.length = w ∧ K1.length = w := by
  obtain ⟨A, s2, hA, lA⟩ : ∃ A s2, PRG.genRandomBlocks OTE.uninit (PRG.setSeed CwPRF.fixedSeed 0) w = some (A, s2) ∧ A.length = w :=
    ⟨_, _, PRG.genRandomBlocks_spec _ rfl _ _, by simp⟩
  obtain ⟨B, s3, hB, lB⟩ : ∃ B s3, PRG.genRandomBlocks OTE.uninit s2 w = some (B, s3) ∧ B.length = w :=
    ⟨_, _, PRG.genRandomBlocks_spec _ rfl _ _, by simp⟩
  exact ⟨A, B, by unfold clientSeeds; simp only [hA, hB, Option.bind_eq_bind, Option.bind_some, Option.pure_def], lA, lB⟩

/-- The key as a function of public values and the client's inputs. -/
def publicKey (BH : Bytes → Bytes) (pp : PP) (salts Y : List Block) : Option Bytes := do
  let (K0, _) ← clientSeeds pp.width
  let sel ← OTE.senderBits CwPRF.fixedSeed pp.width
  return flattenKey pp ((List.range pp.width).map (keyColumn BH pp salts Y K0 sel))

/-- **C52** `Server` and `Client` run to the end. The server obtains a key of the right size; the client obtains, for each of its inputs, the
value of the PRF given by that key, followed by filler up to `MATRIX_HEIGHT` entries. -/
theorem oprf_run (e : OTE.Env G) (hn : e.net.Ok) (BH : Bytes → Bytes) (g : Good pp) (seed : PRG.Seed) (sk : Nat → ℤ) (d : ℤ) (r : Nat → ℤ)
    (hb : OTE.BaseOk e pp.width CwPRF.fixedSeed sk d r) (Y : List Block) (hY : Y.length ≤ pp.height) (hm : Y.length % pp.batch = 0) :
    ∃ key salts seed', PRG.genRandomBlocks OTE.uninit seed (pp.width / pp.sb + 2) = some (salts, seed') ∧ key.length = pp.width * pp.height ∧
      Runs (server e pp sk) (client e BH pp seed d r Y Y.length) key
        (Y.map (prfCols BH pp salts (keyCol pp key)) ++ List.replicate (pp.height - Y.length) (blank BH pp), seed') ∧
      publicKey BH pp salts Y = some key := by
  obtain ⟨K0, K1, c1, c2, c3⟩ := clientSeeds_spec pp.width
  obtain ⟨sel, K, s1, s2, s3, s4, s5⟩ := OTE.base_run e hn pp.width CwPRF.fixedSeed sk d r K0 K1 c2 c3 hb
  obtain ⟨salts, seed', s, e1, e2, l, ok⟩ := start_spec g BH seed Y
  obtain ⟨cols, rows, q0, q1, q2, q3, q4, q5⟩ := buckets_run g e.net hn BH salts Y K0 K1 K sel hY hm l s5
    (fun cols => Proc.done (flattenKey pp cols)) (fun rows => Proc.ofOption ((packing BH pp rows).map fun out => (out, seed')))
    pp.buckets 0 (by omega) s ok [] [] (by simp [covered]) (by simp [covered]) (by simp) (by intro c hc; simp at hc) (by simp [covered])
  obtain ⟨k1, k2⟩ := keyCol_flatten g cols q1 q2
  refine ⟨flattenKey pp cols, salts, seed', e1, k1, ?_, by
    unfold publicKey; simp only [c1, s1, Option.bind_eq_bind, Option.bind_some, Option.pure_def, q0]⟩
  unfold server client
  rw [if_neg (by have := g.lhb; omega), s1, c1]
  refine Runs.bind s4 _ _ ?_
  rw [e2]
  apply q5
  rw [packing_spec g BH salts Y (keyCol pp (flattenKey pp cols)) rows q3 hY]
  · exact .done _ _
  · intro c hc
    refine (q4 c (by omega)).congr fun y _ => ?_
    unfold colBit
    rw [k2 c hc, bit?_append]
    have hcl : c < cols.length := by omega
    have : (cols.getD c []).length = pp.hb := by
      simp only [List.getD, List.getElem?_eq_getElem hcl, Option.getD_some]
      exact q2 _ (List.getElem_mem hcl)
    rw [this]
    exact spot_lt g _ _ _ _

/-- **C52** Server and client start with the same generator state. Then whatever inputs both have, the client's output at an input equals the
server's `Evaluate` at the same input, at every position. -/
theorem oprf_agree_partial (e : OTE.Env G) (hn : e.net.Ok) (BH : Bytes → Bytes) (g : Good pp) (seed : PRG.Seed) (sk : Nat → ℤ) (d : ℤ) (r : Nat → ℤ)
    (hb : OTE.BaseOk e pp.width CwPRF.fixedSeed sk d r) (X Y : List Block) (hX : X.length ≤ pp.height) (hXm : X.length % pp.batch = 0)
    (hY : Y.length ≤ pp.height) (hYm : Y.length % pp.batch = 0) :
    ∃ key outX outY seed', Runs (server e pp sk) (client e BH pp seed d r Y Y.length) key (outY, seed') ∧
      evaluate BH pp seed key X X.length = some (outX, seed') ∧ outX.length = pp.height ∧ outY.length = pp.height ∧
      ∀ (i j : Nat) (x : Block), X[i]? = some x → Y[j]? = some x → ∃ v, outX[i]? = some v ∧ outY[j]? = some v ∧
        v = prfCols BH pp (PRG.stream seed.key seed.counter (pp.width / pp.sb + 2)) (keyCol pp key) x := by
  obtain ⟨key, salts, seed', s1, k1, run, -⟩ := oprf_run e hn BH g seed sk d r hb Y hY hYm
  obtain ⟨salts', seed'', s2, ev⟩ := evaluate_spec g BH seed key (by omega) X hX hXm
  rw [s1, Option.some.injEq, Prod.mk.injEq] at s2
  obtain ⟨rfl, rfl⟩ := s2
  refine ⟨key, _, _, seed', run, ev, by simp; omega, by simp; omega, ?_⟩
  intro i j x hi hj
  obtain ⟨hil, -⟩ := List.getElem?_eq_some_iff.1 hi
  obtain ⟨hjl, -⟩ := List.getElem?_eq_some_iff.1 hj
  have s3 := PRG.genRandomBlocks_spec OTE.uninit rfl seed (pp.width / pp.sb + 2)
  rw [s1, Option.some.injEq, Prod.mk.injEq] at s3
  refine ⟨prfCols BH pp salts (keyCol pp key) x, ?_, ?_, by rw [s3.1]⟩
  · rw [List.getElem?_append_left (by simpa using hil), List.getElem?_map, hi]; rfl
  · rw [List.getElem?_append_left (by simpa using hjl), List.getElem?_map, hj]; rfl

/-! ### Parameters -/

/-- **C52** The parameters made by `Setup` are covered for set sizes 2^3 to 2^30 when the range fits the hash. -/
theorem setup_good (log stat : Nat) (h3 : 3 ≤ log) (h30 : log ≤ 30) (hs : stat + 2 * log ≤ 256) :
    ∃ pp, setup log stat = some pp ∧ Good pp ∧ pp.height = 2 ^ log ∧ pp.inputNum = 2 ^ log ∧ pp.inputNum % pp.batch = 0 ∧ 0 < pp.width := by
  have hw : (2 ^ log) % (if log < 10 then 2 ^ (log / 2) else 512) = 0 := by
    apply Nat.mod_eq_zero_of_dvd
    split
    · exact Nat.pow_dvd_pow 2 (by omega)
    · exact Nat.pow_dvd_pow 2 (show 9 ≤ log by omega)
  refine ⟨_, by unfold setup; rw [if_pos h30], ⟨h3, h30, rfl, ?_, hw, ?_⟩, rfl, rfl, hw, ?_⟩
  · show 0 < if log < 10 then 2 ^ (log / 2) else 512
    split
    · exact Nat.two_pow_pos _
    · omega
  · show (stat + 2 * log + 7) / 8 ≤ 32
    omega
  · show 0 < widthFor log
    unfold widthFor
    split_ifs <;> omega

theorem encBatches_overrun (k : Key) (B m low : Nat) (v : List Block) (hm : 0 < m) (h : v.length < low + m * B) : encBatches k B m low v = none := by
  induction m generalizing low v with
  | zero => omega
  | succ m ih =>
    have hb : (m + 1) * B = B + m * B := by ring
    rw [hb] at h
    unfold encBatches
    by_cases h1 : low + B ≤ v.length
    · rw [encSlice_spec k B low v h1, Option.bind_some]
      have hm : 0 < m := by
        rcases Nat.eq_zero_or_pos m with rfl | h2
        · omega
        · exact h2
      apply ih _ _ hm
      simp only [List.length_append, List.length_take, List.length_map, List.length_drop]
      omega
    · unfold encSlice
      rw [if_neg h1]; rfl

/-- **C52** A set whose size is not a multiple of `BATCH_SIZE` makes `Evaluate` encrypt past the end of its vector. -/
theorem oprf_ragged_undefined (g : Good pp) (hw : 0 < pp.width) (BH : Bytes → Bytes) (seed : PRG.Seed) (key : Bytes) (X : List Block)
    (hm : X.length % pp.batch ≠ 0) : evaluate BH pp seed key X X.length = none := by
  unfold evaluate
  split
  · rfl
  obtain ⟨salts, seed', s, e1, e2, l, ok⟩ := start_spec g BH seed X
  have hlen : s.enc.length = X.length := by rw [ok.enc, List.length_map]
  have hb := g.batch
  have h0 : X.length ≠ 0 := by intro h; rw [h, Nat.zero_mod] at hm; exact hm rfl
  have hbt : 0 < batches pp X.length ∧ X.length < batches pp X.length * pp.batch := by
    unfold batches
    have d := Nat.div_add_mod (X.length + pp.batch - 1) pp.batch
    have r := Nat.mod_lt (X.length + pp.batch - 1) hb
    refine ⟨Nat.div_pos (by omega) hb, ?_⟩
    have hge : X.length ≤ (X.length + pp.batch - 1) / pp.batch * pp.batch := by rw [Nat.mul_comm]; omega
    rcases Nat.eq_or_lt_of_le hge with h | h
    · rw [h, Nat.mul_mod_left] at hm; exact absurd rfl hm
    · exact h
  have hst : step pp salts X.length 0 s = none := by
    unfold step
    rw [OTE.getD_of_lt salts (0 + 1) 0 (by rw [l]; exact Nat.succ_lt_succ (Nat.succ_pos _))]
    simp only [Option.bind_eq_bind, Option.bind_some, encBatches_overrun _ _ _ 0 s.enc hbt.1 (by rw [hlen, Nat.zero_add]; exact hbt.2),
      Option.bind_none]
  have hbk : ∃ n, pp.buckets = n + 1 := by
    have : 0 < pp.buckets := by
      unfold PP.buckets
      have := g.sb.1
      exact Nat.div_pos (by omega) (by omega)
    exact ⟨pp.buckets - 1, by omega⟩
  obtain ⟨n, hn⟩ := hbk
  simp only [e2, hn, evalBuckets, hst, Option.bind_eq_bind, Option.bind_some, Option.bind_none]

/-- **C52** Parameters made for one input (`LOG_INPUT_NUM` = 0) divide by zero in every function. -/
theorem oprf_single_input_undefined (e : OTE.Env G) (BH : Bytes → Bytes) (stat : Nat) (seed : PRG.Seed) (key : Bytes) (X : List Block) (n : Nat)
    (sk : Nat → ℤ) : ∃ pp, setup 0 stat = some pp ∧ evaluate BH pp seed key X n = none ∧ server e pp sk = .fail := by
  obtain ⟨pp, h1, h2⟩ : ∃ pp, setup 0 stat = some pp ∧ pp.lhb = 0 := ⟨_, rfl, by simp [PP.lhb]⟩
  refine ⟨pp, h1, ?_, by unfold server; rw [if_pos h2]⟩
  unfold evaluate start
  rw [if_pos h2]
  split <;> rfl

theorem clearBits_nil (f : Nat → Option Nat) (n j : Nat) (h : 0 < n) : clearBits f n j [] = none := by
  obtain ⟨n, rfl⟩ : ∃ m, n = m + 1 := ⟨n - 1, by omega⟩
  unfold clearBits
  cases f j <;> rfl

theorem orBits_nil (f : Nat → Option Bool) (n j : Nat) (h : 0 < n) : orBits f n j [] = none := by
  obtain ⟨n, rfl⟩ : ∃ m, n = m + 1 := ⟨n - 1, by omega⟩
  unfold orBits
  cases f j <;> rfl

theorem mapM_range_none {β : Type} (f : Nat → Option β) (n : Nat) (hn : 0 < n) (h : f 0 = none) : (List.range n).mapM f = none := by
  obtain ⟨n, rfl⟩ : ∃ m, n = m + 1 := ⟨n - 1, by omega⟩
  rw [List.range_succ_eq_map, List.mapM_cons, h]
  rfl

/-- **C52** Parameters made for two or four inputs (`LOG_INPUT_NUM` = 1, 2): the columns have `MATRIX_HEIGHT >> 3` = 0 bytes and the first input is written outside,
by `Client` and by `Evaluate`; no run of the client finishes, whatever the other party does. -/
theorem oprf_four_inputs_undefined (e : OTE.Env G) (BH : Bytes → Bytes) (log stat : Nat) (hlog : log = 1 ∨ log = 2) (seed : PRG.Seed) (key : Bytes)
    (X : List Block) (n : Nat) (hn : 0 < n) (d : ℤ) (r : Nat → ℤ) :
    ∃ pp, setup log stat = some pp ∧ evaluate BH pp seed key X n = none ∧
      ∀ {α : Type} (p : Proc α) (y : α) (out : List Bytes × PRG.Seed), ¬ Runs p (client e BH pp seed d r X n) y out := by
  obtain ⟨pp, h1, h2, h3, h4⟩ : ∃ pp, setup log stat = some pp ∧ pp.hb = 0 ∧ 0 < pp.bucketSize 0 ∧ 0 < pp.buckets := by
    rcases hlog with rfl | rfl <;> exact ⟨_, rfl, by simp only [PP.hb]; decide, by simp only [PP.bucketSize, PP.sb, PP.lhb, widthFor]; decide,
      by simp only [PP.buckets, PP.sb, PP.lhb, widthFor]; decide⟩
  obtain ⟨m, hm⟩ : ∃ m, pp.buckets = m + 1 := ⟨pp.buckets - 1, by omega⟩
  refine ⟨pp, h1, ?_, fun p y out => not_runs_of_never ?_ y out⟩
  · unfold evaluate
    split
    · rfl
    · cases hs : start BH pp seed X n with
      | none => rfl
      | some v =>
        obtain ⟨salts, s, seed'⟩ := v
        simp only [Option.bind_eq_bind, Option.bind_some, hm, evalBuckets]
        cases step pp salts n 0 s with
        | none => rfl
        | some s' =>
          have : mapBucket pp (fun i => keyCol pp key (0 * pp.sb + i)) s' n 0 = none := by
            unfold mapBucket
            apply mapM_range_none _ _ h3
            cases s'.rows[0]? with
            | none => rfl
            | some row =>
              simp only [Option.bind_some]
              unfold mapRow
              rw [h2]
              exact orBits_nil _ _ _ hn
          simp only [Option.bind_some, this, Option.bind_none]
  · unfold client
    split
    · trivial
    · rename_i K0 K1 _
      apply Proc.Never.then
      intro _
      split
      · trivial
      · rename_i salts s seed' _
        rw [hm]
        unfold clientBuckets
        split
        · trivial
        · rename_i s' _
          have : (List.range (pp.bucketSize 0)).mapM (clientCol pp K0 K1 s' n 0) = none := by
            apply mapM_range_none _ _ h3
            unfold clientCol
            cases s'.rows[0]? with
            | none => rfl
            | some row =>
              simp only [Option.bind_eq_bind, Option.bind_some]
              unfold colD
              rw [h2, List.replicate_zero, clearBits_nil _ _ _ hn]
              rfl
          rw [this]
          trivial

/-! ### The generator state in the parameters -/

/-- **C52** `Evaluate` advances `pp.common_seed`: a second call with the same parameters uses AES keys none of which the first call used. -/
theorem oprf_second_call_other_keys (g : Good pp) (BH : Bytes → Bytes) (seed : PRG.Seed) (hr : 1 ≤ seed.key.rounds) (key : Bytes)
    (hkey : pp.width * pp.height ≤ key.length) (hw : pp.width ≤ 2 ^ 60) (X : List Block) (hX : X.length ≤ pp.height) (hm : X.length % pp.batch = 0) :
    ∃ salts salts' seed1 seed2, PRG.genRandomBlocks OTE.uninit seed (pp.width / pp.sb + 2) = some (salts, seed1) ∧
      PRG.genRandomBlocks OTE.uninit seed1 (pp.width / pp.sb + 2) = some (salts', seed2) ∧ (∀ s ∈ salts, s ∉ salts') ∧
      evaluate BH pp seed key X X.length =
        some (X.map (prfCols BH pp salts (keyCol pp key)) ++ List.replicate (pp.height - X.length) (blank BH pp), seed1) ∧
      evaluate BH pp seed1 key X X.length =
        some (X.map (prfCols BH pp salts' (keyCol pp key)) ++ List.replicate (pp.height - X.length) (blank BH pp), seed2) := by
  obtain ⟨salts, seed1, a1, a2⟩ := evaluate_spec g BH seed key hkey X hX hm
  obtain ⟨salts', seed2, b1, b2⟩ := evaluate_spec g BH seed1 key hkey X hX hm
  refine ⟨salts, salts', seed1, seed2, a1, b1, ?_, a2, b2⟩
  have c1 := a1
  rw [PRG.genRandomBlocks_spec _ rfl, Option.some.injEq, Prod.mk.injEq] at c1
  obtain ⟨rfl, rfl⟩ := c1
  have c2 := b1
  rw [PRG.genRandomBlocks_spec _ rfl, Option.some.injEq, Prod.mk.injEq] at c2
  obtain ⟨rfl, -⟩ := c2
  have hle : pp.width / pp.sb ≤ pp.width := Nat.div_le_self _ _
  have := PRG.stream_nodup seed.key hr seed.counter (pp.width / pp.sb + 2 + (pp.width / pp.sb + 2)) (by
    have h2 : (2 : Nat) ^ 64 = 16 * 2 ^ 60 := by norm_num
    generalize pp.width / pp.sb = q at *
    omega)
  rw [PRG.stream_add] at this
  intro s h1 h2
  exact (List.nodup_append.1 this).2.2 s h1 s h2 rfl

/-- Parameters of `Setup(3)`. -/
def pp3 : PP := ⟨6, 8, 8, 3, 591, 2⟩

theorem pp3_setup : setup 3 40 = some pp3 := rfl

theorem pp3_good : Good pp3 := ⟨by decide, by decide, by decide, by decide, by decide, by decide⟩

/-- A stand-in for the hash function that keeps its first 32 bytes. -/
def keep32 (b : Bytes) : Bytes := (b ++ List.replicate 32 0).take 32

def key3 : Bytes := (List.range (591 * 8)).map fun i => UInt8.ofNat (i * 37 + i / 8 * 11)

set_option maxRecDepth 20000 in
theorem bits_differ :
    colBit keep32 pp3 (PRG.stream commonSeed.key commonSeed.counter 38) (keyCol pp3 key3 1) 1 1 ≠
      colBit keep32 pp3 (PRG.stream commonSeed.key (commonSeed.counter + BitVec.ofNat 64 38) 38) (keyCol pp3 key3 1) 1 1 := by
  decide +kernel

theorem pack_bit (w : Nat) (f : Nat → Bool) (i : Nat) (h : i < w) : bit? (pack w f) i = some (f i) := by
  obtain ⟨m, e, -, b⟩ := orBits_spec (fun i => some (f i)) f w 0 (List.replicate ((w + 7) / 8) 0) (fun _ _ _ => rfl)
    (by rw [List.length_replicate]; omega)
  unfold pack
  rw [e, Option.getD_some, b, bit?_replicate _ _ _ (by omega)]
  simp [h]

/-- **C52** The same key and the same inputs evaluated twice with one parameter object give different values, so a server that calls
`Evaluate` in two pieces, or after another call, no longer agrees with the client. -/
theorem oprf_evaluate_twice_differs :
    ∃ (BH : Bytes → Bytes) (key : Bytes) (X : List Block) (o1 o2 : List Bytes) (s1 s2 : PRG.Seed), setup 3 40 = some pp3 ∧
      evaluate BH pp3 commonSeed key X X.length = some (o1, s1) ∧ evaluate BH pp3 s1 key X X.length = some (o2, s2) ∧ o1 ≠ o2 := by
  have hk : pp3.width * pp3.height ≤ key3.length := by
    unfold key3; rw [List.length_map, List.length_range]; decide
  obtain ⟨salts, seed1, a1, a2⟩ := evaluate_spec pp3_good keep32 commonSeed key3 hk [1, 2] (by decide) (by decide)
  obtain ⟨salts', seed2, b1, b2⟩ := evaluate_spec pp3_good keep32 seed1 key3 hk [1, 2] (by decide) (by decide)
  refine ⟨keep32, key3, [1, 2], _, _, _, _, pp3_setup, a2, b2, ?_⟩
  rw [PRG.genRandomBlocks_spec _ rfl, Option.some.injEq, Prod.mk.injEq] at a1
  obtain ⟨rfl, rfl⟩ := a1
  rw [PRG.genRandomBlocks_spec _ rfl, Option.some.injEq, Prod.mk.injEq] at b1
  obtain ⟨rfl, -⟩ := b1
  intro h
  have h0 := congrArg (fun l => l[0]?) h
  simp only [List.map_cons, List.cons_append, List.getElem?_cons_zero, Option.some.injEq] at h0
  apply bits_differ
  have hb : ∀ f : Nat → Bool, bit? ((keep32 (pack pp3.width f)).take pp3.range) 1 = some (f 1) := by
    intro f
    have := pack_bit pp3.width f 1 (by decide)
    unfold bit? at this ⊢
    rw [Option.map_eq_some_iff] at this
    obtain ⟨b, h1, h2⟩ := this
    have hl : 1 / 8 < (pack pp3.width f).length := (List.getElem?_eq_some_iff.1 h1).1
    rw [List.getElem?_take_of_lt (by decide)]
    unfold keep32
    rw [List.getElem?_take_of_lt (by decide), List.getElem?_append_left hl, h1, Option.map_some, h2]
  have e1 := congrArg (fun l => bit? l 1) h0
  simp only [prfCols] at e1
  rw [hb, hb, Option.some.injEq] at e1
  exact e1

/-! ### Secrets -/

/-- **C78** The server's key contains no secret of the server: whatever the random choices of a run, it is the value of a function of public
constants and the client's inputs, so the client can evaluate the PRF wherever it likes. -/
theorem oprf_client_knows_key (e : OTE.Env G) (hn : e.net.Ok) (BH : Bytes → Bytes) (g : Good pp) (seed : PRG.Seed) (sk : Nat → ℤ) (d : ℤ) (r : Nat → ℤ)
    (hb : OTE.BaseOk e pp.width CwPRF.fixedSeed sk d r) (Y : List Block) (hY : Y.length ≤ pp.height) (hm : Y.length % pp.batch = 0)
    (key : Bytes) (out : List Bytes × PRG.Seed) (h : Runs (server e pp sk) (client e BH pp seed d r Y Y.length) key out) :
    ∃ salts seed', PRG.genRandomBlocks OTE.uninit seed (pp.width / pp.sb + 2) = some (salts, seed') ∧ publicKey BH pp salts Y = some key := by
  obtain ⟨key', salts, seed', s1, -, run, hk⟩ := oprf_run e hn BH g seed sk d r hb Y hY hm
  rw [(proto_result_unique _ _ _ _ _ _ h run).1]
  exact ⟨salts, seed', s1, hk⟩

/-- **C78** Two runs with unrelated random choices give the server the same key. -/
theorem oprf_key_not_random (e : OTE.Env G) (hn : e.net.Ok) (BH : Bytes → Bytes) (g : Good pp) (seed : PRG.Seed) (sk sk' : Nat → ℤ) (d d' : ℤ)
    (r r' : Nat → ℤ) (hb : OTE.BaseOk e pp.width CwPRF.fixedSeed sk d r) (hb' : OTE.BaseOk e pp.width CwPRF.fixedSeed sk' d' r') (Y : List Block)
    (hY : Y.length ≤ pp.height) (hm : Y.length % pp.batch = 0) (key key' : Bytes) (out out' : List Bytes × PRG.Seed)
    (h : Runs (server e pp sk) (client e BH pp seed d r Y Y.length) key out)
    (h' : Runs (server e pp sk') (client e BH pp seed d' r' Y Y.length) key' out') : key = key' := by
  obtain ⟨s, x, a1, a2⟩ := oprf_client_knows_key e hn BH g seed sk d r hb Y hY hm key out h
  obtain ⟨s', x', b1, b2⟩ := oprf_client_knows_key e hn BH g seed sk' d' r' hb' Y hY hm key' out' h'
  rw [a1, Option.some.injEq, Prod.mk.injEq] at b1
  obtain ⟨rfl, -⟩ := b1
  rw [a2] at b2
  exact Option.some.inj b2

theorem byte_ones : ∀ k < 8, (255 : UInt8).toNat.testBit k = true := by decide

/-- What anybody can compute from a row sent by the client. -/
def unmask (pp : PP) (c : Nat) (B : Bytes) : Option Bytes := do
  let (K0, K1) ← clientSeeds pp.width
  let A ← prgBytes (K0.getD c 0) pp.hb
  let P ← prgBytes (K1.getD c 0) pp.hb
  PRG.xorBytes A (← PRG.xorBytes P B)

/-- **C78** Each row the client sends reveals its column of `matrix_D`, which is zero exactly at the places of the client's inputs. -/
theorem oprf_rows_reveal_inputs (g : Good pp) (BH : Bytes → Bytes) (salts Y K0 K1 : List Block) (hK : clientSeeds pp.width = some (K0, K1))
    (s : Locs) (t i : Nat) (A B : Bytes)
    (hs : ∃ r, s.rows[i]? = some r ∧ ∀ j x, Y[j]? = some x → location pp r j = some (spot BH pp salts (t * pp.sb + i) x))
    (h : clientCol pp K0 K1 s Y.length t i = some (A, B)) :
    ∃ D, unmask pp (t * pp.sb + i) B = some D ∧
      ∀ a < pp.height, bit? D a = some (decide (∀ y ∈ Y, spot BH pp salts (t * pp.sb + i) y ≠ a)) := by
  obtain ⟨r, r1, r2⟩ := hs
  obtain ⟨A', a1, a2⟩ := prgBytes_spec (K0.getD (t * pp.sb + i) 0) pp.hb
  obtain ⟨P, p1, p2⟩ := prgBytes_spec (K1.getD (t * pp.sb + i) 0) pp.hb
  obtain ⟨D, d1, d2, d3⟩ := clearBits_spec (location pp r) (fun j => spot BH pp salts (t * pp.sb + i) (Y.getD j 0)) Y.length 0
    (List.replicate pp.hb 255)
    (by intro j _ hj; exact r2 j _ (OTE.getD_of_lt Y j 0 (by omega)))
    (by intro j _ _; rw [List.length_replicate]; exact spot_lt g _ _ _ _)
  rw [List.length_replicate] at d2
  have lx : (List.zipWith (· ^^^ ·) A' D).length = pp.hb := by simp [a2, d2]
  have lb : (List.zipWith (· ^^^ ·) P (List.zipWith (· ^^^ ·) A' D)).length = pp.hb := by simp [a2, d2, p2]
  unfold clientCol colD at h
  simp only [r1, d1, a1, p1, PRG.xorBytes_spec A' D (by omega), PRG.xorBytes_spec P (List.zipWith (· ^^^ ·) A' D) (by omega), Option.bind_eq_bind,
    Option.bind_some, Option.pure_def, Option.some.injEq, Prod.mk.injEq] at h
  obtain ⟨rfl, rfl⟩ := h
  refine ⟨D, ?_, fun a ha => ?_⟩
  · unfold unmask
    simp only [hK, a1, p1, Option.bind_eq_bind, Option.bind_some]
    rw [PRG.xorBytes_spec P _ (by omega), Option.bind_some, xor_twice P _ (by omega), PRG.xorBytes_spec A' _ (by omega), xor_twice A' _ (by omega)]
  · rw [g.hb] at ha
    rw [d3, bit?_replicate _ _ _ ha, Option.map_some]
    rw [byte_ones _ (Nat.mod_lt _ (by decide)), Bool.true_and]
    refine congrArg some (decide_eq_decide.2 ?_)
    constructor
    · intro h y hy
      obtain ⟨j, hj, rfl⟩ := List.mem_iff_getElem.1 hy
      have := h j (by omega) (by omega)
      simpa [List.getD, hj] using this
    · intro h j _ hj
      have hj' : j < Y.length := by omega
      have := h Y[j] (List.getElem_mem hj')
      simpa [List.getD, hj'] using this

/-! ### Use in Private-ID -/

/-- This OPRF as a component of Private-ID, run with generator state `seed`. -/
def asOprf (e : OTE.Env G) (BH : Bytes → Bytes) (pp : PP) (seed : PRG.Seed) (sk : Nat → ℤ) (d : ℤ) (r : Nat → ℤ) : PSO.Oprf Bytes :=
  ⟨server e pp sk, fun key X => (evaluate BH pp seed key X X.length).map (·.1),
   fun Y => (client e BH pp seed d r Y Y.length).bind fun p => .done p.1⟩

/-- **C67** The OT-extension OPRF meets what Private-ID needs of an OPRF. -/
theorem oprf_for_private_id (e : OTE.Env G) (hn : e.net.Ok) (BH : Bytes → Bytes) (hB : ∀ b, (BH b).length = 32) (g : Good pp) (seed : PRG.Seed)
    (sk : Nat → ℤ) (d : ℤ) (r : Nat → ℤ) (hb : OTE.BaseOk e pp.width CwPRF.fixedSeed sk d r) (X Y : List Block) (hX : X.length ≤ pp.height)
    (hXm : X.length % pp.batch = 0) (hY : Y.length ≤ pp.height) (hYm : Y.length % pp.batch = 0) :
    ∃ F : Block → Bytes, PSO.OprfRuns (asOprf e BH pp seed sk d r) F Y X ∧ ∀ x, (F x).length = pp.range := by
  obtain ⟨key, salts, seed', s1, k1, run, -⟩ := oprf_run e hn BH g seed sk d r hb Y hY hYm
  obtain ⟨salts', seed'', s2, ev⟩ := evaluate_spec g BH seed key (by omega) X hX hXm
  rw [s1, Option.some.injEq, Prod.mk.injEq] at s2
  obtain ⟨rfl, rfl⟩ := s2
  refine ⟨prfCols BH pp salts (keyCol pp key), ⟨key, _, List.replicate (pp.height - X.length) (blank BH pp), PSO.Runs.bindR run _ rfl, ?_⟩, fun x => ?_⟩
  · show (evaluate BH pp seed key X X.length).map (·.1) = _
    rw [ev]; rfl
  · unfold prfCols
    rw [List.length_take, hB]
    have := g.range
    omega

/-! ### The hypotheses can be met -/

theorem toyBase (n : Nat) (salt : Block) : OTE.BaseOk OTE.toyEnv n salt (fun _ => 2) 3 (fun _ => 5) := by
  intro s _
  refine ⟨by decide, fun i _ => by show (5 : ℤ) • (1 : ZMod 7) ≠ 0; decide, fun i _ => ?_⟩
  unfold NPOT.pk0
  split
  · show (3 : ℤ) • (1 : ZMod 7) - (2 : ℤ) • (1 : ZMod 7) ≠ 0; decide
  · show (2 : ℤ) • (1 : ZMod 7) ≠ 0; decide

example : ∃ key outX outY seed', Runs (server OTE.toyEnv pp3 (fun _ => 2)) (client OTE.toyEnv keep32 pp3 commonSeed 3 (fun _ => 5) [5, 6, 7, 8, 9, 10] 6)
      key (outY, seed') ∧ evaluate keep32 pp3 commonSeed key [7, 1] 2 = some (outX, seed') ∧ outX[0]? = outY[2]? := by
  obtain ⟨key, outX, outY, seed', h1, h2, -, -, h3⟩ := oprf_agree_partial OTE.toyEnv toyNet_ok keep32 pp3_good commonSeed (fun _ => 2) 3 (fun _ => 5)
    (toyBase _ _) [7, 1] [5, 6, 7, 8, 9, 10] (by decide) (by decide) (by decide) (by decide)
  obtain ⟨v, v1, v2, -⟩ := h3 0 2 7 rfl rfl
  exact ⟨key, outX, outY, seed', h1, h2, by rw [v1, v2]⟩

example : evaluate keep32 pp3 commonSeed key3 [1, 2, 3] 3 = none :=
  oprf_ragged_undefined pp3_good (by decide) keep32 commonSeed key3 [1, 2, 3] (by decide)

example : ∃ F : Block → Bytes, PSO.OprfRuns (asOprf OTE.toyEnv keep32 pp3 commonSeed (fun _ => 2) 3 (fun _ => 5)) F [1, 2, 3, 4] [3, 9] ∧
    ∀ x, (F x).length = 6 :=
  oprf_for_private_id OTE.toyEnv toyNet_ok keep32 (fun b => by simp [keep32]) pp3_good commonSeed (fun _ => 2) 3 (fun _ => 5) (toyBase _ _)
    [3, 9] [1, 2, 3, 4] (by decide) (by decide) (by decide) (by decide)

end Kunlun.OTEOPRF
