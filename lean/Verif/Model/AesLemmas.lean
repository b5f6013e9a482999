import Verif.Model.Aes
/-! Lemmas about the AES model. -/

namespace Kunlun.AES

open Kunlun

theorem invSbox_sbox (b : BitVec 8) : invSbox (sbox b) = b := by
  have h : ∀ n : Fin 256, invSbox (sbox (BitVec.ofNat 8 n)) = BitVec.ofNat 8 n := by decide +kernel
  have := h ⟨b.toNat, b.isLt⟩
  simpa using this

theorem xor_cancel_left {n : Nat} (a b : BitVec n) : a ^^^ (a ^^^ b) = b := by
  rw [← BitVec.xor_assoc, BitVec.xor_self, BitVec.zero_xor]

theorem xor_left_comm' {n : Nat} (a b c : BitVec n) : a ^^^ (b ^^^ c) = b ^^^ (a ^^^ c) := by
  rw [← BitVec.xor_assoc, BitVec.xor_comm a b, BitVec.xor_assoc]

theorem xtime_xor (a b : BitVec 8) : xtime (a ^^^ b) = xtime a ^^^ xtime b := by
  unfold xtime
  rw [BitVec.shiftLeft_xor_distrib, BitVec.msb_xor]
  cases a.msb <;> cases b.msb <;> simp [BitVec.xor_assoc, BitVec.xor_comm, xor_left_comm', xor_cancel_left]

theorem mix_identity (a0 a1 a2 a3 : BitVec 8) :
    mul14 (xtime a0 ^^^ (xtime a1 ^^^ a1) ^^^ a2 ^^^ a3) ^^^ mul11 (xtime a1 ^^^ (xtime a2 ^^^ a2) ^^^ a3 ^^^ a0) ^^^
      mul13 (xtime a2 ^^^ (xtime a3 ^^^ a3) ^^^ a0 ^^^ a1) ^^^ mul9 (xtime a3 ^^^ (xtime a0 ^^^ a0) ^^^ a1 ^^^ a2) = a0 := by
  simp only [mul14, mul11, mul13, mul9, xtime_xor]
  generalize xtime (xtime (xtime (xtime a0))) = x04
  generalize xtime (xtime (xtime a0)) = x03
  generalize xtime (xtime a0) = x02
  generalize xtime a0 = x01
  generalize xtime (xtime (xtime (xtime a1))) = x14
  generalize xtime (xtime (xtime a1)) = x13
  generalize xtime (xtime a1) = x12
  generalize xtime a1 = x11
  generalize xtime (xtime (xtime (xtime a2))) = x24
  generalize xtime (xtime (xtime a2)) = x23
  generalize xtime (xtime a2) = x22
  generalize xtime a2 = x21
  generalize xtime (xtime (xtime (xtime a3))) = x34
  generalize xtime (xtime (xtime a3)) = x33
  generalize xtime (xtime a3) = x32
  generalize xtime a3 = x31
  simp only [BitVec.xor_assoc, BitVec.xor_comm, xor_left_comm', xor_cancel_left, BitVec.xor_self, BitVec.xor_zero]

theorem below_lt (i k : Nat) (h : i < 16) : below i k < 16 := by unfold below; omega

theorem below_below (i j k : Nat) : below (below i j) k = below i (j + k) := by unfold below; omega

theorem below_mod (i k : Nat) : below i (k + 4) = below i k := by unfold below; omega

theorem below_zero (i : Nat) : below i 0 = i := by unfold below; omega

theorem invMix_mix (a : Block) : invMixColumns (mixColumns a) = a := by
  apply Block.eq_of_lanes
  intro i hi
  unfold invMixColumns
  rw [Block.lane_ofLanes _ _ hi]
  unfold mixColumns
  simp only [Block.lane_ofLanes _ _ (below_lt i _ hi), below_below]
  have := mix_identity (Block.lane a (below i 0)) (Block.lane a (below i 1)) (Block.lane a (below i 2)) (Block.lane a (below i 3))
  simp only [Nat.reduceAdd] at this ⊢
  rw [show (4 : Nat) = 0 + 4 from rfl, show (5 : Nat) = 1 + 4 from rfl, show (6 : Nat) = 2 + 4 from rfl]
  simp only [below_mod]
  rw [this, below_zero]

theorem lane_xor (a b : Block) (i : Nat) : Block.lane (a ^^^ b) i = Block.lane a i ^^^ Block.lane b i := by
  apply BitVec.eq_of_getLsbD_eq
  intro k hk
  rw [BitVec.getLsbD_xor, Block.getLsbD_lane _ _ _ hk, Block.getLsbD_lane _ _ _ hk, Block.getLsbD_lane _ _ _ hk, BitVec.getLsbD_xor]

theorem mul_xor (a b : BitVec 8) : mul14 (a ^^^ b) = mul14 a ^^^ mul14 b ∧ mul11 (a ^^^ b) = mul11 a ^^^ mul11 b ∧
    mul13 (a ^^^ b) = mul13 a ^^^ mul13 b ∧ mul9 (a ^^^ b) = mul9 a ^^^ mul9 b := by
  simp only [mul14, mul11, mul13, mul9, xtime_xor]
  simp only [BitVec.xor_assoc, BitVec.xor_comm, xor_left_comm', and_self]

theorem invMix_xor (a b : Block) : invMixColumns (a ^^^ b) = invMixColumns a ^^^ invMixColumns b := by
  apply Block.eq_of_lanes
  intro i hi
  rw [lane_xor]
  unfold invMixColumns
  simp only [Block.lane_ofLanes _ _ hi, lane_xor, (mul_xor _ _).1, (mul_xor _ _).2.1, (mul_xor _ _).2.2.1, (mul_xor _ _).2.2.2]
  generalize mul14 _ = a1
  generalize mul14 _ = a2
  generalize mul11 _ = b1
  generalize mul11 _ = b2
  generalize mul13 _ = c1
  generalize mul13 _ = c2
  generalize mul9 _ = d1
  generalize mul9 _ = d2
  simp only [BitVec.xor_assoc, BitVec.xor_comm, xor_left_comm']

theorem invSub_sub (a : Block) : invSubBytes (subBytes a) = a := by
  apply Block.eq_of_lanes
  intro i hi
  unfold invSubBytes subBytes
  rw [Block.lane_ofLanes _ _ hi, Block.lane_ofLanes _ _ hi, invSbox_sbox]

/-- The inverse order used by the decryption instruction. -/
theorem inv_sub_shift (a : Block) : invSubBytes (invShiftRows (subBytes (shiftRows a))) = a := by
  apply Block.eq_of_lanes
  intro i hi
  unfold invSubBytes invShiftRows
  rw [Block.lane_ofLanes _ _ hi, Block.lane_ofLanes _ _ hi]
  unfold subBytes
  rw [Block.lane_ofLanes _ _ (Nat.mod_lt _ (by omega)), invSbox_sbox]
  unfold shiftRows
  rw [Block.lane_ofLanes _ _ (Nat.mod_lt _ (by omega))]
  congr 1
  omega

theorem encRounds_snoc (rk : Nat → Block) (j n : Nat) (d : Block) :
    encRounds rk j (n + 1) d = aesenc (encRounds rk j n d) (rk (j + n)) := by
  induction n generalizing j d with
  | zero => rfl
  | succ n ih =>
    rw [encRounds, ih]
    rw [encRounds]
    congr 2
    omega

/-- Decryption rounds undo encryption rounds, both seen "between" the key additions. -/
theorem decRounds_encRounds (k : Key) (n : Nat) (hn : n + 1 ≤ k.rounds) (x0 : Block) :
    decRounds (deriveDecKey k).roundkey (k.rounds - n) n (subBytes (shiftRows (encRounds k.roundkey 1 n x0))) =
      subBytes (shiftRows x0) := by
  induction n with
  | zero => rfl
  | succ n ih =>
    rw [encRounds_snoc, decRounds]
    have hk : (deriveDecKey k).roundkey (k.rounds - (n + 1)) = aesimc (k.roundkey (n + 1)) := by
      unfold deriveDecKey
      simp only
      rw [if_neg (by omega), if_neg (by omega)]
      congr 2; omega
    rw [hk]
    unfold aesdec
    rw [inv_sub_shift]
    unfold aesenc aesimc
    rw [invMix_xor, invMix_mix, show 1 + n = n + 1 by omega, BitVec.xor_assoc, BitVec.xor_self, BitVec.xor_zero,
      show k.rounds - (n + 1) + 1 = k.rounds - n by omega]
    exact ih (by omega)

theorem dec_enc (k : Key) (hk : 1 ≤ k.rounds) (d : Block) : dec (deriveDecKey k) (enc k d) = d := by
  unfold dec enc
  have hr : (deriveDecKey k).rounds = k.rounds := rfl
  have h0 : (deriveDecKey k).roundkey 0 = k.roundkey k.rounds := by
    unfold deriveDecKey; show (if _ then _ else if _ then _ else _) = _; rw [if_neg (by omega), if_pos rfl]
  have hl : (deriveDecKey k).roundkey k.rounds = k.roundkey 0 := by
    unfold deriveDecKey; show (if _ then _ else if _ then _ else _) = _; rw [if_pos rfl]
  rw [hr, h0, hl]
  have := decRounds_encRounds k (k.rounds - 1) (by omega) (d ^^^ k.roundkey 0)
  rw [show k.rounds - (k.rounds - 1) = 1 by omega] at this
  have e : aesenclast (encRounds k.roundkey 1 (k.rounds - 1) (d ^^^ k.roundkey 0)) (k.roundkey k.rounds) ^^^ k.roundkey k.rounds =
      subBytes (shiftRows (encRounds k.roundkey 1 (k.rounds - 1) (d ^^^ k.roundkey 0))) := by
    unfold aesenclast
    rw [BitVec.xor_assoc, BitVec.xor_self, BitVec.xor_zero]
  rw [e, this]
  unfold aesdeclast
  rw [inv_sub_shift, BitVec.xor_assoc, BitVec.xor_self, BitVec.xor_zero]

theorem enc_injective (k : Key) (hk : 1 ≤ k.rounds) {a b : Block} (h : enc k a = enc k b) : a = b := by
  rw [← dec_enc k hk a, h, dec_enc k hk b]

/-! loops -/

theorem setAt_some {m : List Block} {i : Nat} {b : Block} (h : i < m.length) : setAt m i b = some (m.set i b) := by simp [setAt, h]

theorem mapLoop_spec (f : Block → Block) (i n : Nat) (m : List Block) (h : i + n ≤ m.length) :
    ∃ r, mapLoop f i n m = some r ∧ r.length = m.length ∧
      ∀ j : Nat, r[j]? = if i ≤ j ∧ j < i + n then (m[j]?).map f else m[j]? := by
  induction n generalizing i m with
  | zero => exact ⟨m, rfl, rfl, fun j => by rw [if_neg (by omega)]⟩
  | succ n ih =>
    have hi : i < m.length := by omega
    obtain ⟨r, e, l, g⟩ := ih (i + 1) (m.set i (f m[i])) (by simp; omega)
    refine ⟨r, ?_, by rw [l]; simp, fun j => ?_⟩
    · rw [mapLoop, List.getElem?_eq_getElem hi, Option.bind_some, setAt_some hi, Option.bind_some, e]
    · rw [g, List.getElem?_set]
      by_cases he : i = j
      · subst he
        rw [if_neg (by omega), if_pos rfl, if_pos hi, if_pos (by omega), List.getElem?_eq_getElem hi]; rfl
      · rw [if_neg he]
        by_cases h2 : i + 1 ≤ j ∧ j < i + 1 + n
        · rw [if_pos h2, if_pos (by omega)]
        · rw [if_neg h2, if_neg (by omega)]

theorem mapLoop_all (f : Block → Block) (m : List Block) : mapLoop f 0 m.length m = some (m.map f) := by
  obtain ⟨r, e, l, g⟩ := mapLoop_spec f 0 m.length m (by omega)
  rw [e]
  congr 1
  apply List.ext_getElem?
  intro j
  rw [g, List.getElem?_map]
  by_cases h : j < m.length
  · rw [if_pos (by omega)]
  · rw [if_neg (by omega), List.getElem?_eq_none (by omega)]; rfl

theorem batchRounds_eq (rk : Nat → Block) (j n : Nat) (t : List Block) : batchRounds rk j n t = t.map (encRounds rk j n) := by
  induction n generalizing j t with
  | zero => simp [batchRounds, encRounds]
  | succ n ih => simp [batchRounds, encRounds, ih, Function.comp_def]

/-- What an encryption of positions `< i` leaves behind. -/
structure Prefix (k : Key) (b0 b : Bufs) (i : Nat) : Prop where
  alias : b.inPlace = b0.inPlace
  src : b.src = b0.src
  len : b.dst.length = b0.dst.length
  done : ∀ j : Nat, j < i → b.dst[j]? = (b0.read j).map (enc k)
  rest : ∀ j : Nat, i ≤ j → b.dst[j]? = b0.dst[j]?

theorem Prefix.read {k : Key} {b0 b : Bufs} {i : Nat} (h : Prefix k b0 b i) (j : Nat) (hj : i ≤ j) : b.read j = b0.read j := by
  unfold Bufs.read
  rw [h.alias, h.src, h.rest j hj]

theorem Prefix.write {k : Key} {b0 b : Bufs} {i : Nat} (h : Prefix k b0 b i) (p : Block) (hp : b0.read i = some p)
    (hi : i < b0.dst.length) : ∃ b', b.write i (enc k p) = some b' ∧ Prefix k b0 b' (i + 1) := by
  have hl : i < b.dst.length := by rw [h.len]; exact hi
  refine ⟨{ b with dst := b.dst.set i (enc k p) }, by simp [Bufs.write, setAt, hl], ⟨h.alias, h.src, by simp [h.len], ?_, ?_⟩⟩
  · intro j hj
    simp only [List.getElem?_set]
    by_cases he : i = j
    · subst he
      rw [if_pos rfl, if_pos hl, hp]; rfl
    · rw [if_neg he]; exact h.done j (by omega)
  · intro j hj
    simp only [List.getElem?_set]
    rw [if_neg (by omega)]
    exact h.rest j (by omega)

theorem Prefix.writes {k : Key} {b0 : Bufs} (ps : List Block) {b : Bufs} {i : Nat} (h : Prefix k b0 b i)
    (hp : ∀ j : Nat, j < ps.length → b0.read (i + j) = ps[j]?) (hi : i + ps.length ≤ b0.dst.length) :
    ∃ b', b.writes i (ps.map (enc k)) = some b' ∧ Prefix k b0 b' (i + ps.length) := by
  induction ps generalizing b i with
  | nil => exact ⟨b, rfl, h⟩
  | cons p ps ih =>
    obtain ⟨b1, e1, h1⟩ := h.write p (by simpa using hp 0 (by simp)) (by simp at hi; omega)
    obtain ⟨b2, e2, h2⟩ := ih h1 (by
      intro j hj
      have := hp (j + 1) (by simpa using hj)
      rw [show i + 1 + j = i + (j + 1) by omega, this]; simp) (by simp at hi; omega)
    refine ⟨b2, by simp [Bufs.writes, e1, e2], ?_⟩
    rw [show i + (p :: ps).length = i + 1 + ps.length by simp; omega]
    exact h2

theorem read_range {b : Bufs} {n : Nat} (f : Block → Block) (i : Nat) (h : ∀ j < n, ∃ p, b.read (i + j) = some p) :
    ∃ ps : List Block, ps.length = n ∧ ((List.range n).mapM fun j => (b.read (i + j)).map f) = some (ps.map f) ∧
      ∀ j : Nat, j < n → b.read (i + j) = ps[j]? := by
  refine ⟨(List.range n).map (fun j => (b.read (i + j)).getD 0), by simp, ?_, ?_⟩
  · have gen : ∀ l : List Nat, (∀ j ∈ l, j < n) → (l.mapM fun j => (b.read (i + j)).map f) =
        some ((l.map fun j => (b.read (i + j)).getD 0).map f) := by
      intro l
      induction l with
      | nil => intro _; rfl
      | cons a l ih =>
        intro hl
        obtain ⟨p, hp⟩ := h a (hl a (by simp))
        rw [List.mapM_cons, ih fun k hk => hl k (by simp [hk])]
        simp [hp]
    exact gen _ (by simp)
  · intro j hj
    obtain ⟨p, hp⟩ := h j hj
    simp [hj, hp]

theorem fastBatch_spec {k : Key} {b0 b : Bufs} {i : Nat} (h : Prefix k b0 b i) (hr : ∀ j < 8, ∃ p, b0.read (i + j) = some p)
    (hi : i + 8 ≤ b0.dst.length) : ∃ b', fastBatch k b i = some b' ∧ Prefix k b0 b' (i + 8) := by
  have hread : ∀ j, b.read (i + j) = b0.read (i + j) := fun j => h.read (i + j) (by omega)
  obtain ⟨ps, hlen, hm, hps⟩ := read_range (b := b) (n := 8) (· ^^^ k.roundkey 0) i (fun j hj => by rw [hread]; exact hr j hj)
  unfold fastBatch
  rw [hm, Option.bind_some, batchRounds_eq]
  rw [List.map_map, List.map_map]
  have : (((fun d => aesenclast d (k.roundkey k.rounds)) ∘ encRounds k.roundkey 1 (k.rounds - 1)) ∘ fun x => x ^^^ k.roundkey 0) = enc k := by
    funext d; rfl
  rw [this]
  have := h.writes ps (fun j hj => by rw [← hread]; exact hps j (by omega)) (by omega)
  rwa [hlen] at this

theorem fastTail_spec {k : Key} {b0 b : Bufs} {i : Nat} (h : Prefix k b0 b i) (hr : ∃ p, b0.read i = some p)
    (hi : i + 1 ≤ b0.dst.length) : ∃ b', fastTail k b i = some b' ∧ Prefix k b0 b' (i + 1) := by
  obtain ⟨p, hp⟩ := hr
  unfold fastTail
  rw [h.read i (Nat.le_refl _), hp, Option.bind_some]
  exact h.write p hp (by omega)

theorem strideLoop_spec {k : Key} {b0 : Bufs} {f : Bufs → Nat → Option Bufs} {s N : Nat}
    (hf : ∀ b i, i + s ≤ N → Prefix k b0 b i → ∃ b', f b i = some b' ∧ Prefix k b0 b' (i + s)) (n i : Nat) (b : Bufs)
    (hn : i + n * s ≤ N) (h : Prefix k b0 b i) : ∃ b', strideLoop f s i n b = some b' ∧ Prefix k b0 b' (i + n * s) := by
  induction n generalizing i b with
  | zero => exact ⟨b, rfl, by simpa using h⟩
  | succ n ih =>
    rw [Nat.succ_mul] at hn
    obtain ⟨b1, e1, h1⟩ := hf b i (by omega) h
    obtain ⟨b2, e2, h2⟩ := ih (i + s) b1 (by omega) h1
    refine ⟨b2, by simp [strideLoop, e1, e2], ?_⟩
    rw [Nat.succ_mul, show i + (n * s + s) = i + s + n * s by omega]
    exact h2

theorem fastECBEnc_prefix (k : Key) (b : Bufs) (n : Nat) (hr : ∀ j < n, ∃ p, b.read j = some p) (hd : n ≤ b.dst.length) :
    ∃ b', fastECBEnc k b n = some b' ∧ Prefix k b b' n := by
  have h0 : Prefix k b b 0 := ⟨rfl, rfl, rfl, fun j hj => by omega, fun _ _ => rfl⟩
  obtain ⟨b1, e1, h1⟩ := strideLoop_spec (f := fastBatch k) (s := 8) (N := n)
    (fun b' i hi h => fastBatch_spec h (fun j hj => hr (i + j) (by omega)) (by omega)) (n / 8) 0 b (by omega) h0
  obtain ⟨b2, e2, h2⟩ := strideLoop_spec (f := fastTail k) (s := 1) (N := n)
    (fun b' i hi h => fastTail_spec h (hr i (by omega)) (by omega)) (n % 8) (n - n % 8) b1 (by omega) (by
      have : 0 + n / 8 * 8 = n - n % 8 := by omega
      rwa [this] at h1)
  refine ⟨b2, by simp [fastECBEnc, e1, e2], ?_⟩
  rwa [show n - n % 8 + n % 8 * 1 = n by omega] at h2

/-! CBC -/

theorem cbcEncLoop_length (k : Key) (p : Block) (ds : List Block) : (cbcEncLoop k p ds).length = ds.length := by
  induction ds generalizing p with
  | nil => rfl
  | cons d ds ih => simp [cbcEncLoop, ih]

/-- The first ciphertext block, and each later one, in terms of its predecessor. -/
theorem cbcEncLoop_getElem (k : Key) (p : Block) (ds : List Block) (i : Nat) (hi : i < ds.length) :
    (cbcEncLoop k p ds).getD i 0 = enc k (ds.getD i 0 ^^^ (if i = 0 then p else (cbcEncLoop k p ds).getD (i - 1) 0)) := by
  induction ds generalizing p i with
  | nil => simp at hi
  | cons d ds ih =>
    cases i with
    | zero => simp [cbcEncLoop]
    | succ i =>
      have := ih (enc k (d ^^^ p)) i (by simpa using hi)
      simp only [cbcEncLoop, List.getD_cons_succ, this]
      congr 2
      cases i with
      | zero => simp
      | succ i => simp

theorem cbcDecLoop_spec (k : Key) (n : Nat) (m : List Block) (h : n < m.length) :
    (cbcDecLoop k n m).length = m.length ∧ ∀ j, (cbcDecLoop k n m).getD j 0 =
      if 1 ≤ j ∧ j ≤ n then dec k (m.getD j 0) ^^^ m.getD (j - 1) 0 else m.getD j 0 := by
  induction n generalizing m with
  | zero => exact ⟨rfl, fun j => by rw [if_neg (by omega)]; rfl⟩
  | succ n ih =>
    obtain ⟨h1, h2⟩ := ih (m.set (n + 1) (dec k (m.getD (n + 1) 0) ^^^ m.getD n 0)) (by simp; omega)
    refine ⟨by rw [cbcDecLoop, h1]; simp, fun j => ?_⟩
    rw [cbcDecLoop, h2]
    by_cases hj : 1 ≤ j ∧ j ≤ n
    · rw [if_pos hj, if_pos (by omega)]
      simp only [List.getD, List.getElem?_set]
      rw [if_neg (by omega), if_neg (by omega)]
    · rw [if_neg hj]
      by_cases hj2 : j = n + 1
      · subst hj2
        rw [if_pos (by omega)]
        simp [List.getD, h]
      · rw [if_neg (by omega)]
        simp only [List.getD, List.getElem?_set]
        rw [if_neg (by omega)]

end Kunlun.AES
