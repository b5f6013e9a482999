import Verif.Model.OtExtLemmas
/-! Properties C49 and C50: the OT extensions deliver the chosen messages. -/

namespace Kunlun.OTE

open Kunlun Kunlun.Proto

variable {G : Type} [AddCommGroup G]

/-! ### Drawing -/

/-- **C49**, **C50** The pads: the column for a key transferred by base OT is AES under that key in counter mode. (With a pad that did not depend on the key, the extension
would still deliver, but would hide nothing.) -/
theorem ote_pad_counter_mode (key : Block) (n : Nat) :
    pad key n = some ((List.range n).map fun i => AES.enc (AES.genEncKey key) (Block.makeBlock 0 (BitVec.ofNat 64 i))) := by
  unfold pad
  rw [PRG.genRandomBlocks_spec uninit rfl, Option.map_some, PRG.stream]
  have : (PRG.setSeed key 0).key = AES.genEncKey key := by
    unfold PRG.setSeed
    congr 1
    simp [Block.makeBlock]
  rw [this]
  simp [PRG.setSeed]


theorem getD_of_lt {α : Type} (l : List α) (i : Nat) (x : α) (h : i < l.length) : l[i]? = some (l.getD i x) := by
  simp [List.getD, h]

theorem senderBits_spec (salt : Block) (cols : Nat) :
    ∃ s, senderBits salt cols = some s ∧ s.length = cols ∧ ∀ b ∈ s, b = 0 ∨ b = 1 := by
  obtain ⟨bs, s1, bytes, -, -, -, h4, h5⟩ := PRG.prg_bytes_bits uninit rfl (PRG.setSeed salt 0) cols
  refine ⟨bytes.map (· &&& 1), by unfold senderBits; rw [h5]; rfl, by simp [h4], ?_⟩
  intro b hb
  rw [List.mem_map] at hb
  obtain ⟨x, -, rfl⟩ := hb
  have : ∀ x : UInt8, x &&& 1 = 0 ∨ x &&& 1 = 1 := by
    intro x
    have h : (x &&& 1).toNat = x.toNat % 2 := by
      rw [UInt8.toNat_and, show (1 : UInt8).toNat = 1 from rfl, Nat.and_one_is_mod]
    rcases Nat.mod_two_eq_zero_or_one x.toNat with h2 | h2
    · left; apply UInt8.toNat_inj.1; rw [h, h2]; rfl
    · right; apply UInt8.toNat_inj.1; rw [h, h2]; rfl
  exact this x

/-- All scalars of the base OT give points the connection can carry. -/
def BaseOk (e : Env G) (cols : Nat) (salt : Block) (sk : Nat → ℤ) (d : ℤ) (r : Nat → ℤ) : Prop :=
  ∀ s, senderBits salt cols = some s → NPOT.Finite e.g d r sk s cols

/-- The sender's bits, and the base OT run the other way round. -/
theorem base_run (e : Env G) (hn : e.net.Ok) (cols : Nat) (salt : Block) (sk : Nat → ℤ) (d : ℤ) (r : Nat → ℤ) (m0 m1 : List Block)
    (h0 : m0.length = cols) (h1 : m1.length = cols) (hb : BaseOk e cols salt sk d r) :
    ∃ s K, senderBits salt cols = some s ∧ s.length = cols ∧ (∀ i < cols, s.getD i 0 = 0 ∨ s.getD i 0 = 1) ∧
      Runs (NPOT.receive e.net e.kdf e.g sk s cols) (NPOT.send e.net e.kdf e.g d r m0 m1 cols) K () ∧
      ∀ i < cols, K.getD i 0 = if s.getD i 0 = 0 then m0.getD i 0 else m1.getD i 0 := by
  obtain ⟨s, s1, s2, s3⟩ := senderBits_spec salt cols
  have s4 : ∀ i < cols, s.getD i 0 = 0 ∨ s.getD i 0 = 1 := by
    intro i hi
    have e1 : s.getD i 0 = s[i] := by simp [List.getD, s2, hi]
    rw [e1]
    exact s3 _ (List.getElem_mem _)
  refine ⟨s, _, s1, s2, s4, (NPOT.npot_run e.net hn e.kdf e.g d r sk m0 m1 s cols (by omega) (by omega) (by omega) (hb s s1)).symm, ?_⟩
  intro i hi
  rw [NPOT.getD_map_range _ _ _ _ hi]
  rcases s4 i hi with h | h <;> rw [h] <;> simp

/-! ### IKNP -/

namespace IKNP

/-- The column the sender obtains. -/
def colQ (w : Nat) (T selBlock : List Block) (ssel : Bytes) (j : Nat) : List Block :=
  if ssel.getD j 0 = 0 then row T w j else List.zipWith (· ^^^ ·) (row T w j) selBlock

theorem xor_pad (x p : List Block) (h : x.length = p.length) : (Block.xorVec x p).bind (fun c => Block.xorVec c p) = some x := by
  rw [xorVec_spec x p h, Option.bind_some, xorVec_spec _ _ (by simp [h]), xor_zipWith_cancel x p h]

theorem cols_run {α β : Type} (net : Net G) (hn : net.Ok) (w N : Nat) (T K0 K1 selBlock K : List Block) (ssel : Bytes) (n j : Nat)
    (acc : List Block) (hj : j + n = N) (hT : T.length = N * w) (hs : selBlock.length = w)
    (hK : ∀ i < N, K.getD i 0 = if ssel.getD i 0 = 0 then K0.getD i 0 else K1.getD i 0)
    {kR : List Block → Proc α} {kS : Proc β} {a : α} {b : β}
    (h : Runs (kR (acc ++ ((List.range' j n).map (colQ w T selBlock ssel)).flatten)) kS a b) :
    Runs (recvCols net w K ssel n j acc kR) (sendCols net w T K0 K1 selBlock n j kS) a b := by
  induction n generalizing j acc with
  | zero => simpa [recvCols, sendCols] using h
  | succ n ih =>
    have hrow : (row T w j).length = w := row_length T w N j (by omega) hT
    obtain ⟨p0, e0, l0⟩ := pad_spec (K0.getD j 0) w
    obtain ⟨p1, e1, l1⟩ := pad_spec (K1.getD j 0) w
    unfold recvCols sendCols encCol
    simp only [xorVec_spec (row T w j) selBlock (by omega), e0, e1, Option.bind_eq_bind, Option.bind_some, Option.pure_def,
      xorVec_spec (row T w j) p0 (by omega),
      xorVec_spec (List.zipWith (· ^^^ ·) (row T w j) selBlock) p1 (by rw [List.length_zipWith]; omega)]
    refine .blocksRL net hn (by rw [List.length_zipWith]; omega) (.blocksRL net hn (by simp only [List.length_zipWith]; omega) ?_)
    have hcol : ((pad (K.getD j 0) w).bind fun p => Block.xorVec (if ssel.getD j 0 = 0 then List.zipWith (· ^^^ ·) (row T w j) p0
        else List.zipWith (· ^^^ ·) (List.zipWith (· ^^^ ·) (row T w j) selBlock) p1) p) = some (colQ w T selBlock ssel j) := by
      rw [hK j (by omega)]
      unfold colQ
      by_cases c : ssel.getD j 0 = 0
      · simp only [c, if_true, e0, Option.bind_some]
        rw [xorVec_spec _ _ (by rw [List.length_zipWith]; omega), xor_zipWith_cancel _ _ (by omega)]
      · simp only [c, if_false, e1, Option.bind_some]
        rw [xorVec_spec _ _ (by simp only [List.length_zipWith]; omega), xor_zipWith_cancel _ _ (by rw [List.length_zipWith]; omega)]
    rw [hcol]
    apply ih (j + 1) _ (by omega)
    rwa [List.range'_succ, List.map_cons, List.flatten_cons, ← List.append_assoc] at h

/-- After `RandomSend` and `RandomReceive` the keys match. -/
theorem iknp_random (e : Env G) (hn : e.net.Ok) (cols rows : Nat) (hc : cols % 128 = 0) (hc0 : cols ≠ 0) (hr : rows % 128 = 0)
    (salt salt' : Block) (sk : Nat → ℤ) (d : ℤ) (r : Nat → ℤ) (hb : BaseOk e cols salt sk d r) (sel : Bytes) (hsel : sel.length = rows) :
    ∃ K0 K1 K, Runs (randomSend e cols salt sk rows) (randomReceive e cols salt' d r sel rows) (K0, K1) K ∧ KeysMatch K0 K1 K sel rows := by
  obtain ⟨T, s1, hT1, hT2, -⟩ := PRG.prg_bit_matrix uninit rfl (PRG.setSeed salt' 0) rows cols hr (by omega)
  obtain ⟨A, s2, hA, lA⟩ : ∃ A s2, PRG.genRandomBlocks uninit s1 cols = some (A, s2) ∧ A.length = cols :=
    ⟨_, _, PRG.genRandomBlocks_spec _ rfl _ _, by simp⟩
  obtain ⟨B, s3, hB, lB⟩ : ∃ B s3, PRG.genRandomBlocks uninit s2 cols = some (B, s3) ∧ B.length = cols :=
    ⟨_, _, PRG.genRandomBlocks_spec _ rfl _ _, by simp⟩
  have hdraw : receiverDraws salt' rows cols = some (T, A, B) := by
    unfold receiverDraws; simp only [hT1, hA, hB, Option.bind_eq_bind, Option.bind_some, Option.pure_def]
  obtain ⟨s, K, b1, b2, b3, b4, b5⟩ := base_run e hn cols salt sk d r A B lA lB hb
  obtain ⟨selBlock, f1, f2, f3⟩ := Block.block_fromSparseBytes sel (rows / 128) (by omega)
  have lT : T.length = cols * (rows / 128) := by
    obtain ⟨a, rfl⟩ : ∃ a, rows = 128 * a := ⟨rows / 128, by omega⟩
    rw [show 128 * a / 128 = a by omega]
    have : 128 * T.length = 128 * (cols * a) := by rw [hT2]; ring
    omega
  have hcq : ∀ j < cols, (colQ (rows / 128) T selBlock s j).length = rows / 128 := by
    intro j hj
    unfold colQ
    split
    · exact row_length T _ cols j hj lT
    · rw [List.length_zipWith, row_length T _ cols j hj lT, f2, Nat.min_self]
  have hall : ∀ x ∈ (List.range' 0 cols).map (colQ (rows / 128) T selBlock s), x.length = rows / 128 := by
    intro x hx
    rw [List.mem_map] at hx
    obtain ⟨j, hj, rfl⟩ := hx
    rw [List.mem_range'_1] at hj
    exact hcq j (by omega)
  have lQ : ((List.range' 0 cols).map (colQ (rows / 128) T selBlock s)).flatten.length = cols * (rows / 128) := by
    have := flatten_len _ _ hall
    rw [this]; simp
  obtain ⟨K0, K1, KR, k1, k2, k3⟩ := keys_match e.H e.stale e.stale ((List.range' 0 cols).map (colQ (rows / 128) T selBlock s)).flatten T s sel
    cols rows hc hc0 hr lQ lT b2 (by
      intro j hj i hi
      unfold bit
      have hw : i / 128 < rows / 128 := by omega
      have hlt : j * (rows / 128) + i / 128 < cols * (rows / 128) := by
        calc j * (rows / 128) + i / 128 < j * (rows / 128) + rows / 128 := by omega
          _ = (j + 1) * (rows / 128) := by ring
          _ ≤ cols * (rows / 128) := Nat.mul_le_mul_right _ hj
      have q1 : ((List.range' 0 cols).map (colQ (rows / 128) T selBlock s)).flatten.getD (j * (rows / 128) + i / 128) 0 =
          (colQ (rows / 128) T selBlock s j).getD (i / 128) 0 := by
        simp only [List.getD, flatten_getElem? _ _ _ _ hall hw, List.getElem?_map, List.getElem?_range', hj]
        simp
      have q2 : (row T (rows / 128) j).getD (i / 128) 0 = T.getD (j * (rows / 128) + i / 128) 0 := by
        simp only [row, List.getD, List.getElem?_take, List.getElem?_drop, hw, if_true]
      rw [q1, ← q2]
      unfold colQ
      rcases b3 j hj with c | c
      · simp [-List.getD_eq_getElem?_getD, c]
      · obtain ⟨x, x1, x2⟩ := f3 (i / 128) (i % 128) hw (by omega)
        rw [c, if_neg (by decide)]
        have l1 : i / 128 < (row T (rows / 128) j).length := by rw [row_length T _ cols j hj lT]; exact hw
        have : (List.zipWith (· ^^^ ·) (row T (rows / 128) j) selBlock).getD (i / 128) 0 = (row T (rows / 128) j).getD (i / 128) 0 ^^^ x := by
          simp only [List.getD, List.getElem?_zipWith, x1, List.getElem?_eq_getElem l1, Option.getD_some]
        rw [this, BitVec.getLsbD_xor]
        congr 1
        rw [Bool.eq_iff_iff, x2, show 128 * (i / 128) + i % 128 = i by omega, List.getElem?_eq_getElem (by omega)]
        simp [List.getD, show i < sel.length by omega])
  refine ⟨K0, K1, KR, ?_, k3⟩
  unfold randomSend randomReceive
  rw [b1, hdraw]
  refine Runs.bind b4 _ _ ?_
  rw [f1]
  apply cols_run e.net hn (rows / 128) cols T A B selBlock K s cols 0 [] (by omega) lT f2 b5
  rw [List.nil_append, k1, k2]
  exact .done _ _

end IKNP

/-! ### ALSZ -/

namespace ALSZ

/-- After `RandomSend` and `RandomReceive` the keys match. -/
theorem alsz_random (e : Env G) (hn : e.net.Ok) (cols rows : Nat) (hc : cols % 128 = 0) (hc0 : cols ≠ 0) (hr : rows % 128 = 0)
    (salt salt' : Block) (sk : Nat → ℤ) (d : ℤ) (r : Nat → ℤ) (hb : BaseOk e cols salt sk d r) (sel : Bytes) (hsel : sel.length = rows) :
    ∃ K0 K1 K, Runs (randomSend e cols salt sk rows) (randomReceive e cols salt' d r sel rows) (K0, K1) K ∧ KeysMatch K0 K1 K sel rows := by
  obtain ⟨A, s2, hA, lA⟩ : ∃ A s2, PRG.genRandomBlocks uninit (PRG.setSeed salt' 0) cols = some (A, s2) ∧ A.length = cols :=
    ⟨_, _, PRG.genRandomBlocks_spec _ rfl _ _, by simp⟩
  obtain ⟨B, s3, hB, lB⟩ : ∃ B s3, PRG.genRandomBlocks uninit s2 cols = some (B, s3) ∧ B.length = cols :=
    ⟨_, _, PRG.genRandomBlocks_spec _ rfl _ _, by simp⟩
  have hdraw : receiverDraws salt' cols = some (A, B) := by
    unfold receiverDraws; simp only [hA, hB, Option.bind_eq_bind, Option.bind_some, Option.pure_def]
  obtain ⟨s, K, b1, b2, b3, b4, b5⟩ := base_run e hn cols salt sk d r A B lA lB hb
  obtain ⟨selBlock, f1, f2, f3⟩ := Block.block_fromSparseBytes sel (rows / 128) (by omega)
  choose pd hp lp using fun k => pad_spec k (rows / 128)
  set w := rows / 128 with hw
  let colT : Nat → List Block := fun j => pd (A.getD j 0)
  let colU : Nat → List Block := fun j => pd (B.getD j 0)
  let colP : Nat → List Block := fun j => List.zipWith (· ^^^ ·) (List.zipWith (· ^^^ ·) (colT j) (colU j)) selBlock
  have lP : ∀ j, (colP j).length = w := by intro j; simp [colP, colT, colU, lp, f2]
  have hcols : (List.range cols).mapM (column w A B selBlock) = some ((List.range cols).map fun j => (colT j, colP j)) := by
    apply mapM_range_spec
    intro j _
    unfold column
    simp only [hp, Option.bind_eq_bind, Option.bind_some, Option.pure_def, xorVec_spec _ _ (show (pd (A.getD j 0)).length = (pd (B.getD j 0)).length by rw [lp, lp]),
      xorVec_spec (List.zipWith (· ^^^ ·) (pd (A.getD j 0)) (pd (B.getD j 0))) selBlock (by rw [List.length_zipWith, lp, lp, f2, Nat.min_self])]
    rfl
  have hexp : expand w K cols = some (((List.range cols).map fun j => pd (K.getD j 0)).flatten) := by
    unfold expand
    rw [mapM_range_spec _ (fun j => pd (K.getD j 0)) _ (fun i _ => hp _), Option.map_some]
  have wT : ∀ x ∈ (List.range cols).map colT, x.length = w := by
    intro x hx; rw [List.mem_map] at hx; obtain ⟨j, -, rfl⟩ := hx; exact lp _
  have wP : ∀ x ∈ (List.range cols).map colP, x.length = w := by
    intro x hx; rw [List.mem_map] at hx; obtain ⟨j, -, rfl⟩ := hx; exact lP _
  have wK : ∀ x ∈ (List.range cols).map (fun j => pd (K.getD j 0)), x.length = w := by
    intro x hx; rw [List.mem_map] at hx; obtain ⟨j, -, rfl⟩ := hx; exact lp _
  have lT : ((List.range cols).map colT).flatten.length = cols * w := by rw [flatten_len _ _ wT]; simp
  have lPf : ((List.range cols).map colP).flatten.length = w * cols := by rw [flatten_len _ _ wP, Nat.mul_comm]; simp
  have lK : ((List.range cols).map fun j => pd (K.getD j 0)).flatten.length = cols * w := by rw [flatten_len _ _ wK]; simp
  obtain ⟨K0, K1, KR, k1, k2, k3⟩ := keys_match e.H e.stale e.stale
    (adjust w ((List.range cols).map fun j => pd (K.getD j 0)).flatten ((List.range cols).map colP).flatten s)
    ((List.range cols).map colT).flatten s sel cols rows hc hc0 hr (by unfold adjust; rw [List.length_mapIdx, lK]) lT b2 (by
      intro j hj i hi
      unfold bit
      rw [← hw]
      have hiw : i / 128 < w := by omega
      have hg : ∀ f : Nat → List Block, (∀ x ∈ (List.range cols).map f, x.length = w) →
          ((List.range cols).map f).flatten[j * w + i / 128]? = (f j)[i / 128]? := by
        intro f hf
        rw [flatten_getElem? _ _ _ _ hf hiw, List.getElem?_map, List.getElem?_range hj]; rfl
      have hdiv : (j * w + i / 128) / w = j := by
        rw [Nat.mul_comm, Nat.mul_add_div (by omega), Nat.div_eq_of_lt hiw, Nat.add_zero]
      have hq : (adjust w ((List.range cols).map fun j => pd (K.getD j 0)).flatten ((List.range cols).map colP).flatten s).getD (j * w + i / 128) 0 =
          if s.getD j 0 = 1 then (pd (K.getD j 0)).getD (i / 128) 0 ^^^ (colP j).getD (i / 128) 0 else (pd (K.getD j 0)).getD (i / 128) 0 := by
        unfold adjust
        have hx := (hg _ wK).trans (getD_of_lt (pd (K.getD j 0)) (i / 128) 0 (by rw [lp]; exact hiw))
        have hy : ((List.range cols).map colP).flatten.getD (j * w + i / 128) 0 = (colP j).getD (i / 128) 0 := by
          simp only [List.getD, hg _ wP]
        rw [List.getD_eq_getElem?_getD, List.getElem?_mapIdx, hx, hdiv, hy]
        rfl
      have hTt : ((List.range cols).map colT).flatten.getD (j * w + i / 128) 0 = (colT j).getD (i / 128) 0 := by
        simp only [List.getD, hg _ wT]
      rw [hq, hTt, b5 j hj]
      rcases b3 j hj with c | c
      · simp [-List.getD_eq_getElem?_getD, c, colT]
      · obtain ⟨x, x1, x2⟩ := f3 (i / 128) (i % 128) hiw (by omega)
        have hP : (colP j).getD (i / 128) 0 = (colT j).getD (i / 128) 0 ^^^ (colU j).getD (i / 128) 0 ^^^ x := by
          have e1 : i / 128 < (colT j).length := by simp only [colT, lp]; exact hiw
          have e2 : i / 128 < (colU j).length := by simp only [colU, lp]; exact hiw
          simp only [colP, List.getD, List.getElem?_zipWith, x1, List.getElem?_eq_getElem e1, List.getElem?_eq_getElem e2, Option.getD_some]
        rw [c, if_pos rfl, if_neg (by decide), hP]
        have : (pd (B.getD j 0)).getD (i / 128) 0 ^^^ ((colT j).getD (i / 128) 0 ^^^ (colU j).getD (i / 128) 0 ^^^ x) =
            (colT j).getD (i / 128) 0 ^^^ x := by
          change (colU j).getD (i / 128) 0 ^^^ _ = _
          generalize (colU j).getD (i / 128) 0 = u
          generalize (colT j).getD (i / 128) 0 = t
          rw [← BitVec.xor_assoc, ← BitVec.xor_assoc, BitVec.xor_comm u t, BitVec.xor_assoc t u u, BitVec.xor_self, BitVec.xor_zero]
        rw [this, BitVec.getLsbD_xor]
        congr 1
        rw [Bool.eq_iff_iff, x2, show 128 * (i / 128) + i % 128 = i by omega, List.getElem?_eq_getElem (by omega)]
        simp [List.getD, show i < sel.length by omega])
  refine ⟨K0, K1, KR, ?_, k3⟩
  have hcheck : checkParameters rows cols = true := by simp [checkParameters, hr, hc]
  unfold randomSend randomReceive
  rw [b1, hdraw, hcheck]
  simp only [Bool.not_true, Bool.false_eq_true, if_false]
  refine Runs.bind b4 _ _ ?_
  rw [f1, Option.bind_some, ← hw, hcols, hexp]
  simp only [List.map_map]
  refine .blocksRL e.net hn ?_ ?_
  · rw [← lPf]; rfl
  · change Runs (Proc.ofOption (senderKeys e.H e.stale (adjust w _ ((List.range cols).map colP).flatten s) s cols rows))
      (Proc.ofOption (receiverKeys e.H e.stale ((List.range cols).map colT).flatten cols rows)) _ _
    rw [k1, k2]
    exact .done _ _

end ALSZ

/-! ### Payload -/

theorem checkParameters_ok {len cols : Nat} (hl : len % 128 = 0) (hc : cols % 128 = 0) : (!checkParameters len cols) = false := by
  simp [checkParameters, hl, hc]

theorem done_run {α β : Type} {a : α} {x y : β} (h : x = y) : Runs (.done a) (.done x) a y := by subst h; exact .done _ _

theorem xor_cancel (a b : Block) : a ^^^ b ^^^ b = a := by rw [BitVec.xor_assoc, BitVec.xor_self, BitVec.xor_zero]

/-- The message at each position that the bit selects. -/
def Chosen {α : Type} (sel : Bytes) (m0 m1 res : List α) (len : Nat) : Prop :=
  res.length = len ∧ ∀ i < len, res[i]? = if sel[i]? = some 0 then m0[i]? else m1[i]?

/-- The messages at the positions selected, in order. -/
def selected {α : Type} (sel : Bytes) (m : List α) : List α := (m.zip sel).filterMap fun p => if p.2 = 1 then some p.1 else none

theorem send_receive (net : Net G) (hn : net.Ok) (rs : Proc (List Block × List Block)) (rr : Proc (List Block)) (cols len : Nat)
    (hl : len % 128 = 0) (hc : cols % 128 = 0) (m0 m1 : List Block) (sel : Bytes) (h0 : m0.length = len) (h1 : m1.length = len)
    (hs : sel.length = len) (hk : ∃ K0 K1 K, Runs rs rr (K0, K1) K ∧ KeysMatch K0 K1 K sel len) :
    ∃ res, Runs (send net rs cols m0 m1 len) (receive net rr cols sel len) () res ∧ Chosen sel m0 m1 res len := by
  obtain ⟨K0, K1, K, hrun, hm⟩ := hk
  refine ⟨(List.range len).map fun i => if sel.getD i 0 = 0 then m0.getD i 0 else m1.getD i 0, ?_, by simp, ?_⟩
  · unfold send receive
    simp only [checkParameters_ok hl hc, Bool.false_eq_true, if_false]
    refine Runs.bind hrun _ _ ?_
    rw [if_neg (by omega)]
    refine .blocksLR net hn (by simp) (.blocksLR net hn (by simp) (done_run ?_))
    apply List.map_congr_left
    intro i hi
    rw [List.mem_range] at hi
    simp only [NPOT.getD_map_range _ _ _ _ hi, hm.key i hi]
    split <;> rw [xor_cancel]
  · intro i hi
    rw [getD_of_lt sel i 0 (by omega), getD_of_lt m0 i 0 (by omega), getD_of_lt m1 i 0 (by omega)]
    simp only [List.getElem?_map, List.getElem?_range, hi, Option.map_some, Option.some.injEq]
    split <;> rfl

theorem filterMap_range_zip {α : Type} (x : α) (m : List α) (sel : Bytes) (h : m.length = sel.length) :
    ((List.range sel.length).filterMap fun i => if sel.getD i 0 = 1 then some (m.getD i x) else none) = selected sel m := by
  unfold selected
  induction sel generalizing m with
  | nil => simp
  | cons b sel ih =>
    cases m with
    | nil => simp at h
    | cons y m =>
      rw [List.length_cons, List.range_succ_eq_map, List.filterMap_cons, List.filterMap_map, List.zip_cons_cons, List.filterMap_cons,
        ← ih m (by simpa using h)]
      simp only [List.getD_cons_zero]
      rfl

theorem onesided_send_receive (net : Net G) (hn : net.Ok) (rs : Proc (List Block × List Block)) (rr : Proc (List Block)) (cols len : Nat)
    (hl : len % 128 = 0) (hc : cols % 128 = 0) (m : List Block) (sel : Bytes) (h0 : m.length = len)
    (hs : sel.length = len) (hk : ∃ K0 K1 K, Runs rs rr (K0, K1) K ∧ KeysMatch K0 K1 K sel len) :
    Runs (onesidedSend net rs cols m len) (onesidedReceive net rr cols sel len) () (selected sel m) := by
  obtain ⟨K0, K1, K, hrun, hm⟩ := hk
  unfold onesidedSend onesidedReceive
  simp only [checkParameters_ok hl hc, Bool.false_eq_true, if_false]
  refine Runs.bind hrun _ _ ?_
  rw [if_neg (by omega)]
  refine .blocksLR net hn (by simp) (done_run ?_)
  rw [← filterMap_range_zip 0 m sel (by omega), hs]
  apply List.filterMap_congr
  intro i hi
  rw [List.mem_range] at hi
  by_cases c : sel.getD i 0 = 1
  · simp only [NPOT.getD_map_range _ _ _ _ hi, hm.key i hi, c, if_true]
    rw [if_neg (by decide), xor_cancel]
  · simp only [c, if_false]

/-- Encryption of a vector of equally long byte messages, position by position. -/
theorem encVec (K : List Block) (m : List Bytes) (len : Nat) (h : m.length = len) (hr : Rows m) :
    ∃ C, (List.range len).mapM (fun i => m[i]?.bind fun x => PRG.otpEnc uninit (K.getD i 0) x) = some C ∧ Rows C ∧ C.length = len ∧
      ∀ i < len, ∃ c, C[i]? = some c ∧ PRG.otpDec uninit (K.getD i 0) c = some (m.getD i []) := by
  choose c h1 h2 h3 using fun (k : Block) (x : Bytes) => PRG.otp_round_trip uninit uninit rfl rfl k x
  refine ⟨(List.range len).map fun i => c (K.getD i 0) (m.getD i []), ?_, ?_, by simp, ?_⟩
  · apply mapM_range_spec
    intro i hi
    rw [getD_of_lt m i [] (by omega), Option.bind_some, h1]
  · obtain ⟨l, r1, r2, r3, r4, r5⟩ := hr
    refine ⟨l, ?_, ?_, by simpa [h] using r3, r4, by simpa [h] using r5⟩
    · intro e
      have := congrArg List.length e
      rw [List.length_map, List.length_range, List.length_nil] at this
      exact r1 (List.length_eq_zero_iff.1 (by omega))
    · intro v hv
      rw [List.mem_map] at hv
      obtain ⟨i, hi, rfl⟩ := hv
      rw [List.mem_range] at hi
      rw [h2]
      have := getD_of_lt m i [] (by omega)
      exact r2 _ (List.mem_of_getElem? this)
  · intro i hi
    exact ⟨_, by rw [List.getElem?_map, List.getElem?_range hi]; rfl, h3 _ _⟩

theorem bytes_send_receive (net : Net G) (hn : net.Ok) (rs : Proc (List Block × List Block)) (rr : Proc (List Block)) (len : Nat)
    (m0 m1 : List Bytes) (sel : Bytes) (h0 : m0.length = len) (h1 : m1.length = len) (r0 : Rows m0) (r1 : Rows m1)
    (hs : sel.length = len) (hbit : ∀ b ∈ sel, b = 0 ∨ b = 1) (hk : ∃ K0 K1 K, Runs rs rr (K0, K1) K ∧ KeysMatch K0 K1 K sel len) :
    ∃ res, Runs (sendBytesPairs net rs m0 m1 len) (receiveBytes net rr sel len) () res ∧ Chosen sel m0 m1 res len := by
  obtain ⟨K0, K1, K, hrun, hm⟩ := hk
  obtain ⟨C0, a1, a2, a3, a4⟩ := encVec K0 m0 len h0 r0
  obtain ⟨C1, b1, b2, b3, b4⟩ := encVec K1 m1 len h1 r1
  refine ⟨(List.range len).map fun i => if sel.getD i 0 = 0 then m0.getD i [] else m1.getD i [], ?_, by simp, ?_⟩
  · unfold sendBytesPairs receiveBytes
    refine Runs.bind hrun _ _ ?_
    simp only [a1, b1]
    refine .bytesVectorLR net hn a2 (.bytesVectorLR net hn b2 ?_)
    rw [mapM_range_spec _ (fun i => if sel.getD i 0 = 0 then m0.getD i [] else m1.getD i []) len]
    · exact .done _ _
    · intro i hi
      rw [hm.key i hi]
      have hb : sel.getD i 0 = 0 ∨ sel.getD i 0 = 1 := hbit _ (List.mem_of_getElem? (getD_of_lt sel i 0 (by omega)))
      rcases hb with c | c
      · obtain ⟨x, x1, x2⟩ := a4 i hi
        rw [c, if_neg (by decide), if_pos rfl, if_pos rfl, x1, Option.bind_some, x2]
      · obtain ⟨x, x1, x2⟩ := b4 i hi
        rw [c, if_pos rfl, if_neg (by decide), if_neg (by decide), x1, Option.bind_some, x2]
  · intro i hi
    rw [getD_of_lt sel i 0 (by omega), getD_of_lt m0 i [] (by omega), getD_of_lt m1 i [] (by omega)]
    simp only [List.getElem?_map, List.getElem?_range, hi, Option.map_some, Option.some.injEq]
    split <;> rfl

theorem onesided_bytes_send_receive (net : Net G) (hn : net.Ok) (rs : Proc (List Block × List Block)) (rr : Proc (List Block)) (len : Nat)
    (m : List Bytes) (sel : Bytes) (h0 : m.length = len) (r0 : Rows m) (hs : sel.length = len)
    (hk : ∃ K0 K1 K, Runs rs rr (K0, K1) K ∧ KeysMatch K0 K1 K sel len) :
    Runs (onesidedSendBytes net rs m len) (onesidedReceiveBytes net rr sel len) () (selected sel m) := by
  obtain ⟨K0, K1, K, hrun, hm⟩ := hk
  obtain ⟨C, a1, a2, a3, a4⟩ := encVec K1 m len h0 r0
  unfold onesidedSendBytes onesidedReceiveBytes
  refine Runs.bind hrun _ _ ?_
  simp only [a1]
  refine .bytesVectorLR net hn a2 ?_
  rw [mapM_range_spec _ (fun i => if sel.getD i 0 = 1 then some (m.getD i []) else none) len]
  · refine done_run ?_
    change List.filterMap id _ = _
    rw [List.filterMap_map, ← filterMap_range_zip [] m sel (by omega), hs]
    rfl
  · intro i hi
    by_cases c : sel.getD i 0 = 1
    · obtain ⟨x, x1, x2⟩ := a4 i hi
      rw [hm.key i hi, c, if_pos rfl, if_neg (by decide), if_pos rfl, x1, Option.bind_some, x2, Option.map_some]
    · rw [if_neg c, if_neg c]

/-! ### The properties -/

/-- **C49** IKNP: for every extension length and base length that are multiples of 128, all messages, selection bytes, salts and scalars,
and every interleaving (`proto_result_unique`), the receiver ends with `m0[i]` where its byte is 0 and with `m1[i]` elsewhere. -/
theorem iknp_correct (e : Env G) (hn : e.net.Ok) (cols len : Nat) (hc : cols % 128 = 0) (hc0 : cols ≠ 0) (hl : len % 128 = 0)
    (salt salt' : Block) (sk : Nat → ℤ) (d : ℤ) (r : Nat → ℤ) (hb : BaseOk e cols salt sk d r) (m0 m1 : List Block) (sel : Bytes)
    (h0 : m0.length = len) (h1 : m1.length = len) (hs : sel.length = len) :
    ∃ res, Runs (send e.net (IKNP.randomSend e cols salt sk len) cols m0 m1 len)
      (receive e.net (IKNP.randomReceive e cols salt' d r sel len) cols sel len) () res ∧ Chosen sel m0 m1 res len :=
  send_receive e.net hn _ _ cols len hl hc m0 m1 sel h0 h1 hs (IKNP.iknp_random e hn cols len hc hc0 hl salt salt' sk d r hb sel hs)

/-- **C49** IKNP, one-sided: the receiver ends with exactly the messages at the positions whose byte is 1, in order. -/
theorem iknp_onesided (e : Env G) (hn : e.net.Ok) (cols len : Nat) (hc : cols % 128 = 0) (hc0 : cols ≠ 0) (hl : len % 128 = 0)
    (salt salt' : Block) (sk : Nat → ℤ) (d : ℤ) (r : Nat → ℤ) (hb : BaseOk e cols salt sk d r) (m : List Block) (sel : Bytes)
    (h0 : m.length = len) (hs : sel.length = len) :
    Runs (onesidedSend e.net (IKNP.randomSend e cols salt sk len) cols m len)
      (onesidedReceive e.net (IKNP.randomReceive e cols salt' d r sel len) cols sel len) () (selected sel m) :=
  onesided_send_receive e.net hn _ _ cols len hl hc m sel h0 hs (IKNP.iknp_random e hn cols len hc hc0 hl salt salt' sk d r hb sel hs)

/-- **C50** ALSZ, as C49. -/
theorem alsz_correct (e : Env G) (hn : e.net.Ok) (cols len : Nat) (hc : cols % 128 = 0) (hc0 : cols ≠ 0) (hl : len % 128 = 0)
    (salt salt' : Block) (sk : Nat → ℤ) (d : ℤ) (r : Nat → ℤ) (hb : BaseOk e cols salt sk d r) (m0 m1 : List Block) (sel : Bytes)
    (h0 : m0.length = len) (h1 : m1.length = len) (hs : sel.length = len) :
    ∃ res, Runs (send e.net (ALSZ.randomSend e cols salt sk len) cols m0 m1 len)
      (receive e.net (ALSZ.randomReceive e cols salt' d r sel len) cols sel len) () res ∧ Chosen sel m0 m1 res len :=
  send_receive e.net hn _ _ cols len hl hc m0 m1 sel h0 h1 hs (ALSZ.alsz_random e hn cols len hc hc0 hl salt salt' sk d r hb sel hs)

/-- **C50** ALSZ, one-sided. -/
theorem alsz_onesided (e : Env G) (hn : e.net.Ok) (cols len : Nat) (hc : cols % 128 = 0) (hc0 : cols ≠ 0) (hl : len % 128 = 0)
    (salt salt' : Block) (sk : Nat → ℤ) (d : ℤ) (r : Nat → ℤ) (hb : BaseOk e cols salt sk d r) (m : List Block) (sel : Bytes)
    (h0 : m.length = len) (hs : sel.length = len) :
    Runs (onesidedSend e.net (ALSZ.randomSend e cols salt sk len) cols m len)
      (onesidedReceive e.net (ALSZ.randomReceive e cols salt' d r sel len) cols sel len) () (selected sel m) :=
  onesided_send_receive e.net hn _ _ cols len hl hc m sel h0 hs (ALSZ.alsz_random e hn cols len hc hc0 hl salt salt' sk d r hb sel hs)

/-- **C50** ALSZ with byte strings as messages (equally long, as the channel requires). -/
theorem alsz_bytes (e : Env G) (hn : e.net.Ok) (cols len : Nat) (hc : cols % 128 = 0) (hc0 : cols ≠ 0) (hl : len % 128 = 0)
    (salt salt' : Block) (sk : Nat → ℤ) (d : ℤ) (r : Nat → ℤ) (hb : BaseOk e cols salt sk d r) (m0 m1 : List Bytes) (sel : Bytes)
    (h0 : m0.length = len) (h1 : m1.length = len) (r0 : Rows m0) (r1 : Rows m1) (hs : sel.length = len) (hbit : ∀ b ∈ sel, b = 0 ∨ b = 1) :
    ∃ res, Runs (sendBytesPairs e.net (ALSZ.randomSend e cols salt sk len) m0 m1 len)
      (receiveBytes e.net (ALSZ.randomReceive e cols salt' d r sel len) sel len) () res ∧ Chosen sel m0 m1 res len :=
  bytes_send_receive e.net hn _ _ len m0 m1 sel h0 h1 r0 r1 hs hbit (ALSZ.alsz_random e hn cols len hc hc0 hl salt salt' sk d r hb sel hs)

/-- **C50** ALSZ with byte strings, one-sided. -/
theorem alsz_onesided_bytes (e : Env G) (hn : e.net.Ok) (cols len : Nat) (hc : cols % 128 = 0) (hc0 : cols ≠ 0) (hl : len % 128 = 0)
    (salt salt' : Block) (sk : Nat → ℤ) (d : ℤ) (r : Nat → ℤ) (hb : BaseOk e cols salt sk d r) (m : List Bytes) (sel : Bytes)
    (h0 : m.length = len) (r0 : Rows m) (hs : sel.length = len) :
    Runs (onesidedSendBytes e.net (ALSZ.randomSend e cols salt sk len) m len)
      (onesidedReceiveBytes e.net (ALSZ.randomReceive e cols salt' d r sel len) sel len) () (selected sel m) :=
  onesided_bytes_send_receive e.net hn _ _ len m sel h0 r0 hs (ALSZ.alsz_random e hn cols len hc hc0 hl salt salt' sk d r hb sel hs)

/-- A length that is not a multiple of 128 stops both parties. -/
theorem ote_bad_length (net : Net G) (rs : Proc (List Block × List Block)) (rr : Proc (List Block)) (cols len : Nat) (m0 m1 : List Block)
    (sel : Bytes) (hl : len % 128 ≠ 0) : send net rs cols m0 m1 len = .fail ∧ receive net rr cols sel len = .fail := by
  simp [send, receive, checkParameters, hl]

/-- So does a number of base transfers that is not a multiple of 128. -/
theorem ote_bad_base (net : Net G) (rs : Proc (List Block × List Block)) (rr : Proc (List Block)) (cols len : Nat) (m0 m1 : List Block)
    (sel : Bytes) (hc : cols % 128 ≠ 0) : send net rs cols m0 m1 len = .fail ∧ receive net rr cols sel len = .fail := by
  simp [send, receive, checkParameters, hc]

/-- A toy environment in which every theorem above applies: 128 base transfers, 256 extended ones. -/
def toyEnv : Env (ZMod 7) := ⟨toyNet, fun p => BitVec.ofNat 128 p.val, fun l => l.foldl (· + ·) 0, 1, fun _ => 0⟩

theorem toyEnv_base (salt : Block) : BaseOk toyEnv 128 salt (fun _ => 2) 3 (fun _ => 5) := by
  intro s _
  refine ⟨by decide, fun i _ => by show (5 : ℤ) • (1 : ZMod 7) ≠ 0; decide, fun i _ => ?_⟩
  unfold NPOT.pk0
  split
  · show (3 : ℤ) • (1 : ZMod 7) - (2 : ℤ) • (1 : ZMod 7) ≠ 0; decide
  · show (2 : ℤ) • (1 : ZMod 7) ≠ 0; decide

example (sel : Bytes) (hs : sel.length = 256) :
    ∃ res, Runs (send toyNet (IKNP.randomSend toyEnv 128 77 (fun _ => 2) 256) 128 ((List.range 256).map (BitVec.ofNat 128)) (List.replicate 256 9) 256)
      (receive toyNet (IKNP.randomReceive toyEnv 128 78 3 (fun _ => 5) sel 256) 128 sel 256) () res ∧
      Chosen sel ((List.range 256).map (BitVec.ofNat 128)) (List.replicate 256 9) res 256 :=
  iknp_correct toyEnv toyNet_ok 128 256 rfl (by decide) rfl 77 78 _ 3 _ (toyEnv_base 77) _ _ sel
    (by rw [List.length_map, List.length_range]) List.length_replicate hs

example (sel : Bytes) (hs : sel.length = 256) :
    Runs (onesidedSendBytes toyNet (ALSZ.randomSend toyEnv 128 77 (fun _ => 2) 256) (List.replicate 256 [1, 2, 3]) 256)
      (onesidedReceiveBytes toyNet (ALSZ.randomReceive toyEnv 128 78 3 (fun _ => 5) sel 256) sel 256) () (selected sel (List.replicate 256 [1, 2, 3])) :=
  alsz_onesided_bytes toyEnv toyNet_ok 128 256 rfl (by decide) rfl 77 78 _ 3 _ (toyEnv_base 77) _ sel List.length_replicate
    ⟨3, by rw [ne_eq, List.replicate_eq_nil_iff]; decide, fun v hv => by rw [List.eq_of_mem_replicate hv]; rfl,
      by rw [List.length_replicate]; decide, by decide, by rw [List.length_replicate]; decide⟩ hs

end Kunlun.OTE
