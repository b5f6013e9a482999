import Verif.Props.RrPke
import Verif.Props.BaxosSolves
import Verif.Model.RrPkeWitness
import Verif.Model.ProtoNever
/-!
C81: which bits the server of `mpc/rpmt/rrpke_mqrpmt.hpp` gets, and what the client sees.
-/

namespace Kunlun.RrPke

open Kunlun Kunlun.Proto Kunlun.OKVS Kunlun.Baxos Kunlun.VOLEOPRF

variable {G : Type} [AddCommGroup G] [DecidableEq G]

/-- The hash value of a key. -/
def hashOf (fs x : Block) : Block := AES.enc (PRG.setSeed fs 0).key x ^^^ x

theorem hashes_eq (fs : Block) (X : List Block) : hashes fs X = X.map (hashOf fs) := rfl

theorem dec_enc (g : G) (sk : ℤ) (m : G) (r : ℤ) : ElGamal.dec sk (ElGamal.enc g (ElGamal.keyGen g sk) m r) = m := by
  unfold ElGamal.dec ElGamal.enc ElGamal.keyGen
  simp only
  rw [smul_smul, smul_smul, mul_comm]
  abel

/-- The vector of the server has at most 255 gap rows in each bin (their number is kept in a byte). -/
def AllFewGaps (e : Env G) (c : BCfg) (Y : List Block) (vals : List Arr) : Prop :=
  (c.bins = 1 → FewGaps c (e.junk 0) ((hashes e.fs Y).zip vals)) ∧
    (c.bins ≠ 1 → ∀ b < c.bins, FewGaps c (e.junk b) (((hashes e.fs Y).zip vals).filter fun p => binOf c.bins p.1 = b))

/-- The key number `j` of the server decodes to the value it was given. -/
theorem member_val (e : Env G) {pp : PP} {sk : ℤ} {m : G} {r : Nat → ℤ} {Y : List Block} (hT : 0 < e.threads % 256) {c : BCfg} {vals : List Arr}
    {out : Nat → Arr} (hs : Solved e pp sk m r Y c vals out) (hc : (c.cfg 0).Ok) (hg : AllFewGaps e c Y vals) (hf : Fit c (hashes e.fs Y))
    {dvs : List FastDiv.Divider} (hd : mkDividers c.w c.s = some dvs) (j : Nat) (y : Block) (hy : Y[j]? = some y) :
    vals[j]? = some (val arrayOps c dvs out (hashOf e.fs y)) := by
  obtain ⟨-, h0, hB, hw, dvs', hd', h1⟩ := solve_facts hs.solve
  rw [hd] at hd'
  cases hd'
  have hbin : c.binary = false := by
    have := hs.cfg
    unfold cfgOf at this
    obtain ⟨b, -, rfl⟩ := Option.map_eq_some_iff.1 this
    rfl
  have e1 := baxos_correct_hash arrayOps_ok c hc (e.threads % 256) (e.threads % 256) hT e.junk (hashes e.fs Y) vals (fun _ => arrayOps.zero) out
    hs.solve hg.1 hg.2 (fun h => by unfold Fit at hf; rw [if_neg h] at hf; exact hf)
  rw [decodeAll_map arrayOps hbin hc hd (by omega) h0 hB (fun h => (h1 h).1) _ hT _ _ _ hf] at e1
  rw [← Option.some.inj e1, hashes_eq, List.map_map, List.getElem?_map, hy]
  rfl

theorem made_at {e : Env G} {pp : PP} {sk : ℤ} {m : G} {r : Nat → ℤ} {Y : List Block} {c : BCfg} {vals : List Arr} {out : Nat → Arr}
    (hs : Solved e pp sk m r Y c vals out) (j : Nat) (hj : j < pp.serverLen) :
    ∃ v, vals[j]? = some v ∧ toArr e.net.C (ElGamal.enc e.g (ElGamal.keyGen e.g sk) m (r j)) = some v := by
  obtain ⟨-, h⟩ := OKVS.mapM_inv _ _ _ hs.made
  obtain ⟨v, h1, h2⟩ := h j (by simpa using hj)
  rw [List.getElem_range] at h1
  exact ⟨v, h2, h1⟩

/-- **C81** Whenever both parties finish, the server has one bit per key of the client, and the bit of every common key is 1, for all keys,
messages and random numbers. For a key of the client that is not common the bit says whether the client's decoded ciphertext happens to
decrypt to the message; it is 0 only if it does not. -/
theorem rrpke_correct_partial (e : Env G) (hn : e.net.Ok) (hL : 2 * e.net.C.byteLen ≤ 144) (pp : PP) (sk : ℤ) (hsk : sk • e.g ≠ 0) (m : G) (r r' : Nat → ℤ)
    (X Y : List Block) (hX : X.length = pp.clientLen) (hY : Y.length = pp.serverLen) (hT : 0 < e.threads % 256)
    {c : BCfg} {vals : List Arr} {out : Nat → Arr} (hs : Solved e pp sk m r Y c vals out) (hc : (c.cfg 0).Ok) (hf : Fit c (hashes e.fs X))
    (hfY : Fit c (hashes e.fs Y)) (hg : AllFewGaps e c Y vals) :
    ∃ ds bits, Runs (clientKeeps e pp r' X) (server e pp sk m r Y) ds bits ∧ ds.length = pp.clientLen ∧ bits.length = pp.clientLen ∧
      ∀ (i : Nat) (x : Block), X[i]? = some x → ∃ d, ds[i]? = some d ∧
        bits[i]? = some (if m = ElGamal.dec sk (ofArr e.net.C d) then 1 else 0) ∧
        (x ∈ Y → bits[i]? = some 1 ∧ wellFormed e.net.C d = true ∧ ∃ j < Y.length, ofArr e.net.C d = ElGamal.enc e.g (ElGamal.keyGen e.g sk) m (r j)) := by
  obtain ⟨dvs, hd, run⟩ := rrpke_run e hn hL pp sk hsk m r r' X Y hX hY hT hs hc hf
  refine ⟨_, _, run, by simp [hX], by simp [hX], fun i x hx => ⟨val arrayOps c dvs out (hashOf e.fs x), ?_, ?_, fun hxy => ?_⟩⟩
  · rw [List.getElem?_map, hx]; rfl
  · rw [List.getElem?_map, hx]; rfl
  · obtain ⟨j, hj, rfl⟩ := List.getElem_of_mem hxy
    have h1 := member_val e hT hs hc hg hfY hd j Y[j] (List.getElem?_eq_getElem hj)
    obtain ⟨v, h2, h3⟩ := made_at hs j (by omega)
    rw [h2, Option.some.injEq] at h1
    rw [h1] at h3
    have h4 := ofArr_toArr _ _ _ h3
    refine ⟨?_, toArr_wellFormed _ _ _ h3, j, hj, h4⟩
    rw [List.getElem?_map, hx, Option.map_some]
    congr 1
    show (if m = ElGamal.dec sk (ofArr e.net.C (val arrayOps c dvs out (hashOf e.fs Y[j]))) then (1 : UInt8) else 0) = 1
    rw [h4, dec_enc, if_pos rfl]

theorem bind_done_right {α : Type} (p : Proc α) : p.bind Proc.done = p := by
  induction p with
  | done v => rfl
  | send b k ih => rw [Proc.bind, ih]
  | recv n k ih => rw [Proc.bind]; congr 1; funext b; exact ih b
  | fail => rfl

/-- **C81** The same for `Client` and `Server` as they stand: both finish, and the bits the server returns are 1 for every common key. -/
theorem rrpke_finishes (e : Env G) (hn : e.net.Ok) (hL : 2 * e.net.C.byteLen ≤ 144) (pp : PP) (sk : ℤ) (hsk : sk • e.g ≠ 0) (m : G) (r r' : Nat → ℤ)
    (X Y : List Block) (hX : X.length = pp.clientLen) (hY : Y.length = pp.serverLen) (hT : 0 < e.threads % 256)
    {c : BCfg} {vals : List Arr} {out : Nat → Arr} (hs : Solved e pp sk m r Y c vals out) (hc : (c.cfg 0).Ok) (hf : Fit c (hashes e.fs X))
    (hfY : Fit c (hashes e.fs Y)) (hg : AllFewGaps e c Y vals) :
    ∃ bits, Runs (client e pp r' X) (server e pp sk m r Y) () bits ∧ bits.length = pp.clientLen ∧
      ∀ (i : Nat) (x : Block), X[i]? = some x → x ∈ Y → bits[i]? = some 1 := by
  obtain ⟨ds, bits, run, -, hb, h⟩ := rrpke_correct_partial e hn hL pp sk hsk m r r' X Y hX hY hT hs hc hf hfY hg
  refine ⟨bits, ?_, hb, fun i x hx hxy => ?_⟩
  · have := run.bind (fun _ => .done ()) Proc.done (Runs.done () bits)
    rwa [bind_done_right] at this
  · obtain ⟨d, -, -, h3⟩ := h i x hx
    exact (h3 hxy).1

/-- **C81**, what the server sees of a common key is an encryption with the sum of two random numbers, so the client's number hides which key it
is: for any other key of the server there is a random number with which the client would have sent the same. -/
theorem rrpke_hides_key (e : Env G) (hn : e.net.Ok) (hL : 2 * e.net.C.byteLen ≤ 144) (pp : PP) (sk : ℤ) (hsk : sk • e.g ≠ 0) (m : G) (r r' : Nat → ℤ)
    (X Y : List Block) (hX : X.length = pp.clientLen) (hY : Y.length = pp.serverLen) (hT : 0 < e.threads % 256)
    {c : BCfg} {vals : List Arr} {out : Nat → Arr} (hs : Solved e pp sk m r Y c vals out) (hc : (c.cfg 0).Ok) (hf : Fit c (hashes e.fs X))
    (hfY : Fit c (hashes e.fs Y)) (hg : AllFewGaps e c Y vals) :
    ∃ ds view, Runs (clientKeeps e pp r' X) (serverKeeps e pp sk m r Y) ds view ∧
      ∀ (i j : Nat) (x : Block), X[i]? = some x → Y[j]? = some x →
        view[i]? = some (ElGamal.enc e.g (ElGamal.keyGen e.g sk) m (r j + r' i)) ∧
        ∀ j', view[i]? = some (ElGamal.reRand e.g (ElGamal.keyGen e.g sk) (ElGamal.enc e.g (ElGamal.keyGen e.g sk) m (r j')) (r j + r' i - r j')) := by
  obtain ⟨dvs, back, hd, hb, run⟩ := rrpke_run_then e hn hL pp sk hsk m r r' X Y hX hY hT hs hc hf
  have hadd : ∀ s t : ℤ, ElGamal.reRand e.g (ElGamal.keyGen e.g sk) (ElGamal.enc e.g (ElGamal.keyGen e.g sk) m s) t
      = ElGamal.enc e.g (ElGamal.keyGen e.g sk) m (s + t) := by
    intro s t
    unfold ElGamal.reRand ElGamal.enc
    simp only [add_smul, CT.mk.injEq]
    exact ⟨trivial, by abel⟩
  refine ⟨_, _, run _, fun i j x hx hy => ?_⟩
  have hlt : i < pp.clientLen := by
    rw [← hX]
    by_contra hn
    rw [List.getElem?_eq_none (by omega)] at hx
    cases hx
  have hj : j < pp.serverLen := by
    rw [← hY]
    by_contra hn
    rw [List.getElem?_eq_none (by omega)] at hy
    cases hy
  have h1 := member_val e hT hs hc hg hfY hd j x hy
  obtain ⟨v, h2, h3⟩ := made_at hs j hj
  rw [h2, Option.some.injEq] at h1
  have hv : ((List.range pp.clientLen).map fun i => ofArr e.net.C (arrAt back i))[i]? = some (ElGamal.enc e.g (ElGamal.keyGen e.g sk) m (r j + r' i)) := by
    rw [List.getElem?_map, List.getElem?_range hlt, Option.map_some, hb i x hx, ← hadd, ← ofArr_toArr _ _ _ h3, h1]
    rfl
  refine ⟨hv, fun j' => ?_⟩
  rw [hadd, hv]
  congr 2
  omega

/-! ### A set for which the result is wrong -/

theorem pair_filter {V : Type} (B n : Nat) (h : Nat → Block) (v : Nat → V) (hb : ∀ i < 2 * n, binOf B (h i) = i / 2) (b : Nat) (hbn : b < n) :
    (((List.range (2 * n)).map fun i => (h i, v i)).filter fun p => binOf B p.1 = b) = [(h (2 * b), v (2 * b)), (h (2 * b + 1), v (2 * b + 1))] := by
  induction n with
  | zero => omega
  | succ n ih =>
    have e : List.range (2 * (n + 1)) = List.range (2 * n) ++ [2 * n, 2 * n + 1] := by
      rw [show 2 * (n + 1) = 2 * n + 1 + 1 by omega, List.range_succ, List.range_succ, List.append_assoc]; rfl
    have e1 : binOf B (h (2 * n)) = n := by rw [hb _ (by omega)]; omega
    have e2 : binOf B (h (2 * n + 1)) = n := by rw [hb _ (by omega)]; omega
    rw [e, List.map_append, List.filter_append]
    by_cases hn : b = n
    · subst hn
      have : (((List.range (2 * b)).map fun i => (h i, v i)).filter fun p => binOf B p.1 = b) = [] := by
        rw [List.filter_eq_nil_iff]
        intro p hp
        obtain ⟨i, hi, rfl⟩ := List.mem_map.1 hp
        rw [List.mem_range] at hi
        simp only [decide_eq_true_eq]
        rw [hb i (by omega)]
        omega
      rw [this, List.nil_append]
      simp [e1, e2]
    · rw [ih (fun i hi => hb i (by omega)) (by omega)]
      simp [e1, e2, Ne.symm hn]

theorem hom_unit : Hom arrayOps unitOps fun _ => () := ⟨rfl, fun _ _ => rfl, fun _ _ => rfl⟩

/-- Formal values replaced by actual ones. -/
def subst2 (v w : Arr) (f : Fin 2 → Block) : Arr := fun i => GF.mul (v i) (f 0) ^^^ GF.mul (w i) (f 1)

theorem hom_free (v w : Arr) : Hom freeOps arrayOps (subst2 v w) where
  zero := funext fun i => by
    show GF.mul (v i) 0#128 ^^^ GF.mul (w i) 0#128 = 0#128
    rw [GF.gf_mul_zero, GF.gf_mul_zero, BitVec.xor_self]
  xor a b := funext fun i => by
    show GF.mul (v i) (a 0 ^^^ b 0) ^^^ GF.mul (w i) (a 1 ^^^ b 1) = (GF.mul (v i) (a 0) ^^^ GF.mul (w i) (a 1)) ^^^ (GF.mul (v i) (b 0) ^^^ GF.mul (w i) (b 1))
    rw [GF.gf_mul_xor, GF.gf_mul_xor]
    ac_rfl
  mul a b := funext fun i => by
    show GF.mul (v i) (GF.mul (a 0) b) ^^^ GF.mul (w i) (GF.mul (a 1) b) = GF.mul (GF.mul (v i) (a 0) ^^^ GF.mul (w i) (a 1)) b
    rw [GF.gf_xor_mul, GF.gf_mul_assoc, GF.gf_mul_assoc]

theorem subst2_fst (v w : Arr) : subst2 v w ![MatInv.oneBlock, 0#128] = v := funext fun i => by
  show GF.mul (v i) MatInv.oneBlock ^^^ GF.mul (w i) 0#128 = v i
  rw [GF.gf_mul_zero, BitVec.xor_zero]
  exact GF.gf_mul_one _

theorem subst2_snd (v w : Arr) : subst2 v w ![0#128, MatInv.oneBlock] = w := funext fun i => by
  show GF.mul (v i) 0#128 ^^^ GF.mul (w i) MatInv.oneBlock = w i
  rw [GF.gf_mul_zero, BitVec.zero_xor]
  exact GF.gf_mul_one _

theorem subst2_zero (v w : Arr) : subst2 v w ![0#128, 0#128] = arrayOps.zero := funext fun i => by
  show GF.mul (v i) 0#128 ^^^ GF.mul (w i) 0#128 = 0#128
  rw [GF.gf_mul_zero, GF.gf_mul_zero, BitVec.xor_self]

theorem cfg8_ok : (cfg8.cfg 0).Ok := ⟨⟨by decide, by decide, by decide⟩, by decide⟩

/-- The items of bin `b` for given values. -/
def items8 (v : Nat → Arr) (b : Nat) : List (Block × Arr) := [(hashAt (2 * b), v (2 * b)), (hashAt (2 * b + 1), v (2 * b + 1))]

theorem bin8_solves (v : Nat → Arr) (b : Nat) (hb : b < 128) : ∃ y, solveBin arrayOps cfg8 zeroNodes none (fun _ => arrayOps.zero) (items8 v b) = some y := by
  have h := bins_ok b hb
  have e := solveBin_nat hom_unit cfg8 rfl zeroNodes (fun _ => arrayOps.zero) (items8 v b)
  unfold binOk at h
  have e' : solveBin unitOps cfg8 zeroNodes none (fun _ => ()) ((items8 v b).map (onVal fun _ => ()))
      = solveBin unitOps cfg8 zeroNodes none (fun _ => ()) [(hashAt (2 * b), ()), (hashAt (2 * b + 1), ())] := rfl
  rw [e'] at e
  rw [← e, Option.isSome_map] at h
  exact Option.isSome_iff_exists.1 h

/-- What a formal computation says about actual values. -/
theorem formal_decode (v : Nat → Arr) (b : Nat) (h : Block) (f : Fin 2 → Block) (hf : formal b h = some f) {dvs : List FastDiv.Divider}
    (hd : mkDividers cfg8.w cfg8.s = some dvs) {y : Nat → Arr}
    (hy : solveBin arrayOps cfg8 zeroNodes none (fun _ => arrayOps.zero) (items8 v b) = some y) :
    decode1 arrayOps (cfg8.cfg 0) dvs y h = some (subst2 (v (2 * b)) (v (2 * b + 1)) f) := by
  unfold formal at hf
  rw [hd, Option.bind_some] at hf
  obtain ⟨y', h1, h2⟩ := Option.bind_eq_some_iff.1 hf
  have H := hom_free (v (2 * b)) (v (2 * b + 1))
  have e := solveBin_nat H cfg8 rfl zeroNodes (fun _ _ => 0#128)
    [(hashAt (2 * b), ![MatInv.oneBlock, 0#128]), (hashAt (2 * b + 1), ![0#128, MatInv.oneBlock])]
  have e1 : (fun _ : Nat => subst2 (v (2 * b)) (v (2 * b + 1)) fun _ => 0#128) = fun _ => arrayOps.zero := funext fun _ => H.zero
  have e2 : ([(hashAt (2 * b), ![MatInv.oneBlock, 0#128]), (hashAt (2 * b + 1), ![0#128, MatInv.oneBlock])] : List (Block × (Fin 2 → Block))).map
      (onVal (subst2 (v (2 * b)) (v (2 * b + 1)))) = items8 v b := by
    simp only [List.map_cons, List.map_nil, onVal, subst2_fst, subst2_snd]
    rfl
  rw [e1, e2, h1, hy, Option.map_some, Option.some.injEq] at e
  have e3 := decode1_nat H (cfg8.cfg 0) rfl dvs y' h
  rw [h2, Option.map_some, e] at e3
  exact e3.symm

/-- For all values: `solve` returns; key 71 gets the value of the sixth key and key 35 zero. -/
theorem solve8 (vals : List Arr) (hl : vals.length = 256) : ∃ out,
    solve arrayOps cfg8 8 (fun _ => zeroNodes) (fun _ => none) hash8 vals (fun _ => arrayOps.zero) = some out ∧
    ∀ dvs, mkDividers cfg8.w cfg8.s = some dvs → vals[5]? = some (val arrayOps cfg8 dvs out hash71) ∧ val arrayOps cfg8 dvs out hash35 = arrayOps.zero := by
  set v : Nat → Arr := fun i => vals.getD i arrayOps.zero with hv
  have hvals : vals = (List.range 256).map v := by
    apply List.ext_getElem (by simp [hl])
    intro i h1 h2
    rw [List.getElem_map, List.getElem_range, hv]
    simp only [List.getD_eq_getElem?_getD, List.getElem?_eq_getElem h1]
    rfl
  have hzip : hash8.zip vals = (List.range (2 * 128)).map fun i => (hashAt i, v i) := by
    rw [hash8_range, hvals, List.zip_map', ]
  have hitems : ∀ b < 128, ((hash8.zip vals).filter fun p => binOf 128 p.1 = b) = items8 v b := by
    intro b hb
    rw [hzip]
    exact pair_filter 128 128 hashAt v (fun i hi => hashAt_bin i hi) b hb
  choose! y hy using fun b hb => bin8_solves v b hb
  have hslice : ∀ t < 8, slice hash8 8 t = (List.range 32).map fun i => hashAt (32 * t + i) := by
    intro t ht
    have hlen : hash8.length = 256 := by rw [hash8_range]; simp
    unfold slice cut
    rw [hlen, show 256 * t / 8 = 32 * t by omega, show 256 * (t + 1) / 8 - 32 * t = 32 by omega]
    apply List.ext_getElem (by rw [List.length_take, List.length_drop, hlen, List.length_map, List.length_range]; omega)
    intro i h1 h2
    have hi : i < 32 := by simpa using h2
    rw [List.getElem_take, List.getElem_drop, List.getElem_map, List.getElem_range]
    have := hash8_range
    unfold hashAt
    rw [List.getD_eq_getElem?_getD, List.getElem?_eq_getElem (by omega)]
    rfl
  obtain ⟨out, h1, h2⟩ := baxos_solves arrayOps cfg8 (by decide) (by decide) 8 (by decide) (fun b hb => by
      have : b < 128 := hb
      omega) (fun _ => zeroNodes) (fun _ => none) hash8 vals (fun _ => arrayOps.zero)
    (by rw [hl, hash8_range]; simp) (fun t ht => by rw [hslice t ht]; simp) (fun t ht b => by
      have : (slice hash8 8 t).countP (fun h => decide (binOf cfg8.bins h = b)) ≤ 2 := by
        have hsub : (slice hash8 8 t).Sublist hash8 := (List.take_sublist _ _).trans (List.drop_sublist _ _)
        refine (hsub.countP_le).trans ?_
        by_cases hb : b < 128
        · have := congrArg List.length (hitems b hb)
          rw [← List.countP_eq_length_filter] at this
          have h3 : (hash8.zip vals).map Prod.fst = hash8 := List.map_fst_zip (by rw [hl, hash8_range]; simp)
          rw [← h3, List.countP_map]
          exact this.le
        · have h0 : hash8.countP (fun h => decide (binOf cfg8.bins h = b)) = 0 := by
            rw [List.countP_eq_zero]
            intro h _
            have : binOf cfg8.bins h < 128 := Nat.mod_lt _ (by decide)
            simp only [decide_eq_true_eq]
            omega
          omega
      exact ⟨this.trans (by decide), lt_of_le_of_lt this (by decide)⟩)
    y (fun b hb => by
      have := hitems b hb
      show solveBin arrayOps cfg8 zeroNodes none (fun _ => arrayOps.zero) ((hash8.zip vals).filter fun p => binOf 128 p.1 = b) = some (y b)
      rw [this]
      exact hy b hb)
  refine ⟨out, h1, fun dvs hd => ?_⟩
  have hdec : ∀ b h f, b < 128 → binOf 128 h = b → formal b h = some f → val arrayOps cfg8 dvs out h = subst2 (v (2 * b)) (v (2 * b + 1)) f := by
    intro b h f hb hbin hf
    unfold val
    rw [decode1_congr arrayOps (cfg8.cfg 0) cfg8_ok dvs hd _ (y b) h, formal_decode v b h f hf hd (hy b hb)]
    · rfl
    · intro a ha
      show out (binOf 128 h * cfg8.total + a) = y b a
      rw [hbin]
      exact h2 b hb a ha
  constructor
  · rw [hdec 2 hash71 _ (by decide) formal71.1 formal71.2, subst2_snd, hv]
    exact OTE.getD_of_lt _ _ _ (by omega)
  · rw [hdec 74 hash35 _ (by decide) formal35.1 formal35.2, subst2_zero]

/-- The sizes that the code computes for 256 items. -/
def sizes8 : Sizes := ⟨63, 6, 21, 11⟩

/-- The program run with sets of 256 and `2 ^ logC` keys, statistical parameter 40, its own seed and eight threads. -/
structure Env8 (e : Env G) : Prop where
  net : e.net.Ok
  len : 2 * e.net.C.byteLen ≤ 144
  fs : e.fs = fixedSeed
  threads : e.threads = 8
  sizes : e.sizes = sizes8
  junk : e.junk = fun _ => zeroNodes

theorem solved8 {e : Env G} (he : Env8 e) (logC : Nat) (sk : ℤ) (m : G) (r : Nat → ℤ) :
    ∃ vals out, Solved e ⟨40, 8, logC⟩ sk m r keys8 cfg8 vals out ∧ vals.length = 256 ∧
      ∀ dvs, mkDividers cfg8.w cfg8.s = some dvs → vals[5]? = some (val arrayOps cfg8 dvs out (hashOf e.fs 71)) ∧
        val arrayOps cfg8 dvs out (hashOf e.fs 35) = arrayOps.zero := by
  choose a ha using fun ct => toArr_some e.net.C he.len ct
  have hm : (List.range 256).mapM (fun i => toArr e.net.C (ElGamal.enc e.g (ElGamal.keyGen e.g sk) m (r i)))
      = some ((List.range 256).map fun i => a (ElGamal.enc e.g (ElGamal.keyGen e.g sk) m (r i))) := OKVS.mapM_eq_map _ _ _ fun i _ => ha _
  obtain ⟨out, h1, h2⟩ := solve8 ((List.range 256).map fun i => a (ElGamal.enc e.g (ElGamal.keyGen e.g sk) m (r i))) (by simp)
  have ho := hash_others
  have h71 : hashOf e.fs 71 = hash71 := by rw [he.fs]; exact (List.cons.inj ho).1
  have h35 : hashOf e.fs 35 = hash35 := by rw [he.fs]; exact (List.cons.inj (List.cons.inj ho).2).1
  refine ⟨_, out, ⟨?_, hm, ?_⟩, by simp, fun dvs hd => ?_⟩
  · rw [he.sizes]
    simp [cfgOf, binSize, PP.serverLen, sizes8, cfg8]
  · rw [he.threads, he.junk, show hashes e.fs keys8 = hash8 by rw [he.fs]; exact hash8_eq]
    exact h1
  · rw [h71, h35]; exact h2 dvs hd

theorem count8 (b : Nat) : hash8.countP (fun h => decide (binOf cfg8.bins h = b)) ≤ 2 := by
  rw [hash8_range, List.countP_map, List.countP_eq_length_filter]
  have hsub : ((List.range 256).filter ((fun h => decide (binOf cfg8.bins h = b)) ∘ hashAt)).toFinset ⊆ {2 * b, 2 * b + 1} := by
    intro i hi
    rw [List.mem_toFinset, List.mem_filter, List.mem_range] at hi
    have h1 := hashAt_bin i hi.1
    have h2 : binOf 128 (hashAt i) = b := of_decide_eq_true hi.2
    rw [Finset.mem_insert, Finset.mem_singleton]
    omega
  have h3 := Finset.card_le_card hsub
  rw [List.toFinset_card_of_nodup (List.nodup_range.filter _)] at h3
  exact h3.trans Finset.card_le_two

theorem arrBytes_zero : arrBytes arrayOps.zero = List.replicate 144 0 := by decide +kernel

/-- A value of zeros is read as two points at infinity. -/
theorem ofArr_zero (C : Ser.PointCodec G) (hL : 2 * C.byteLen ≤ 144) : ofArr C arrayOps.zero = ⟨C.inf, C.inf⟩ := by
  obtain ⟨n, hn⟩ : ∃ n, C.byteLen = n + 1 := ⟨C.byteLen - 1, by have := C.byteLen_pos; omega⟩
  have hz : getPt C (List.replicate C.byteLen 0) = C.inf := by
    unfold getPt
    rw [hn, List.replicate_succ, C.dec_zero _ (by simp [hn])]
    rfl
  unfold ofArr ctOfBytes
  rw [arrBytes_zero, List.drop_replicate, List.take_replicate, List.take_replicate, show min C.byteLen 144 = C.byteLen by omega,
    show min C.byteLen (144 - C.byteLen) = C.byteLen by omega, hz]

theorem fit8 (X : List Block) (hX : X.length < 256) : Fit cfg8 X := by
  unfold Fit
  rw [if_neg (by decide)]
  intro b
  have : X.countP (fun h => decide (binOf cfg8.bins h = b)) ≤ X.length := List.countP_le_length
  exact lt_of_le_of_lt ((min_le_right _ _).trans this) hX

theorem fit8_keys {e : Env G} (he : Env8 e) : Fit cfg8 (hashes e.fs keys8) := by
  unfold Fit
  rw [if_neg (by decide), show hashes e.fs keys8 = hash8 by rw [he.fs]; exact hash8_eq]
  intro b
  exact lt_of_le_of_lt ((min_le_right _ _).trans (count8 b)) (by decide)

theorem gaps8 {e : Env G} (he : Env8 e) (vals : List Arr) (hl : vals.length = 256) : AllFewGaps e cfg8 keys8 vals := by
  refine ⟨fun h => absurd h (by decide), fun _ b hb => ?_⟩
  apply fewGaps_short cfg8 cfg8_ok
  have h3 : ((hashes e.fs keys8).zip vals).map Prod.fst = hash8 := by
    rw [show hashes e.fs keys8 = hash8 by rw [he.fs]; exact hash8_eq]
    exact List.map_fst_zip (by rw [hl, hash8_range]; simp)
  have h4 := count8 b
  rw [← h3, List.countP_map, List.countP_eq_length_filter] at h4
  exact lt_of_le_of_lt h4 (by decide)

/-- **C81** is violated: for these 256 different keys of the server and a client with the keys 71 and 35, neither of which the server has, the
server is told that the client has a key of the server. This happens for every key pair, every message and all random numbers of both
parties. -/
theorem rrpke_false_positive {e : Env G} (he : Env8 e) (sk : ℤ) (hsk : sk • e.g ≠ 0) (m : G) (r r' : Nat → ℤ) :
    keys8.Nodup ∧ (71 : Block) ∉ keys8 ∧ (35 : Block) ∉ keys8 ∧
      ∃ ds, Runs (clientKeeps e ⟨40, 8, 1⟩ r' [71, 35]) (server e ⟨40, 8, 1⟩ sk m r keys8) ds [1, if m = 0 then 1 else 0] := by
  refine ⟨keys8_nodup, keys8_others.1, keys8_others.2, ?_⟩
  obtain ⟨vals, out, hs, hl, hv⟩ := solved8 he 1 sk m r
  obtain ⟨dvs, hd, run⟩ := rrpke_run e he.net he.len ⟨40, 8, 1⟩ sk hsk m r r' [71, 35] keys8 rfl keys8_length (by rw [he.threads]; decide) hs cfg8_ok
    (fit8 _ (by rw [hashes_eq]; simp))
  obtain ⟨h71, h35⟩ := hv dvs hd
  obtain ⟨v, h2, h3⟩ := made_at hs 5 (by decide)
  rw [h2, Option.some.injEq] at h71
  have h4 := ofArr_toArr _ _ _ h3
  rw [h71] at h4
  refine ⟨[val arrayOps cfg8 dvs out (hashOf e.fs 71), val arrayOps cfg8 dvs out (hashOf e.fs 35)], ?_⟩
  have e1 : (if m = ElGamal.dec sk (ofArr e.net.C (val arrayOps cfg8 dvs out (hashOf e.fs 71))) then (1 : UInt8) else 0) = 1 := by
    rw [h4, dec_enc, if_pos rfl]
  have e2 : (if m = ElGamal.dec sk (ofArr e.net.C (val arrayOps cfg8 dvs out (hashOf e.fs 35))) then (1 : UInt8) else 0) = if m = 0 then 1 else 0 := by
    rw [h35, ofArr_zero _ he.len, he.net.inf]
    simp [ElGamal.dec]
  have e3 := congrArg₂ (fun a b => [a, b]) e1 e2
  rw [← e3]
  exact run

/-- **C81**, what the client learns: with the keys `x` and 35, where the server has `x` and not 35, it decodes a value that is not zero for `x`
and zero for 35, so it can tell the two apart without any secret. This holds for all random numbers, provided the ciphertexts' first points
are not infinity. -/
theorem rrpke_client_learns {e : Env G} (he : Env8 e) (sk : ℤ) (hsk : sk • e.g ≠ 0) (m : G) (r r' : Nat → ℤ) (hr : ∀ i < 256, r i • e.g ≠ 0)
    (x : Block) (hx : x ∈ keys8) (X : List Block) (hX : X = [x, 35]) :
    ∃ ds bits, Runs (clientKeeps e ⟨40, 8, 1⟩ r' X) (server e ⟨40, 8, 1⟩ sk m r keys8) ds bits ∧
      ∃ d, ds = [d, arrayOps.zero] ∧ d ≠ arrayOps.zero := by
  subst hX
  obtain ⟨vals, out, hs, hl, hv⟩ := solved8 he 1 sk m r
  have hT : 0 < e.threads % 256 := by rw [he.threads]; decide
  obtain ⟨dvs, hd, run⟩ := rrpke_run e he.net he.len ⟨40, 8, 1⟩ sk hsk m r r' [x, 35] keys8 rfl keys8_length hT hs cfg8_ok
    (fit8 _ (by rw [hashes_eq]; simp))
  obtain ⟨-, h35⟩ := hv dvs hd
  refine ⟨_, _, run, val arrayOps cfg8 dvs out (hashOf e.fs x), ?_, fun h0 => ?_⟩
  · rw [← h35]; rfl
  · obtain ⟨j, hj, rfl⟩ := List.getElem_of_mem hx
    have h1 := member_val e hT hs cfg8_ok (gaps8 he vals hl) (fit8_keys he) hd j _ (List.getElem?_eq_getElem hj)
    rw [keys8_length] at hj
    obtain ⟨v, h2, h3⟩ := made_at hs j hj
    rw [h2, Option.some.injEq, h0] at h1
    have h4 := ofArr_toArr _ _ _ h3
    rw [h1] at h4
    have h5 := congrArg CT.X h4
    rw [ofArr_zero _ he.len, he.net.inf] at h5
    exact hr j hj h5.symm

/-- The group of seven elements. -/
def toy8 : Env (ZMod 7) := ⟨toyNet, 1, fixedSeed, 8, sizes8, fun _ => zeroNodes⟩

theorem toy8_ok : Env8 toy8 := ⟨toyNet_ok, by decide, rfl, rfl, rfl, rfl⟩

/-- The hypotheses of `rrpke_correct_partial` hold for it: the server learns that the client has key 20. -/
example : ∃ ds bits, Runs (clientKeeps toy8 ⟨40, 8, 1⟩ (fun _ => 5) [20, 35]) (server toy8 ⟨40, 8, 1⟩ 3 4 (fun _ => 2) keys8) ds bits ∧
    bits[0]? = some 1 := by
  obtain ⟨vals, out, hs, hl, -⟩ := solved8 toy8_ok 1 3 4 (fun _ => 2)
  obtain ⟨ds, bits, h1, -, -, h2⟩ := rrpke_correct_partial toy8 toyNet_ok toy8_ok.len ⟨40, 8, 1⟩ 3 (by decide) 4 (fun _ => 2) (fun _ => 5) [20, 35] keys8 rfl
    keys8_length (by decide) hs cfg8_ok (fit8 _ (by rw [hashes_eq]; simp)) (fit8_keys toy8_ok) (gaps8 toy8_ok vals hl)
  obtain ⟨d, -, -, h3⟩ := h2 0 20 rfl
  exact ⟨ds, bits, h1, (h3 (by unfold keys8; decide +kernel)).1⟩

/-- The server's key 20 is at place 20; what it sees of the client's 20 would be the same for the key at place 21 and another number. -/
example : ∃ ds view, Runs (clientKeeps toy8 ⟨40, 8, 1⟩ (fun _ => 5) [20, 35]) (serverKeeps toy8 ⟨40, 8, 1⟩ 3 4 (fun i => (i : ℤ)) keys8) ds view ∧
    ∀ j : Nat, keys8[j]? = some 20 → view[0]? = some (ElGamal.enc 1 (ElGamal.keyGen 1 3) 4 ((j : ℤ) + 5)) := by
  obtain ⟨vals, out, hs, hl, -⟩ := solved8 toy8_ok 1 3 4 (fun i => (i : ℤ))
  obtain ⟨ds, view, h1, h2⟩ := rrpke_hides_key toy8 toyNet_ok toy8_ok.len ⟨40, 8, 1⟩ 3 (by decide) 4 (fun i => (i : ℤ)) (fun _ => 5) [20, 35] keys8 rfl
    keys8_length (by decide) hs cfg8_ok (fit8 _ (by rw [hashes_eq]; simp)) (fit8_keys toy8_ok) (gaps8 toy8_ok vals hl)
  exact ⟨ds, view, h1, fun j hj => (h2 0 j 20 rfl hj).1⟩

/-- Here the server learns that the client has a key of the server, though it has none. -/
example : ∃ ds, Runs (clientKeeps toy8 ⟨40, 8, 1⟩ (fun _ => 5) [71, 35]) (server toy8 ⟨40, 8, 1⟩ 3 4 (fun _ => 2) keys8) ds [1, 0] :=
  (rrpke_false_positive toy8_ok 3 (by decide) 4 (fun _ => 2) (fun _ => 5)).2.2.2

/-- **C81** With too few keys of the server no execution is defined: below `2 ^ 7` a shift amount is negative, and below 32 keys per thread `solve`
reads past its keys. -/
theorem rrpke_small_sets_undefined (e : Env G) (pp : PP) (sk : ℤ) (m : G) (r r' : Nat → ℤ) (X Y : List Block)
    (h : pp.logS < 7 ∨ pp.serverLen < 32 * (e.threads % 256)) (u : Unit) (b : Bytes) : ¬ Runs (client e pp r' X) (server e pp sk m r Y) u b := by
  apply not_runs_of_never
  unfold server serverThen
  split
  · trivial
  rename_i hY
  rw [not_not] at hY
  unfold sendPoints sendM
  split
  · trivial
  apply Proc.Never.chunks
  split
  · trivial
  rename_i c hc
  split
  · trivial
  rename_i vals _
  have hlog : 7 ≤ pp.logS ∧ c.bins = 128 := by
    unfold cfgOf binSize at hc
    split at hc
    · cases hc
    rename_i h7
    have h7' : 7 ≤ pp.logS := by omega
    rw [Option.map_some, Option.some.injEq] at hc
    refine ⟨h7', ?_⟩
    rw [← hc]
    show (2 ^ pp.logS + 2 ^ (pp.logS - 7) - 1) / 2 ^ (pp.logS - 7) = 128
    have hp : 0 < 2 ^ (pp.logS - 7) := Nat.pow_pos (by decide)
    have e1 : 2 ^ pp.logS = 128 * 2 ^ (pp.logS - 7) := by
      rw [show (128 : Nat) = 2 ^ 7 by rfl, ← pow_add]; congr 1; omega
    rw [e1, show 128 * 2 ^ (pp.logS - 7) + 2 ^ (pp.logS - 7) - 1 = 2 ^ (pp.logS - 7) * 128 + (2 ^ (pp.logS - 7) - 1) by omega,
      Nat.mul_add_div hp, Nat.div_eq_of_lt (by omega)]
  rw [baxos_few_keys arrayOps c (by omega) (e.threads % 256) e.junk _ _ _ _ (by
    rw [hashes_eq, List.length_map, ← hY]
    omega)]
  trivial

end Kunlun.RrPke
