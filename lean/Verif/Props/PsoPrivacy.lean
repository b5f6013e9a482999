import Verif.Props.OtePrivacy
import Verif.Props.Pso
/-!
C95: what the receiver of the set operations learns beyond the result.

The one-sided transfer used by PSI and PSU is opened completely by one message that was not selected (`Verif/Props/OtePrivacy.lean`). In PSU
the messages that were not selected are the common items, and the receiver has all of these in its own set: it only has to try its own items.
-/

namespace Kunlun.PSO

open Kunlun Proto CwPRF

variable {G : Type} [AddCommGroup G]

namespace PSU

/-- The positions that were not selected all contain items of `Y`. -/
def fits (sel : Bytes) (Y Z : List Block) : Bool :=
  (List.range sel.length).all fun j => sel.getD j 0 != 0 || decide (Z.getD j 0 ∈ Y)

/-- What the curious receiver computes at the end: for each of its own items the set of the sender that this item at the first unselected
position leads to; only those sets are kept whose unselected items are all its own. -/
def candidates (sel : Bytes) (Y K C : List Block) : List (List Block) :=
  (Y.map fun y => (OTE.openAll sel (sel.idxOf 0) y K C C sel.length).2).filter (fits sel Y)

/-- `PSU.receive` with this end; it sends and receives the same bytes. -/
def curious (mq : Mq) (e : OTE.Env G) (r : RDraw) (pp : PP) (Y : List Block) : Proc (List (List Block)) :=
  if Y.length ≠ pp.receiverNum then .fail else
  (mq.server pp.mq Y).bind fun bits =>
  if !OTE.checkParameters (flip bits).length baseLen then .fail else
  (OTE.ALSZ.randomReceive e baseLen r.salt r.d r.r (flip bits) (flip bits).length).bind fun K =>
  recvBlocks e.net (flip bits).length fun C => .done (candidates (flip bits) Y K C)

end PSU

namespace PSI

/-- `PSI.receive` with another end, for a receiver that knows the item `m` at position `i` of the sender. -/
def curious (mq : Mq) (e : OTE.Env G) (r : RDraw) (pp : PP) (Y : List Block) (i : Nat) (m : Block) : Proc (List Block) :=
  if Y.length ≠ pp.receiverNum then .fail else
  (mq.server pp.mq Y).bind fun bits =>
  OTE.curiousOnesided e.net (OTE.ALSZ.randomReceive e baseLen r.salt r.d r.r bits bits.length) baseLen bits bits.length i m

end PSI

/-- **C95 (violation)** PSI: a receiver that knows one item of the sender outside its own set gets all items of the sender. -/
theorem psi_one_item_opens_all (mq : Mq) (e : OTE.Env G) (hn : e.net.Ok) (hH : e.H = OTE.rowHash) (s : SDraw) (r : RDraw)
    (hb : OTE.BaseOk e 128 s.salt s.sk r.d r.r) (pp : PP) (X Y : List Block) (hX : X.length = pp.senderNum) (hY : Y.length = pp.receiverNum)
    (hl : X.length % 128 = 0) (hm : MqRuns mq pp.mq (· ∈ Y) X Y) (i : Nat) (m : Block) (hi : X[i]? = some m) (hmY : m ∉ Y) :
    Runs (PSI.send mq e s pp X) (PSI.curious mq e r pp Y i m) () X := by
  obtain ⟨bits, h1, h2⟩ := hm
  unfold PSI.send PSI.curious
  rw [if_neg (by simp [hX]), if_neg (by simp [hY])]
  refine Runs.bind h1 _ _ ?_
  have hil : i < X.length := (List.getElem?_eq_some_iff.1 hi).1
  have hz : bits.getD i 0 = 0 := by
    rcases h2.2 i m hi with ⟨-, h⟩ | ⟨h, -⟩
    · exact absurd h hmY
    · rw [List.getD, h]; rfl
  have := (OTE.onesided_one_item_opens_all e hn hH X.length hl s.salt r.salt s.sk r.d r.r hb X bits rfl h2.1 i hil hz).1
  rw [show X.getD i 0 = m from by rw [List.getD, hi]; rfl] at this
  rw [h2.1]
  exact this

theorem openAll_selected (sel : Bytes) (i : Nat) (y : Block) (K C : List Block) (n j : Nat) (hj : j < n) (h : sel.getD j 0 ≠ 0) :
    (OTE.openAll sel i y K C C n).2.getD j 0 = C.getD j 0 ^^^ K.getD j 0 := by
  unfold OTE.openAll
  rw [OTE.range_getD _ n j hj, if_neg h]

/-- **C95 (violation)** PSU, where the receiver should learn the items that are not its own and no more than the number of the others.
If there is a common item, the receiver computes at most as many lists as it has items, and one of these is the list of all items of the
sender, the common ones included; every list on it is right outside the common items and has items of the receiver at the common ones. -/
theorem psu_candidates (mq : Mq) (e : OTE.Env G) (hn : e.net.Ok) (hH : e.H = OTE.rowHash) (s : SDraw) (r : RDraw)
    (hb : OTE.BaseOk e 128 s.salt s.sk r.d r.r) (pp : PP) (X Y : List Block) (hX : X.length = pp.senderNum) (hY : Y.length = pp.receiverNum)
    (hl : X.length % 128 = 0) (hm : MqRuns mq pp.mq (· ∈ Y) X Y) (hc : ∃ x ∈ X, x ∈ Y) :
    ∃ L, Runs (PSU.send mq e s pp X) (PSU.curious mq e r pp Y) () L ∧ X ∈ L ∧ L.length ≤ Y.length ∧
      ∀ Z ∈ L, Z.length = X.length ∧ ∀ j < X.length, (X.getD j 0 ∈ Y → Z.getD j 0 ∈ Y) ∧ (X.getD j 0 ∉ Y → Z.getD j 0 = X.getD j 0) := by
  obtain ⟨bits, h1, h2⟩ := hm
  have hf := Marks.flip (R := (· ∈ Y)) h2
  set sel := PSU.flip bits with hsel
  have hbit : ∀ j < X.length, (X.getD j 0 ∈ Y ∧ sel.getD j 0 = 0) ∨ (X.getD j 0 ∉ Y ∧ sel.getD j 0 ≠ 0) := by
    intro j hj
    rcases hf.2 j X[j] (List.getElem?_eq_getElem hj) with ⟨a, b⟩ | ⟨a, b⟩
    · right; rw [List.getD, List.getElem?_eq_getElem hj, List.getD, a]; exact ⟨b, by decide⟩
    · left; rw [List.getD, List.getElem?_eq_getElem hj, List.getD, a]; exact ⟨not_not.1 b, rfl⟩
  obtain ⟨x, hx, hxY⟩ := hc
  obtain ⟨p, hp⟩ := List.mem_iff_getElem?.1 hx
  have hpl : p < X.length := (List.getElem?_eq_some_iff.1 hp).1
  have hz : 0 ∈ sel := by
    rcases hf.2 p x hp with ⟨-, b⟩ | ⟨a, -⟩
    · exact absurd hxY b
    · exact List.mem_iff_getElem?.2 ⟨p, a⟩
  have hil : sel.idxOf 0 < X.length := by rw [← hf.1]; exact List.idxOf_lt_length_iff.2 hz
  have hi0 : sel.getD (sel.idxOf 0) 0 = 0 := by
    rw [List.getD, List.getElem?_eq_getElem (List.idxOf_lt_length_iff.2 hz)]
    simp
  have hiY : X.getD (sel.idxOf 0) 0 ∈ Y := by
    rcases hbit _ hil with h | h
    · exact h.1
    · exact absurd hi0 h.2
  obtain ⟨K0, K1, K, hrun, hk⟩ := OTE.ALSZ.alsz_random e hn 128 X.length rfl (by decide) hl s.salt r.salt s.sk r.d r.r hb sel hf.1
  obtain ⟨d, hd⟩ := (OTE.ALSZ.randomSend_offset e hH s.salt s.sk X.length hl).runs hrun
  set C := (List.range X.length).map fun i => X.getD i 0 ^^^ K1.getD i 0 with hC
  have hCj : ∀ j < X.length, C.getD j 0 = X.getD j 0 ^^^ K1.getD j 0 := fun j hj => OTE.range_getD _ _ j hj
  have hopen : (OTE.openAll sel (sel.idxOf 0) (X.getD (sel.idxOf 0) 0) K C C X.length).2 = X := by
    rw [OTE.openAll_spec K0 K1 K sel X.length hk d hd C C ((List.range X.length).map fun i => C.getD i 0 ^^^ K0.getD i 0) X (sel.idxOf 0) hil _
      (fun j hj => by rw [OTE.range_getD (fun i => C.getD i 0 ^^^ K0.getD i 0) _ j hj, OTE.xor_cancel]) hCj (by rw [if_pos hi0]) (by simp) rfl]
  refine ⟨PSU.candidates sel Y K C, ?_, ?_, ?_, ?_⟩
  · unfold PSU.send PSU.curious
    rw [if_neg (by simp [hX]), if_neg (by simp [hY])]
    refine Runs.bind h1 _ _ ?_
    rw [← hsel, hf.1, ← hX]
    unfold OTE.onesidedSend PSO.baseLen
    simp only [OTE.checkParameters_ok hl (rfl : 128 % 128 = 0), Bool.false_eq_true, if_false]
    refine Runs.bind hrun _ _ ?_
    rw [if_neg (by omega)]
    exact .blocksLR e.net hn (by simp) (OTE.done_run rfl)
  · unfold PSU.candidates
    rw [List.mem_filter, List.mem_map, hf.1]
    refine ⟨⟨_, hiY, hopen⟩, ?_⟩
    unfold PSU.fits
    rw [List.all_eq_true]
    intro j hj
    rw [List.mem_range, hf.1] at hj
    rcases hbit j hj with h | h
    · rw [Bool.or_eq_true]; right; exact decide_eq_true h.1
    · rw [Bool.or_eq_true]; left; exact bne_iff_ne.2 h.2
  · unfold PSU.candidates
    exact (List.length_filter_le _ _).trans (by simp)
  · intro Z hZ
    unfold PSU.candidates at hZ
    rw [List.mem_filter, List.mem_map, hf.1] at hZ
    obtain ⟨⟨y, -, rfl⟩, hfit⟩ := hZ
    refine ⟨by simp [OTE.openAll], fun j hj => ⟨fun h => ?_, fun h => ?_⟩⟩
    · unfold PSU.fits at hfit
      have := List.all_eq_true.1 hfit j (by rw [List.mem_range, hf.1]; exact hj)
      rcases hbit j hj with h' | h'
      · rw [Bool.or_eq_true] at this
        rcases this with h'' | h''
        · exact absurd h'.2 (bne_iff_ne.1 h'')
        · exact of_decide_eq_true h''
      · exact absurd h h'.1
    · rcases hbit j hj with h' | h'
      · exact absurd h'.1 h
      · rw [openAll_selected sel _ y K C _ j hj h'.2, hCj j hj, hk.key j hj, if_neg h'.2, OTE.xor_cancel]

/-- **C95 (violation)** A receiver with one item: if PSU tells it that the item is common, it knows where, and has all items of the sender. -/
theorem psu_single_item (mq : Mq) (e : OTE.Env G) (hn : e.net.Ok) (hH : e.H = OTE.rowHash) (s : SDraw) (r : RDraw)
    (hb : OTE.BaseOk e 128 s.salt s.sk r.d r.r) (pp : PP) (X : List Block) (y : Block) (hX : X.length = pp.senderNum) (hY : 1 = pp.receiverNum)
    (hl : X.length % 128 = 0) (hm : MqRuns mq pp.mq (· ∈ [y]) X [y]) (hc : y ∈ X) :
    Runs (PSU.send mq e s pp X) (PSU.curious mq e r pp [y]) () [X] := by
  obtain ⟨L, h1, h2, h3, -⟩ := psu_candidates mq e hn hH s r hb pp X [y] hX hY hl hm ⟨y, hc, by simp⟩
  have : L = [X] := by
    match L, h2, h3 with
    | [a], h, _ => rw [List.mem_singleton.1 h]
  rwa [this] at h1

theorem E_D (x : Block) : Hash.E (Hash.D x) = x := by
  have : Finite Block := Finite.of_injective (fun b : Block => (⟨b.toNat, b.isLt⟩ : Fin (2 ^ 128)))
    fun a b h => BitVec.eq_of_toNat_eq (Fin.mk.inj h)
  obtain ⟨y, rfl⟩ := (Finite.injective_iff_surjective.1 fun a b h => Hash.E_inj h : Function.Surjective Hash.E) x
  rw [Hash.D_E]

/-- **C95 (what holds).** If exactly one item is common, these computations do not tell which: whatever keys and ciphertexts the receiver has, each of its
items `y` gives a list that has `y` at the unselected position, and none of the lists is dropped. -/
theorem psu_one_common_partial (sel : Bytes) (Y K C : List Block) (p : Nat) (hp : p < sel.length) (hz : sel.getD p 0 = 0)
    (hone : ∀ j < sel.length, sel.getD j 0 = 0 → j = p) :
    (PSU.candidates sel Y K C).map (·.getD p 0) = Y := by
  have hmem : 0 ∈ sel := List.mem_iff_getElem.2 ⟨p, hp, by rw [List.getD, List.getElem?_eq_getElem hp] at hz; exact hz⟩
  have hidx : sel.idxOf 0 = p := hone _ (List.idxOf_lt_length_iff.2 hmem) (by
    rw [List.getD, List.getElem?_eq_getElem (List.idxOf_lt_length_iff.2 hmem)]
    simp)
  have hy : ∀ y, (OTE.openAll sel p y K C C sel.length).2.getD p 0 = y := by
    intro y
    unfold OTE.openAll
    rw [OTE.range_getD _ _ p hp, if_pos hz, if_pos hz]
    simp only []
    rw [BitVec.xor_comm (Hash.D (K.getD p 0)), OTE.xor_cancel, E_D, ← BitVec.xor_assoc,
      BitVec.xor_self, BitVec.zero_xor]
  unfold PSU.candidates
  rw [hidx, List.filter_eq_self.2, List.map_map]
  · exact (List.map_congr_left fun y _ => hy y).trans (List.map_id _)
  · intro Z hZ
    obtain ⟨y, hyY, rfl⟩ := List.mem_map.1 hZ
    unfold PSU.fits
    rw [List.all_eq_true]
    intro j hj
    rw [List.mem_range] at hj
    rw [Bool.or_eq_true]
    by_cases h : sel.getD j 0 = 0
    · right
      obtain rfl := hone j hj h
      rw [hy y]
      exact decide_eq_true hyY
    · left
      exact bne_iff_ne.2 h

example : (PSU.candidates [1, 0, 1] [7, 8] [1, 2, 3] [4, 5, 6]).map (·.getD 1 0) = [7, 8] :=
  psu_one_common_partial _ _ _ _ 1 (by decide) rfl (by intro j hj h; match j, hj with | 0, _ => cases h | 1, _ => rfl | 2, _ => cases h)

/-- 128 items `0, …, 127` against two: `5`, which is common, and `1000`. -/
example : ∃ L, Runs
      (PSU.send (idealMq ((List.range 128).map (BitVec.ofNat 128))) OTE.aesEnv ⟨77, fun _ => 2⟩ (setup 40 7 1) ((List.range 128).map (BitVec.ofNat 128)))
      (PSU.curious (idealMq ((List.range 128).map (BitVec.ofNat 128))) OTE.aesEnv ⟨78, 3, fun _ => 5⟩ (setup 40 7 1) [5, 1000]) () L ∧
    (List.range 128).map (BitVec.ofNat 128) ∈ L ∧ L.length ≤ 2 := by
  obtain ⟨L, h1, h2, h3, -⟩ := psu_candidates (idealMq ((List.range 128).map (BitVec.ofNat 128))) OTE.aesEnv toyNet_ok rfl ⟨77, fun _ => 2⟩ ⟨78, 3, fun _ => 5⟩
    (OTE.aesEnv_base 77) (setup 40 7 1) ((List.range 128).map (BitVec.ofNat 128)) [5, 1000] (by rw [List.length_map, List.length_range]; rfl) rfl
    (by rw [List.length_map, List.length_range]) (idealMq_runs _ _ _) ⟨5, List.mem_map.2 ⟨5, List.mem_range.2 (by decide), rfl⟩, by simp⟩
  exact ⟨L, h1, h2, h3⟩

end Kunlun.PSO
