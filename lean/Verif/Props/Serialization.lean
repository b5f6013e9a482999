import Verif.Model.Serialization
import Verif.Props.BigInt
/-! Property C09 (and the stream part of C10): reading with `>>` what `<<` wrote. -/

namespace Kunlun.Ser

open Kunlun

variable {G : Type}

/-- The destination object has the type of the value, and for vectors the element sizes and the number of elements. Strings,
numbers and points may hold anything. -/
def Fits : Val G → Val G → Prop
  | .size _, .size _ => True
  | .pod b, .pod old => old.length = b.length
  | .podVec es, .podVec old => old.map List.length = es.map List.length
  | .str _, .str _ => True
  | .big _, .big _ => True
  | .bigVec vs, .bigVec old => old.length = vs.length
  | .point _, .point _ => True
  | .pointVec ps, .pointVec old => old.length = ps.length
  | _, _ => False

/-- The value is one the format can carry: 64-bit sizes, non-negative integers below `256^BN_BYTE_LEN`, points other than
infinity. -/
def Representable (C : PointCodec G) (bnLen : Nat) : Val G → Prop
  | .size v => v < 2 ^ 64
  | .str b => b.length < 2 ^ 64
  | .big v => 0 ≤ v ∧ v < 256 ^ bnLen
  | .bigVec vs => ∀ v ∈ vs, 0 ≤ v ∧ v < 256 ^ bnLen
  | .point p => p ≠ C.inf
  | .pointVec ps => ∀ p ∈ ps, p ≠ C.inf
  | _ => True

theorem readInto_append (b old suf : Bytes) (h : old.length = b.length) :
    readInto ⟨b ++ suf, false⟩ old = (b, ⟨suf, false⟩) := by
  unfold readInto
  simp only [Bool.false_eq_true, if_false]
  rw [if_neg (by simp; omega), h]
  simp

theorem cutLike_flatten (es old : List Bytes) (h : old.map List.length = es.map List.length) :
    cutLike old es.flatten = es := by
  induction es generalizing old with
  | nil => cases old with
    | nil => rfl
    | cons => simp at h
  | cons e es ih => cases old with
    | nil => simp at h
    | cons o old =>
      simp only [List.map_cons, List.cons.injEq] at h
      simp only [cutLike, List.flatten_cons, h.1]
      rw [List.take_append_of_le_length (Nat.le_refl _), List.take_length, List.drop_append_of_le_length (Nat.le_refl _),
        List.drop_length, List.nil_append, ih old h.2]

theorem big_put_length (g : Bytes) (v : Int) : (BigInt.put g v).length = g.length := by
  unfold BigInt.put BigInt.bn2binpad; split <;> simp

theorem big_round (g : Bytes) (v : Int) (h0 : 0 ≤ v) (h : v < 256 ^ g.length) : BigInt.get (BigInt.put g v) = v := by
  obtain ⟨n, rfl⟩ := Int.eq_ofNat_of_zero_le h0
  exact BigInt.bigint_stream_round_trip n g (by exact_mod_cast h)

theorem getBig_put (g g' : Nat → Bytes) (hg : ∀ n, (g n).length = n) (hg' : ∀ n, (g' n).length = n) (bnLen : Nat) (v : Int) (h0 : 0 ≤ v) (h : v < 256 ^ bnLen)
    (suf : Bytes) : getBig g' bnLen ⟨BigInt.put (g bnLen) v ++ suf, false⟩ = (v, ⟨suf, false⟩) := by
  unfold getBig
  rw [readInto_append _ _ _ (by rw [big_put_length, hg, hg'])]
  simp only
  rw [big_round _ _ h0 (by rw [hg]; exact h)]

theorem putPoint_finite (C : PointCodec G) (g : Bytes) (hg : g.length = C.byteLen) (p : G) (h : p ≠ C.inf) :
    putPoint C g p = C.enc p := by
  unfold putPoint
  rw [C.enc_len p h, List.drop_eq_nil_of_le (by omega), List.append_nil]

theorem getPoint_put (C : PointCodec G) (g g' : Nat → Bytes) (hg : ∀ n, (g n).length = n) (hg' : ∀ n, (g' n).length = n) (p old : G) (h : p ≠ C.inf)
    (suf : Bytes) : getPoint C g' old ⟨putPoint C (g C.byteLen) p ++ suf, false⟩ = (p, ⟨suf, false⟩) := by
  unfold getPoint
  rw [putPoint_finite C _ (hg _) p h, readInto_append _ _ _ (by rw [C.enc_len p h, hg'])]
  simp only [C.dec_enc p h, Option.getD_some]

theorem getBigs_put (g g' : Nat → Bytes) (hg : ∀ n, (g n).length = n) (hg' : ∀ n, (g' n).length = n) (bnLen : Nat) (vs old : List Int)
    (hl : old.length = vs.length) (h : ∀ v ∈ vs, 0 ≤ v ∧ v < 256 ^ bnLen) (suf : Bytes) :
    getBigs g' bnLen old ⟨(vs.map (BigInt.put (g bnLen))).flatten ++ suf, false⟩ = (vs, ⟨suf, false⟩) := by
  induction vs generalizing old with
  | nil => cases old with
    | nil => rfl
    | cons => simp at hl
  | cons v vs ih => cases old with
    | nil => simp at hl
    | cons o old =>
      simp only [List.map_cons, List.flatten_cons, List.append_assoc, getBigs]
      rw [getBig_put g g' hg hg' bnLen v (h v (by simp)).1 (h v (by simp)).2]
      simp only
      rw [ih old (by simpa using hl) (fun w hw => h w (by simp [hw]))]

theorem getPoints_put (C : PointCodec G) (g g' : Nat → Bytes) (hg : ∀ n, (g n).length = n) (hg' : ∀ n, (g' n).length = n) (ps old : List G)
    (hl : old.length = ps.length) (h : ∀ p ∈ ps, p ≠ C.inf) (suf : Bytes) :
    getPoints C g' old ⟨(ps.map (putPoint C (g C.byteLen))).flatten ++ suf, false⟩ = (ps, ⟨suf, false⟩) := by
  induction ps generalizing old with
  | nil => cases old with
    | nil => rfl
    | cons => simp at hl
  | cons v vs ih => cases old with
    | nil => simp at hl
    | cons o old =>
      simp only [List.map_cons, List.flatten_cons, List.append_assoc, getPoints]
      rw [getPoint_put C g g' hg hg' v o (h v (by simp))]
      simp only
      rw [ih old (by simpa using hl) (fun w hw => h w (by simp [hw]))]

theorem get_put (C : PointCodec G) (bnLen : Nat) (g g' : Nat → Bytes) (hg : ∀ n, (g n).length = n) (hg' : ∀ n, (g' n).length = n)
    (v d : Val G) (hf : Fits v d) (hr : Representable C bnLen v) (suf : Bytes) :
    get C bnLen g' d ⟨put C bnLen g v ++ suf, false⟩ = (v, ⟨suf, false⟩) := by
  cases v <;> cases d <;> simp only [Fits] at hf <;> simp only [Representable] at hr <;> simp only [get, put]
  case size.size v d =>
    rw [readInto_append _ _ _ (by simp)]
    simp only
    rw [ofLE_leBytes 8 v (by simpa using hr)]
  case pod.pod b d => rw [readInto_append _ _ _ hf]
  case podVec.podVec es d =>
    rw [readInto_append _ _ _ (by rw [List.length_flatten, List.length_flatten, hf])]
    simp only
    rw [cutLike_flatten es d hf]
  case str.str b d =>
    rw [List.append_assoc, readInto_append _ _ _ (by rw [leBytes_length, hg'])]
    simp only
    rw [ofLE_leBytes 8 b.length (by simpa using hr), readInto_append]
    simp; omega
  case big.big v d => rw [getBig_put g g' hg hg' bnLen v hr.1 hr.2]
  case bigVec.bigVec vs d => rw [getBigs_put g g' hg hg' bnLen vs d hf hr]
  case point.point p d => rw [getPoint_put C g g' hg hg' p d hr]
  case pointVec.pointVec ps d => rw [getPoints_put C g g' hg hg' ps d hf hr]

/-- **C09** For every list of values (sizes, POD objects, POD vectors, strings, big integers, points and vectors of those),
written one after the other with `<<` and followed by any other data, reading with `>>` into destination objects of the same
types (vectors of the same length) restores exactly the values and leaves the stream at the following data, not failed.
This holds whatever the uninitialised local buffers (`g`, `g'`) contain. -/
theorem serialization_round_trip (C : PointCodec G) (bnLen : Nat) (g g' : Nat → Bytes) (hg : ∀ n, (g n).length = n) (hg' : ∀ n, (g' n).length = n)
    (vs ds : List (Val G)) (hf : List.Forall₂ Fits vs ds) (hr : ∀ v ∈ vs, Representable C bnLen v) (suf : Bytes) :
    getAll C bnLen g' ds ⟨putAll C bnLen g vs ++ suf, false⟩ = (vs, ⟨suf, false⟩) := by
  induction hf with
  | nil => rfl
  | cons h _ ih =>
    simp only [putAll, List.map_cons, List.flatten_cons, List.append_assoc, getAll]
    rw [get_put C bnLen g g' hg hg' _ _ h (hr _ (by simp))]
    simp only
    have := ih (fun w hw => hr w (by simp [hw]))
    rw [putAll] at this
    rw [this]

/-- Boundary of C09: the point at infinity does not survive: the destination keeps the point it had. -/
theorem infinity_not_restored (C : PointCodec G) (bnLen : Nat) (g g' : Nat → Bytes) (hg : ∀ n, (g n).length = n) (hg' : ∀ n, (g' n).length = n)
    (old : G) (suf : Bytes) :
    get C bnLen g' (.point old) ⟨put C bnLen g (.point C.inf) ++ suf, false⟩ = (.point old, ⟨suf, false⟩) := by
  have hp := C.byteLen_pos
  simp only [get, put, getPoint, putPoint, C.enc_inf]
  rw [readInto_append _ _ _ (by simp [hg, hg']; omega)]
  simp only [List.cons_append, List.nil_append]
  rw [C.dec_zero _ (by simp [hg]; omega), Option.getD_none]

/-- Boundary of C09: vectors carry no length, so a destination of another length reads other data: here a longer destination
fails the stream. -/
theorem vector_length_not_stored (C : PointCodec G) (bnLen : Nat) (g : Nat → Bytes) :
    (get C bnLen g (.podVec [[0], [0]]) ⟨put C bnLen g (.podVec [[7]]), false⟩).2 = ⟨[], true⟩ := by
  simp [get, put, readInto]

/-- A toy point codec with which the hypotheses are satisfiable: the group of two elements. -/
def toyCodec : PointCodec Bool where
  byteLen := 2
  enc b := if b then [4, 1] else [0]
  dec s := if s = [4, 1] then some true else none
  inf := false
  enc_len := by decide
  dec_enc := by decide
  enc_inf := rfl
  byteLen_pos := by decide
  dec_zero := by intro t _; simp

example : getAll toyCodec 4 (fun n => List.replicate n 9) [.str [1, 2, 3], .bigVec [5, 5], .point false, .size 3]
    ⟨putAll toyCodec 4 (fun n => List.replicate n 8) [.str [65], .bigVec [258, 0], .point true, .size 77] ++ [1], false⟩
    = ([.str [65], .bigVec [258, 0], .point true, .size 77], ⟨[1], false⟩) := by
  apply serialization_round_trip _ _ _ _ (by simp) (by simp)
  · exact .cons trivial (.cons rfl (.cons trivial (.cons trivial .nil)))
  · intro v hv
    simp only [List.mem_cons, List.not_mem_nil, or_false] at hv
    rcases hv with rfl | rfl | rfl | rfl
    · simp [Representable]
    · intro v hv; simp only [List.mem_cons, List.not_mem_nil, or_false] at hv; rcases hv with rfl | rfl <;> decide
    · simp [Representable, toyCodec]
    · simp [Representable]

end Kunlun.Ser
