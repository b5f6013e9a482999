import Verif.Model.BloomMany
import Verif.Model.P256Compressed
import Verif.Props.Bloom
/-!
C139: objects and containers in the Bloom filter.
-/

namespace Kunlun.Bloom

open Kunlun

theorem containMany_fold (H : UInt32 → Bytes → UInt32) (f : Filter) (keys : List Bytes) (F : Bytes → Bool)
    (order : List (Nat × List (Nat × Bool))) (ho : ∀ p ∈ order, ∃ k, keys[p.1]? = some k ∧ containSched H f k p.2 = some (F k)) (out : Bytes)
    (hl : out.length = keys.length) :
    ∃ bits, order.foldlM (containAt H f keys) out = some bits ∧ bits.length = keys.length ∧
      ∀ i, bits[i]? = if i ∈ order.map (·.1) then (keys[i]?).map (fun k => if F k = true then 1 else 0) else out[i]? := by
  induction order generalizing out with
  | nil => exact ⟨out, rfl, hl, fun i => by simp⟩
  | cons p ps ih =>
    obtain ⟨k, hk, hc⟩ := ho p (by simp)
    have hp : p.1 < keys.length := (List.getElem?_eq_some_iff.1 hk).1
    have hs : containAt H f keys out p = some (out.set p.1 (if F k = true then 1 else 0)) := by
      unfold containAt
      rw [hk, Option.bind_eq_bind, Option.bind_some, hc, Option.bind_eq_bind, Option.bind_some, if_pos (by omega)]
      rfl
    obtain ⟨bits, h1, h2, h3⟩ := ih (fun q hq => ho q (List.mem_cons_of_mem p hq)) (out.set p.1 (if F k = true then 1 else 0)) (by simpa using hl)
    refine ⟨bits, by rw [List.foldlM_cons, hs]; exact h1, h2, fun i => ?_⟩
    rw [h3 i, List.map_cons]
    by_cases hi : i ∈ ps.map (·.1)
    · rw [if_pos hi, if_pos (List.mem_cons_of_mem _ hi)]
    · rw [if_neg hi]
      by_cases he : i = p.1
      · subst he
        rw [if_pos List.mem_cons_self, List.getElem?_set_self (by omega), hk, Option.map_some]
      · have hn : i ∉ p.1 :: ps.map (·.1) := by rw [List.mem_cons]; exact fun h => h.elim he hi
        rw [if_neg hn, List.getElem?_set_ne (Ne.symm he)]

/-- **C139** `Contain` of a container gives one bit per element, in the order of the elements: 1 exactly when every hash position of the element is a
hash position of a key inserted since the last `Clear`. It does not depend on how the threads share the work, outside and inside of `PlainContain`,
and no access leaves a vector. -/
theorem bloom_container_bits (H : UInt32 → Bytes → UInt32) {rnd : List UInt32} {maxElem n : Nat} {raw : UInt32} {f0 : Filter}
    (hnew : new rnd maxElem n raw = some f0) (hraw : 0 < raw.toNat ∧ raw.toNat ≤ 2 ^ 32 - 8) (ops : List Op) (hv : ValidOps n ops)
    (es : List Elem) (cmp : Bool) (order : List (Nat × List (Nat × Bool))) (ho : (order.map (·.1)).Perm (List.range es.length))
    (hs : ∀ p ∈ order, (p.2.map (·.1)).Perm (List.range n)) :
    ∃ f bits, run H f0 ops = some f ∧ containMany H f (es.map (Elem.key cmp)) order = some bits ∧ bits.length = es.length ∧
      ∀ i (hi : i < es.length), (bits[i]? = some 1 ∨ bits[i]? = some 0) ∧
        (bits[i]? = some 1 ↔ ∀ s ∈ f0.vecSalt, ∃ k ∈ live ops, ∃ s' ∈ f0.vecSalt,
          (H s' k).toNat % f0.tableSize = (H s (es[i].key cmp)).toNat % f0.tableSize) := by
  classical
  obtain ⟨f, h1, h2⟩ := bloom_contain_iff H hnew hraw ops hv
  let F : Bytes → Bool := fun x => decide (∀ s ∈ f0.vecSalt, ∃ k ∈ live ops, ∃ s' ∈ f0.vecSalt,
    (H s' k).toNat % f0.tableSize = (H s x).toNat % f0.tableSize)
  have hF : ∀ x sched, (sched.map (·.1)).Perm (List.range n) → containSched H f x sched = some (F x) := by
    intro x sched hx
    obtain ⟨b, hb, hiff⟩ := h2 x sched hx
    rw [hb]
    congr 1
    rw [Bool.eq_iff_iff, hiff]
    simp [F]
  obtain ⟨bits, e1, e2, e3⟩ := containMany_fold H f (es.map (Elem.key cmp)) F order (fun p hp => by
    have : p.1 < es.length := List.mem_range.1 (ho.mem_iff.1 (List.mem_map.2 ⟨p, hp, rfl⟩))
    exact ⟨(es[p.1]).key cmp, by simp [this], hF _ _ (hs p hp)⟩) (List.replicate (es.map (Elem.key cmp)).length 0) (by simp)
  refine ⟨f, bits, h1, e1, by simpa using e2, fun i hi => ?_⟩
  have hm : i ∈ order.map (·.1) := ho.mem_iff.2 (List.mem_range.2 hi)
  have e := e3 i
  rw [if_pos hm, List.getElem?_map, List.getElem?_eq_getElem hi, Option.map_some, Option.map_some] at e
  rw [e]
  by_cases h : F (es[i].key cmp) = true
  · rw [if_pos h]
    exact ⟨.inl rfl, fun _ => of_decide_eq_true h, fun _ => rfl⟩
  · rw [if_neg h]
    refine ⟨.inr rfl, fun hh => absurd hh (by decide), fun hh => absurd (decide_eq_true hh) h⟩

/-- **C139** Whatever the threads do, all elements of a container that was inserted are reported when it is asked for. -/
theorem bloom_container_no_false_negatives (H : UInt32 → Bytes → UInt32) {rnd : List UInt32} {maxElem n : Nat} {raw : UInt32} {f0 : Filter}
    (hnew : new rnd maxElem n raw = some f0) (hraw : 0 < raw.toNat ∧ raw.toNat ≤ 2 ^ 32 - 8) (es qs : List Elem) (cmp : Bool)
    (sched : List (Bytes × Nat)) (hsched : sched.Perm ((es.map (Elem.key cmp)).flatMap fun x => (List.range f0.hashNum).map (x, ·)))
    (order : List (Nat × List (Nat × Bool))) (ho : (order.map (·.1)).Perm (List.range qs.length))
    (hs : ∀ p ∈ order, (p.2.map (·.1)).Perm (List.range n)) :
    ∃ f bits, insertParallel H f0 es.length sched = some f ∧ containMany H f (qs.map (Elem.key cmp)) order = some bits ∧
      bits.length = qs.length ∧ ∀ i (hi : i < qs.length), qs[i] ∈ es → bits[i]? = some 1 := by
  obtain ⟨g0, -⟩ := new_good (H := H) hnew hraw.1 hraw.2
  have hn : f0.hashNum = n ∧ f0.inserted = 0 := by
    unfold new at hnew
    simp only [Option.bind_eq_bind, Option.bind_eq_some_iff, Option.pure_def, Option.some.injEq] at hnew
    obtain ⟨v, _, rfl⟩ := hnew
    exact ⟨rfl, rfl⟩
  obtain ⟨p1, p2⟩ := bloom_parallel_eq_sequential H g0 (es.map (Elem.key cmp)) sched (by rw [hn.2]; decide) hsched
  rw [List.length_map] at p1
  let ops : List Op := (es.map (Elem.key cmp)).map fun x => .insert x (List.range n)
  have hrun : ∀ (xs : List Bytes) (f : Filter), f.hashNum = n → run H f (xs.map fun x => .insert x (List.range n)) = insertAll H f xs := by
    intro xs
    induction xs with
    | nil => intro f _; rfl
    | cons x xs ih =>
      intro f hf
      unfold run insertAll at *
      rw [List.map_cons, List.foldlM_cons, List.foldlM_cons]
      show (insertSched H f x (List.range n)).bind _ = (insertSched H f x (List.range f.hashNum)).bind _
      rw [hf]
      cases e : insertSched H f x (List.range n) with
      | none => rfl
      | some f' =>
        refine ih f' ?_
        unfold insertSched at e
        simp only [Option.bind_eq_bind, Option.bind_eq_some_iff, Option.pure_def, Option.some.injEq] at e
        obtain ⟨_, -, _, -, rfl⟩ := e
        exact hf
  have hlive : ∀ (xs ks : List Bytes), (xs.map fun x => Op.insert x (List.range n)).foldl liveStep ks = ks ++ xs := by
    intro xs
    induction xs with
    | nil => intro ks; simp
    | cons x xs ih => intro ks; rw [List.map_cons, List.foldl_cons, ih, liveStep]; simp
  obtain ⟨f, bits, h1, h2, h3, h4⟩ := bloom_container_bits H hnew hraw ops (by
    intro o hop
    obtain ⟨x, -, rfl⟩ := List.mem_map.1 hop
    exact List.Perm.refl _) qs cmp order ho hs
  refine ⟨f, bits, by rw [p1, ← hrun _ _ hn.1]; exact h1, h2, h3, fun i hi hq => ?_⟩
  refine (h4 i hi).2.2 fun s hs' => ⟨qs[i].key cmp, ?_, s, hs', rfl⟩
  show _ ∈ (List.foldl liveStep [] ((es.map (Elem.key cmp)).map fun x => Op.insert x (List.range n)))
  rw [hlive, List.nil_append]
  exact List.mem_map.2 ⟨_, hq, rfl⟩

/-- **C139** Different points are different keys, also the point at infinity, in both builds: two points are confused by collisions of the hash
functions only. -/
theorem bloom_point_keys (cmp : Bool) (P Q : P256.Pt) (h : (Elem.point P).key cmp = (Elem.point Q).key cmp) : P = Q := by
  cases cmp with
  | true =>
    change Murmur64.buffer P = Murmur64.buffer Q at h
    have ht : ∀ y : P256.F, UInt8.ofNat (2 + y.val % 2) ≠ 0 := by
      intro y
      rcases Nat.mod_two_eq_zero_or_one y.val with h2 | h2 <;> rw [h2] <;> decide
    rcases P with _ | ⟨x, y, hx⟩ <;> rcases Q with _ | ⟨x', y', hx'⟩
    · rfl
    · exact absurd (List.cons.inj (h : (0 : UInt8) :: List.replicate 32 0 = UInt8.ofNat (2 + y'.val % 2) :: beBytes P256.bnLen x'.val)).1.symm (ht y')
    · exact absurd (List.cons.inj (h : UInt8.ofNat (2 + y.val % 2) :: beBytes P256.bnLen x.val = (0 : UInt8) :: List.replicate 32 0)).1 (ht y)
    · have h1 := P256.decC_enc x y hx
      have h2 := P256.decC_enc x' y' hx'
      have : P256.encC (.some x y hx) = P256.encC (.some x' y' hx') := h
      rw [this, h2] at h1
      exact (Option.some.inj h1).symm
  | false =>
    change P256.enc P ++ List.replicate (65 - (P256.enc P).length) 0 = P256.enc Q ++ List.replicate (65 - (P256.enc Q).length) 0 at h
    have hl : ∀ x y h, (P256.enc (.some x y h)).length = 65 := by
      intro x y h
      simp only [P256.enc, List.length_cons, List.length_append, P256.beBytes_length, P256.bnLen]
    rcases P with _ | ⟨x, y, hx⟩ <;> rcases Q with _ | ⟨x', y', hx'⟩
    · rfl
    · exact absurd (List.cons.inj (h : (0 : UInt8) :: _ = 4 :: _)).1 (by decide)
    · exact absurd (List.cons.inj (h : (4 : UInt8) :: _ = 0 :: _)).1 (by decide)
    · rw [hl, hl] at h
      have h := List.append_cancel_right h
      have h1 := P256.enc_some x y hx
      rw [h, P256.enc_some x' y' hx'] at h1
      exact (Option.some.inj h1).symm

/-- A filter with two hash functions; the infinite point and a string, asked for by two threads in the opposite order. -/
example (H : UInt32 → Bytes → UInt32) : ∃ f0 f bits, new [] 2 2 64 = some f0 ∧
    insertParallel H f0 2 ([Elem.point 0, .str [1, 2]].flatMap fun e => [(e.key false, 1), (e.key false, 0)]) = some f ∧
    containMany H f ([Elem.str [7], .str [1, 2], .point 0].map (Elem.key false)) [(2, [(1, false), (0, true)]), (0, [(0, false), (1, false)]),
      (1, [(0, false), (1, false)])] = some bits ∧ bits[1]? = some 1 ∧ bits[2]? = some 1 := by
  obtain ⟨f0, h0⟩ := Option.isSome_iff_exists.1 (new_isSome [] 2 2 64 (by decide))
  have hn : f0.hashNum = 2 := by
    unfold new at h0
    simp only [Option.bind_eq_bind, Option.bind_eq_some_iff, Option.pure_def, Option.some.injEq] at h0
    obtain ⟨v, _, rfl⟩ := h0
    rfl
  obtain ⟨f, bits, h1, h2, -, h4⟩ := bloom_container_no_false_negatives H h0 (by decide) [.point 0, .str [1, 2]] [.str [7], .str [1, 2], .point 0] false
    ([Elem.point 0, .str [1, 2]].flatMap fun e => [(e.key false, 1), (e.key false, 0)])
    (by
      rw [hn]
      simp only [List.flatMap_cons, List.flatMap_nil, List.map_cons, List.map_nil, List.append_nil]
      exact List.Perm.append (List.Perm.swap _ _ _) (List.Perm.swap _ _ _))
    [(2, [(1, false), (0, true)]), (0, [(0, false), (1, false)]), (1, [(0, false), (1, false)])] (by decide) (by decide)
  exact ⟨f0, f, bits, h0, h1, h2, h4 1 (by decide) (by simp), h4 2 (by decide) (by simp)⟩

end Kunlun.Bloom
