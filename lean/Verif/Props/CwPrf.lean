import Verif.Model.CwPrf
import Verif.Props.Hash
import Verif.Props.Bloom
import Verif.Props.OtExt
import Verif.Props.DdhMpc
/-! Properties of the commutative-PRF protocols: private set intersection and multi-query reverse private membership test. -/

namespace Kunlun.CwPRF

open Kunlun Proto

variable {G P : Type} [AddCommGroup G]

/-- Keys are always drawn. -/
theorem fixedKey_spec : ∃ k, fixedKey = some k ∧ k.length = 32 := by
  unfold fixedKey
  obtain ⟨bs, s1, bytes, -, h2, -, h4, -⟩ := PRG.prg_bytes_bits OTE.uninit rfl (PRG.setSeed fixedSeed 0) 32
  exact ⟨bytes, by rw [h2]; rfl, h4⟩

theorem hashAll_spec (X : List Block) : hashAll X = some (X.map fun x => (Hash.blockToBytes x).getD []) := by
  unfold hashAll
  induction X with
  | nil => rfl
  | cons x X ih =>
    obtain ⟨b, hb, -⟩ := Hash.blockToBytes_length x
    rw [List.mapM_cons, ih, hb]
    simp [hb]

/-- The bytes an item is hashed to. -/
def hash (x : Block) : Bytes := (Hash.blockToBytes x).getD []

theorem hash_inj {x y : Block} (h : hash x = hash y) : x = y := by
  obtain ⟨b, hb, -⟩ := Hash.blockToBytes_length x
  obtain ⟨c, hc, -⟩ := Hash.blockToBytes_length y
  unfold hash at h
  rw [hb, hc] at h
  apply Hash.hash_block_injective
  rw [hb, hc]
  exact congrArg some h

namespace PSI

/-- The first `len` bytes of an item masked with both keys. -/
def tag (mul : Bytes → Bytes → Bytes) (k1 k2 : Bytes) (len : Nat) (x : Block) : Bytes := (mul k1 (mul k2 (hash x))).take len

theorem truncate_all {len : Nat} (hlen : len ≤ 32) (l : List Bytes) (h : ∀ p ∈ l, p.length = 32) :
    l.mapM (truncate len) = some (l.map (List.take len)) := by
  induction l with
  | nil => rfl
  | cons p l ih =>
    rw [List.mapM_cons, ih (fun q hq => h q (by simp [hq]))]
    have : truncate len p = some (p.take len) := by
      unfold truncate load
      rw [if_pos (by rw [h p (by simp)]; omega)]; rfl
    rw [this]
    rfl

/-- The output loop: the items whose tag is found, in order. -/
theorem output_loop (X : List Block) (t : Block → Bytes) (S : List Bytes) :
    (((List.range X.length).mapM fun i => (X.map t)[i]?.bind fun t => if t ∈ S then X[i]?.map some else some none).map fun l => l.filterMap id)
      = some (X.filter fun x => t x ∈ S) := by
  rw [OTE.mapM_range_spec _ (fun i => if t (X.getD i 0) ∈ S then some (X.getD i 0) else none)]
  · rw [Option.map_some, Option.some.injEq, List.filterMap_map]
    clear * -
    induction X with
    | nil => rfl
    | cons x X ih =>
      rw [List.length_cons, List.range_succ_eq_map, List.filterMap_cons, List.filterMap_map, List.filter_cons]
      have e : (List.range X.length).filterMap (((id ∘ fun i => if t ((x :: X).getD i 0) ∈ S then some ((x :: X).getD i 0) else none)) ∘ Nat.succ) =
          X.filter fun x => t x ∈ S := ih
      rw [e]
      by_cases h : t x ∈ S <;> simp [h]
  · intro i hi
    have e := OTE.getD_of_lt X i 0 hi
    rw [List.getElem?_map, e]
    simp only [Option.map_some, Option.bind_some]
    split <;> rfl

/-- **C61** A run of the protocol with any two keys whose multiplications commute: the receiver obtains the sublist of its own items whose
truncated masked image is the image of one of the sender's items.  `TRUNCATE_LEN` must not exceed the 32 bytes of a point. -/
theorem psi_run (net : Net G) (hn : net.Ok) (mul : Bytes → Bytes → Bytes) (hmul : ∀ k p, (mul k p).length = 32) (k1 k2 : Bytes)
    (pp : PP) (ht : pp.truncateLen ≤ 32) (Y X : List Block) (hY : Y.length = pp.senderNum) (hX : X.length = pp.receiverNum)
    (hs : X.length * 32 < 2 ^ 64) :
    Runs (sendWith net mul k1 pp Y) (receiveWith net mul k2 pp X) ()
      (X.filter fun x => tag mul k1 k2 pp.truncateLen x ∈ Y.map (tag mul k2 k1 pp.truncateLen)) := by
  unfold sendWith receiveWith
  simp only [hashAll_spec]
  have h32 : ∀ (k : Bytes) (l : List Bytes), ∀ p ∈ l.map (mul k), p.length = 32 := by
    intro k l p hp
    rw [List.mem_map] at hp
    obtain ⟨q, -, rfl⟩ := hp
    exact hmul _ _
  refine .x25519LR net hn (by simp [hY]) (h32 _ _) ?_
  refine .x25519RL net hn (by simp [hX]) (h32 _ _) ?_
  rw [truncate_all ht _ (h32 _ _), truncate_all ht _ (h32 _ _)]
  have hst : ∀ v ∈ List.map (List.take pp.truncateLen) (List.map (mul k1) (List.map (mul k2) (X.map fun x => (Hash.blockToBytes x).getD []))),
      v.length = pp.truncateLen := by
    intro v hv
    rw [List.mem_map] at hv
    obtain ⟨p, hp, rfl⟩ := hv
    rw [List.length_take, h32 _ _ p hp]
    omega
  refine .stringVectorLR net hn ⟨hst, ?_, ?_⟩ ?_
  · simp; omega
  · simp only [List.length_map]
    calc X.length * pp.truncateLen ≤ X.length * 32 := Nat.mul_le_mul_left _ ht
      _ < _ := hs
  · simp only [List.map_map]
    rw [← hX]
    have := output_loop X (tag mul k1 k2 pp.truncateLen) (Y.map (tag mul k2 k1 pp.truncateLen))
    have e : ∀ (a b : Bytes) (l : List Block), List.map (List.take pp.truncateLen ∘ mul a ∘ mul b ∘ fun x => (Hash.blockToBytes x).getD []) l =
        l.map (tag mul a b pp.truncateLen) := fun _ _ _ => rfl
    rw [e, e, this]
    exact .done _ _

/-- Images of different items among `X` and `Y` do not collide. -/
def NoCollision (t : Block → Bytes) (X Y : List Block) : Prop := ∀ x ∈ X, ∀ y ∈ Y, t x = t y → x = y

/-- **C61** With commuting multiplications every common item is in the output (in the receiver's order), and if the truncated images do
not collide the output is exactly the intersection. -/
theorem psi_intersection (mul : Bytes → Bytes → Bytes) (k1 k2 : Bytes) (len : Nat) (X Y : List Block)
    (hc : ∀ z ∈ Y, mul k1 (mul k2 (hash z)) = mul k2 (mul k1 (hash z))) :
    (∀ x ∈ X, x ∈ Y → x ∈ X.filter fun x => tag mul k1 k2 len x ∈ Y.map (tag mul k2 k1 len)) ∧
    (NoCollision (tag mul k1 k2 len) X Y →
      (X.filter fun x => decide (tag mul k1 k2 len x ∈ Y.map (tag mul k2 k1 len))) = X.filter fun x => decide (x ∈ Y)) := by
  have e : ∀ y ∈ Y, tag mul k2 k1 len y = tag mul k1 k2 len y := by
    intro y hy
    unfold tag
    rw [hc y hy]
  constructor
  · intro x hx hy
    rw [List.mem_filter, decide_eq_true_eq]
    exact ⟨hx, List.mem_map.2 ⟨x, hy, e x hy⟩⟩
  · intro hn
    apply List.filter_congr
    intro x hx
    rw [decide_eq_decide]
    constructor
    · intro h
      obtain ⟨y, hy, e1⟩ := List.mem_map.1 h
      rw [e y hy] at e1
      rw [hn x hx y hy e1.symm]
      exact hy
    · intro h
      exact List.mem_map.2 ⟨x, h, e x h⟩

/-- **C61** The protocol as the code runs it, with the keys the code draws: the run ends, every common item is output, in order, and
nothing else unless two truncated images collide. -/
theorem psi_correct (net : Net G) (hn : net.Ok) (mul : Bytes → Bytes → Bytes) (hmul : ∀ k p, (mul k p).length = 32)
    (pp : PP) (ht : pp.truncateLen ≤ 32) (Y X : List Block) (hY : Y.length = pp.senderNum) (hX : X.length = pp.receiverNum)
    (hs : X.length * 32 < 2 ^ 64) :
    ∃ k out, fixedKey = some k ∧ Runs (send net mul pp Y) (receive net mul pp X) () out ∧
      out.Sublist X ∧ (∀ x ∈ X, x ∈ Y → x ∈ out) ∧
      (NoCollision (tag mul k k pp.truncateLen) X Y → out = X.filter fun x => decide (x ∈ Y)) := by
  obtain ⟨k, hk, -⟩ := fixedKey_spec
  refine ⟨k, X.filter fun x => tag mul k k pp.truncateLen x ∈ Y.map (tag mul k k pp.truncateLen), hk, ?_, ?_, ?_⟩
  · unfold send receive
    rw [if_neg (by simp [hY]), if_neg (by simp [hX]), hk]
    exact psi_run net hn mul hmul k k pp ht Y X hY hX hs
  · exact List.filter_sublist
  · exact psi_intersection mul k k pp.truncateLen X Y (fun _ _ => rfl)

/-- **C61** An item list of the wrong size stops the party that holds it. -/
theorem psi_wrong_size (net : Net G) (mul : Bytes → Bytes → Bytes) (pp : PP) (Y : List Block) :
    (Y.length ≠ pp.senderNum → send net mul pp Y = .fail) ∧ (Y.length ≠ pp.receiverNum → receive net mul pp Y = .fail) := by
  constructor <;> intro h
  · unfold send; rw [if_pos h]
  · unfold receive; rw [if_pos h]

/-- **C61** With parameters for which `Setup` computes a truncation of more than 32 bytes, the sender reads past the end of a point. -/
theorem psi_truncation_undefined (len : Nat) (h : 32 < len) (p : Bytes) (hp : p.length = 32) : truncate len p = none := by
  unfold truncate load
  rw [if_neg (by omega)]

/-- **C61** The truncation chosen by `Setup` leaves room for the union bound over all pairs of items with the statistical parameter, and is
the shortest one that does. -/
theorem psi_truncation_length (stat logS logR : Nat) :
    let pp := setup stat logS logR
    pp.senderNum * pp.receiverNum * 2 ^ stat ≤ 256 ^ pp.truncateLen ∧
    ∀ len, pp.senderNum * pp.receiverNum * 2 ^ stat ≤ 256 ^ len → pp.truncateLen ≤ len := by
  have h : ∀ len, 2 ^ logS * 2 ^ logR * 2 ^ stat ≤ 256 ^ len ↔ logS + logR + stat ≤ 8 * len := by
    intro len
    rw [show (256 : Nat) = 2 ^ 8 from rfl, ← pow_mul, ← pow_add, ← pow_add]
    exact Nat.pow_le_pow_iff_right (by decide)
  refine ⟨(h _).2 ?_, fun len hl => ?_⟩
  · show logS + logR + stat ≤ 8 * ((stat + logS + logR + 7) / 8); omega
  · have := (h len).1 hl
    show (stat + logS + logR + 7) / 8 ≤ len
    omega

example : (setup 40 20 20).truncateLen = 10 := rfl

/-- **C62** (violated) Both parties of the set intersection use the same, publicly known key. -/
theorem psi_keys_equal (net : Net G) (mul : Bytes → Bytes → Bytes) (pp : PP) (Y X : List Block) (hY : Y.length = pp.senderNum)
    (hX : X.length = pp.receiverNum) :
    ∃ k, fixedKey = some k ∧ send net mul pp Y = sendWith net mul k pp Y ∧ receive net mul pp X = receiveWith net mul k pp X := by
  obtain ⟨k, hk, -⟩ := fixedKey_spec
  refine ⟨k, hk, ?_, ?_⟩
  · unfold send; rw [if_neg (by simp [hY]), hk]
  · unfold receive; rw [if_neg (by simp [hX]), hk]

end PSI

/-- **C62** (violated) The first thing the sender puts on the wire is the list of its items masked with the public key, so whoever sees
that message can test any guess `z` for membership in the sender's set: items always test positive, and when multiplication by the fixed
key separates the hashed items the test is exact. -/
theorem cwprf_dictionary_attack (net : Net G) (mul : Bytes → Bytes → Bytes) (pp : PSI.PP) (Y : List Block) (hY : Y.length = pp.senderNum) :
    ∃ (k : Bytes) (wire : List Bytes) (rest : Proc Unit), fixedKey = some k ∧ PSI.send net mul pp Y = sendX25519 net wire rest ∧
      (∀ z ∈ Y, mul k (hash z) ∈ wire) ∧
      ((∀ a b : Block, mul k (hash a) = mul k (hash b) → hash a = hash b) → ∀ z, mul k (hash z) ∈ wire ↔ z ∈ Y) := by
  obtain ⟨k, hk, -⟩ := fixedKey_spec
  refine ⟨k, Y.map fun x => mul k (hash x), ?_, hk, ?_, fun z hz => List.mem_map.2 ⟨z, hz, rfl⟩, ?_⟩
  rotate_left
  · unfold PSI.send
    rw [if_neg (by simp [hY]), hk]
    simp only [PSI.sendWith, hashAll_spec, List.map_map]
    exact rfl
  · intro hi z
    constructor
    · intro h
      obtain ⟨x, hx, e⟩ := List.mem_map.1 h
      rw [← hash_inj (hi x z e)]
      exact hx
    · intro h
      exact List.mem_map.2 ⟨z, h, rfl⟩

/-- The blocks whose hash is in the list. -/
def unhash (l : List Bytes) : List Block := (l.map fun u => Hash.D (Block.ofBytes (u.take 16))).filter fun z => hash z ∈ l

/-- **C62** (violated) No guessing is needed: the hash of an item is undone with the public fixed key. With a function `roots` that lists the points whose
multiple by the public key is a given point, the items whose masked hash was sent are computed from that message alone; all of the sender's items are among
them. -/
theorem cwprf_items_recovered (net : Net G) (mul : Bytes → Bytes → Bytes) (pp : PSI.PP) (Y : List Block) (hY : Y.length = pp.senderNum)
    (roots : Bytes → List Bytes) (hr : ∀ k, fixedKey = some k → ∀ u w, u ∈ roots w ↔ mul k u = w) :
    ∃ (k : Bytes) (wire : List Bytes) (rest : Proc Unit), fixedKey = some k ∧ PSI.send net mul pp Y = sendX25519 net wire rest ∧
      (∀ z ∈ Y, z ∈ unhash (wire.flatMap roots)) ∧ ∀ z, z ∈ unhash (wire.flatMap roots) ↔ mul k (hash z) ∈ wire := by
  obtain ⟨k, wire, rest, hk, hw, h1, -⟩ := cwprf_dictionary_attack net mul pp Y hY
  have key : ∀ z, z ∈ unhash (wire.flatMap roots) ↔ mul k (hash z) ∈ wire := by
    intro z
    unfold unhash
    rw [List.mem_filter, List.mem_map, decide_eq_true_iff, List.mem_flatMap]
    constructor
    · rintro ⟨-, w, hw, hz⟩
      rw [(hr k hk _ _).1 hz]
      exact hw
    · intro h
      have hm : hash z ∈ roots (mul k (hash z)) := (hr k hk _ _).2 rfl
      refine ⟨⟨hash z, List.mem_flatMap.2 ⟨_, h, hm⟩, ?_⟩, _, h, hm⟩
      obtain ⟨b, hb, -⟩ := Hash.blockToBytes_length z
      unfold hash
      rw [hb]
      exact Hash.hash_block_invertible z b hb
  exact ⟨k, wire, rest, hk, hw, fun z hz => (key z).2 (h1 z hz), key⟩

example : ∃ roots : Bytes → List Bytes, ∀ k, fixedKey = some k → ∀ u w, u ∈ roots w ↔ (fun _ u => u) k u = w :=
  ⟨fun w => [w], fun _ _ u w => by simp⟩

/-! ### Multi-query reverse private membership test -/

/-- `bits` has a 1 exactly at the items that satisfy `Q`, and a 0 elsewhere. -/
def Indicates (Q : Block → Prop) (X : List Block) (bits : Bytes) : Prop :=
  bits.length = X.length ∧ ∀ (i : Nat) (x : Block), X[i]? = some x → (bits[i]? = some 1 ∧ Q x) ∨ (bits[i]? = some 0 ∧ ¬ Q x)

/-- Points of this kind arrive as they were sent if they satisfy `good`. -/
structure Pts.Ok (net : Net G) (pt : Pts G P) (good : P → Prop) : Prop where
  m : ∀ ps, (∀ p ∈ ps, good p) → Chan.Matches net.C (pt.msg ps) (pt.shape ps.length)
  back : ∀ ps, pt.back (pt.msg ps) = some ps

theorem x25519Pts_ok (net : Net G) : Pts.Ok net x25519Pts (fun p => p.length = 32) :=
  ⟨fun _ h => ⟨rfl, h⟩, fun _ => rfl⟩

theorem ecPts_ok (net : Net G) (hn : net.Ok) (C : Ser.PointCodec G) : Pts.Ok net (ecPts C) (fun p => p ≠ 0) :=
  ⟨fun _ h => ⟨rfl, by rw [hn.inf]; exact h⟩, fun _ => rfl⟩

theorem Runs.ptsLR {α β : Type} (net : Net G) (hn : net.Ok) {pt : Pts G P} {good : P → Prop} (hp : pt.Ok net good) {ps : List P} {n : Nat}
    (hl : ps.length = n) (h0 : ∀ p ∈ ps, good p) {k : Proc α} {k' : List P → Proc β} {a : α} {b : β} (h : Runs k (k' ps) a b) :
    Runs (sendPts net pt ps k) (recvPts net pt n k') a b := by
  subst hl
  refine Runs.msgLR net hn (hp.m ps h0) ?_
  simp only [hp.back]
  exact h

theorem Runs.ptsRL {α β : Type} (net : Net G) (hn : net.Ok) {pt : Pts G P} {good : P → Prop} (hp : pt.Ok net good) {ps : List P} {n : Nat}
    (hl : ps.length = n) (h0 : ∀ p ∈ ps, good p) {k : Proc β} {k' : List P → Proc α} {a : α} {b : β} (h : Runs (k' ps) k a b) :
    Runs (recvPts net pt n k') (sendPts net pt ps k) a b := by
  subst hl
  refine Runs.msgRL net hn (hp.m ps h0) ?_
  simp only [hp.back]
  exact h

/-- Every bit position of the key `k` is set by one of the inserted keys: the exact condition under which the filter answers yes. -/
def Covered (h : UInt32 → Bytes → UInt32) (f : Bloom.Filter) (ks : List Bytes) (k : Bytes) : Prop :=
  ∀ s ∈ f.vecSalt, ∃ k' ∈ ks, ∃ s' ∈ f.vecSalt, (h s' k').toNat % f.tableSize = (h s k).toNat % f.tableSize

theorem covered_of_mem (h : UInt32 → Bytes → UInt32) (f : Bloom.Filter) (ks : List Bytes) (k : Bytes) (hk : k ∈ ks) : Covered h f ks k :=
  fun s hs => ⟨k, hk, s, hs, rfl⟩

theorem insertAll_spec (h : UInt32 → Bytes → UInt32) (rnd : List UInt32) (xs : List Bytes) (f : Bloom.Filter) (g : Bloom.Good f)
    (ks : List Bytes) (r : Bloom.Repr h f ks) (st : Bloom.Storable rnd f) :
    ∃ f', Bloom.insertAll h f xs = some f' ∧ Bloom.Good f' ∧ f'.hashNum = f.hashNum ∧ f'.vecSalt = f.vecSalt ∧
      f'.tableSize = f.tableSize ∧ Bloom.Repr h f' (ks ++ xs) ∧ Bloom.Storable rnd f' := by
  induction xs generalizing f ks with
  | nil => exact ⟨f, rfl, g, rfl, rfl, rfl, by simpa using r, st⟩
  | cons x xs ih =>
    obtain ⟨f1, h1, h2, h3, h4⟩ := Bloom.insert_spec g r x (List.range f.hashNum) (List.Perm.refl _)
    have e1 : f1.hashNum = f.hashNum := by rw [h3]
    have e2 : f1.vecSalt = f.vecSalt := by rw [h3]
    have e3 : f1.tableSize = f.tableSize := by rw [h3]
    have e4 : f1.randomSeed = f.randomSeed := by rw [h3]
    have e5 : f1.projected = f.projected := by rw [h3]
    have e6 : f1.inserted = (f.inserted + 1) % 2 ^ 64 := by rw [h3]
    have st1 : Bloom.Storable rnd f1 :=
      ⟨by rw [e1]; exact st.hn, by rw [e3]; exact st.ts, by rw [e5]; exact st.pe, by rw [e6]; exact Nat.mod_lt _ (by decide),
        h2.tlen, by rw [e1, e2, e4]; exact st.salts⟩
    obtain ⟨f', i1, i2, i3, i4, i5, i6, i7⟩ := ih f1 h2 _ h4 st1
    refine ⟨f', ?_, i2, by rw [i3, e1], by rw [i4, e2], by rw [i5, e3], by simpa using i6, i7⟩
    unfold Bloom.insertAll at i1 ⊢
    rw [List.foldlM_cons]
    have : Bloom.insert h f x = some f1 := h1
    rw [this]
    exact i1

namespace Rpmt

/-- The filter of the client after transfer: the size fits the message, and asking it gives the exact answers. -/
theorem filter_spec (b : BloomEnv) (pt : Pts G P) (g : Nat → Bytes) (hg : ∀ n, (g n).length = n) (stat : Nat) (hst : stat < 2 ^ 32)
    (ps : List P) (hps : ps.length < 2 ^ 64) (f0 : Bloom.Filter) (hnew : Bloom.new b.rnd ps.length stat (b.raw ps.length stat) = some f0)
    (hraw : 0 < (b.raw ps.length stat).toNat ∧ (b.raw ps.length stat).toNat ≤ 2 ^ 32 - 8) :
    ∃ size buf, filterBytes b pt g stat ps = some (size, buf) ∧ size < 256 ^ 8 ∧ buf.length = size ∧
      ∀ qs : List P, ∃ bits, indicationBits b pt buf qs = some bits ∧ bits.length = qs.length ∧
        ∀ (i : Nat) (q : P), qs[i]? = some q →
          (bits[i]? = some 1 ∧ Covered b.h f0 (ps.map pt.key) (pt.key q)) ∨ (bits[i]? = some 0 ∧ ¬ Covered b.h f0 (ps.map pt.key) (pt.key q)) := by
  obtain ⟨g0, r0⟩ := Bloom.new_good (H := b.h) hnew hraw.1 hraw.2
  have st0 := Bloom.new_storable hnew hst hps
  obtain ⟨f1, i1, i2, i3, i4, i5, i6, i7⟩ := insertAll_spec b.h b.rnd (ps.map pt.key) f0 g0 [] r0 st0
  obtain ⟨buf, w1, w2, -, w4⟩ := Bloom.bloom_object_round_trip i7 (g (Bloom.objectSize f1)) (by rw [hg])
  refine ⟨Bloom.objectSize f1, buf, ?_, ?_, by rw [w2, hg], ?_⟩
  · unfold filterBytes
    simp only [hnew, i1, w1, Option.bind_eq_bind, Option.bind_some, Option.pure_def]
  · have := i7.ts
    unfold Bloom.objectSize
    omega
  · intro qs
    have hone : ∀ q : P, ∃ c, Bloom.contain b.h f1 (pt.key q) = some c ∧ (c = true ↔ Covered b.h f0 (ps.map pt.key) (pt.key q)) := by
      intro q
      obtain ⟨c, c1, c2⟩ := Bloom.contain_spec i2 i6 (pt.key q) ((List.range f1.hashNum).map (·, false)) (by simp [List.map_map, Function.comp_def])
      refine ⟨c, c1, ?_⟩
      rw [c2, i4, i5]
      rfl
    choose c c1 c2 using hone
    refine ⟨qs.map fun q => if c q then 1 else 0, ?_, by simp, ?_⟩
    · unfold indicationBits
      rw [w4, Option.bind_some]
      induction qs with
      | nil => rfl
      | cons q qs ih =>
        rw [List.mapM_cons, ih, c1]
        rfl
    · intro i q hq
      rw [List.getElem?_map, hq, Option.map_some]
      by_cases h : c q = true
      · left; exact ⟨by rw [h]; rfl, (c2 q).1 h⟩
      · right; exact ⟨by rw [if_neg h], fun hc => h ((c2 q).2 hc)⟩

/-- **C63** mqRPMT with the Bloom filter, either kind of points: the server obtains one bit per item of the client, and the bit is 1
exactly if the filter positions of the doubly masked item are covered by the server's items. -/
theorem rpmt_run (net : Net G) (hn : net.Ok) (b : BloomEnv) (pt : Pts G P) (good : P → Prop) (hp : pt.Ok net good) (H : Block → P) (F1 F2 : P → P)
    (pp : PP) (X Y : List Block) (hX : X.length = pp.clientLen) (hY : Y.length = pp.serverLen)
    (h1 : ∀ y ∈ Y, good (F1 (H y))) (h2 : ∀ x ∈ X, good (F2 (H x))) (hst : pp.stat < 2 ^ 32) (hlen : Y.length < 2 ^ 64)
    (f0 : Bloom.Filter) (hnew : Bloom.new b.rnd Y.length pp.stat (b.raw Y.length pp.stat) = some f0)
    (hraw : 0 < (b.raw Y.length pp.stat).toNat ∧ (b.raw Y.length pp.stat).toNat ≤ 2 ^ 32 - 8) :
    ∃ bits, Runs (client net b pt H F2 pp X) (server net b pt H F1 pp Y) () bits ∧
      Indicates (fun x => Covered b.h f0 (Y.map fun y => pt.key (F2 (F1 (H y)))) (pt.key (F1 (F2 (H x))))) X bits := by
  obtain ⟨size, buf, e1, e2, e3, e4⟩ := filter_spec b pt net.g hn.g pp.stat hst ((Y.map fun y => F1 (H y)).map F2) (by simpa using hlen) f0
    (by simpa using hnew) (by simpa using hraw)
  obtain ⟨bits, b1, b2, b3⟩ := e4 ((X.map fun x => F2 (H x)).map F1)
  refine ⟨bits, ?_, by simpa using b2, ?_⟩
  · unfold client server
    rw [if_neg (by simp [hX]), if_neg (by simp [hY])]
    refine Runs.ptsRL net hn hp (by simp [hY]) ?_ (Runs.ptsLR net hn hp (by simp [hX]) ?_ ?_)
    · intro p hp
      obtain ⟨y, hy, rfl⟩ := List.mem_map.1 hp
      exact h1 y hy
    · intro p hp
      obtain ⟨x, hx, rfl⟩ := List.mem_map.1 hp
      exact h2 x hx
    · rw [e1]
      refine .intLR net hn e2 (.bytesLR net hn e3 ?_)
      rw [b1]
      exact .done _ _
  · intro i x hx
    have := b3 i (F1 (F2 (H x))) (by simp [hx])
    simpa [List.map_map, Function.comp_def] using this

/-- **C63** No false negatives: if the two maskings commute on the server's items, every common item gets a 1. -/
theorem rpmt_no_false_negative (b : BloomEnv) (pt : Pts G P) (H : Block → P) (F1 F2 : P → P) (X Y : List Block) (f0 : Bloom.Filter) (bits : Bytes)
    (hc : ∀ y ∈ Y, F2 (F1 (H y)) = F1 (F2 (H y)))
    (h : Indicates (fun x => Covered b.h f0 (Y.map fun y => pt.key (F2 (F1 (H y)))) (pt.key (F1 (F2 (H x))))) X bits)
    (i : Nat) (x : Block) (hx : X[i]? = some x) (hy : x ∈ Y) : bits[i]? = some 1 := by
  rcases h.2 i x hx with h | h
  · exact h.1
  · exact absurd (covered_of_mem _ _ _ _ (List.mem_map.2 ⟨x, hy, by rw [hc x hy]⟩)) h.2

/-- No item of `X` outside `Y` is answered yes by accident. -/
def NoFalsePositive (Q : Block → Prop) (X Y : List Block) : Prop := ∀ x ∈ X, Q x → x ∈ Y

/-- **C63** The bits are exactly membership when the filter has no false positive among the items asked. -/
theorem rpmt_exact (Q : Block → Prop) (X Y : List Block) (bits : Bytes) (h : Indicates Q X bits) (hq : ∀ y ∈ Y, Q y) (hf : NoFalsePositive Q X Y) :
    Indicates (· ∈ Y) X bits := by
  refine ⟨h.1, fun i x hx => ?_⟩
  rcases h.2 i x hx with h | h
  · exact .inl ⟨h.1, hf x (List.mem_of_getElem? hx) h.2⟩
  · exact .inr ⟨h.1, fun hy => h.2 (hq x hy)⟩

/-- **C63** mqRPMT without the Bloom filter: the bit is 1 exactly if the doubly masked item is among the server's doubly masked items,
whatever the shuffle. -/
theorem rpmt_shuffle_run [DecidableEq P] (net : Net G) (hn : net.Ok) (pt : Pts G P) (good : P → Prop) (hp : pt.Ok net good) (H : Block → P)
    (F1 F2 : P → P) (shuf : List P → List P) (hs : ∀ l, (shuf l).Perm l) (pp : PP) (X Y : List Block) (hX : X.length = pp.clientLen)
    (hY : Y.length = pp.serverLen) (h1 : ∀ y ∈ Y, good (F1 (H y))) (h2 : ∀ x ∈ X, good (F2 (H x))) (h3 : ∀ y ∈ Y, good (F2 (F1 (H y)))) :
    ∃ bits, Runs (clientShuffle net pt H F2 shuf pp X) (serverShuffle net pt H F1 pp Y) () bits ∧
      Indicates (fun x => ∃ y ∈ Y, F2 (F1 (H y)) = F1 (F2 (H x))) X bits := by
  refine ⟨(X.map fun x => F1 (F2 (H x))).map fun p => if p ∈ shuf ((Y.map fun y => F1 (H y)).map F2) then 1 else 0, ?_, by simp, ?_⟩
  · unfold clientShuffle serverShuffle
    rw [if_neg (by simp [hX]), if_neg (by simp [hY])]
    refine Runs.ptsRL net hn hp (by simp [hY]) ?_ (Runs.ptsLR net hn hp (by simp [hX]) ?_ (Runs.ptsLR net hn hp ?_ ?_ ?_))
    · intro p hp
      obtain ⟨y, hy, rfl⟩ := List.mem_map.1 hp
      exact h1 y hy
    · intro p hp
      obtain ⟨x, hx, rfl⟩ := List.mem_map.1 hp
      exact h2 x hx
    · rw [(hs _).length_eq]; simp [hY]
    · intro p hp
      rw [(hs _).mem_iff, List.map_map] at hp
      obtain ⟨y, hy, rfl⟩ := List.mem_map.1 hp
      exact h3 y hy
    · refine OTE.done_run ?_
      simp [List.map_map, Function.comp_def]
  · intro i x hx
    have e : ((X.map fun x => F1 (F2 (H x))).map fun p => if p ∈ shuf ((Y.map fun y => F1 (H y)).map F2) then (1 : UInt8) else 0)[i]? =
        some (if F1 (F2 (H x)) ∈ shuf ((Y.map fun y => F1 (H y)).map F2) then (1 : UInt8) else 0) := by
      simp [hx]
    rw [e]
    have m : F1 (F2 (H x)) ∈ shuf ((Y.map fun y => F1 (H y)).map F2) ↔ ∃ y ∈ Y, F2 (F1 (H y)) = F1 (F2 (H x)) := by
      rw [(hs _).mem_iff, List.map_map, List.mem_map]
      rfl
    by_cases c : F1 (F2 (H x)) ∈ shuf ((Y.map fun y => F1 (H y)).map F2)
    · left; exact ⟨by rw [if_pos c], m.1 c⟩
    · right; exact ⟨by rw [if_neg c], fun h => c (m.2 h)⟩

/-- When the X25519 filter of the default build answers yes. -/
def Hit (b : BloomEnv) (mul : Bytes → Bytes → Bytes) (k : Bytes) (f0 : Bloom.Filter) (Y : List Block) (x : Block) : Prop :=
  Covered b.h f0 (Y.map fun y => mul k (mul k (hash y))) (mul k (mul k (hash x)))

/-- **C63** The default build: the run ends, every common item gets bit 1, and the bits are exact when the filter has no false positive.
The statistical parameter is at most 128 (the filter's table of salts). -/
theorem rpmt_25519 (net : Net G) (hn : net.Ok) (b : BloomEnv) (mul : Bytes → Bytes → Bytes) (hmul : ∀ k p, (mul k p).length = 32)
    (pp : PP) (hst : pp.stat ≤ 128) (X Y : List Block) (hX : X.length = pp.clientLen) (hY : Y.length = pp.serverLen) (hlen : Y.length < 2 ^ 64)
    (hraw : 0 < (b.raw Y.length pp.stat).toNat ∧ (b.raw Y.length pp.stat).toNat ≤ 2 ^ 32 - 8) :
    ∃ k f0 bits, fixedKey = some k ∧ Bloom.new b.rnd Y.length pp.stat (b.raw Y.length pp.stat) = some f0 ∧
      Runs (client25519 net b mul pp X) (server25519 net b mul pp Y) () bits ∧ Indicates (Hit b mul k f0 Y) X bits ∧
      (∀ (i : Nat) (x : Block), X[i]? = some x → x ∈ Y → bits[i]? = some 1) ∧
      (NoFalsePositive (Hit b mul k f0 Y) X Y → Indicates (· ∈ Y) X bits) := by
  obtain ⟨k, hk, -⟩ := fixedKey_spec
  obtain ⟨f0, hf⟩ := Option.isSome_iff_exists.1 (Bloom.new_isSome b.rnd Y.length pp.stat (b.raw Y.length pp.stat) hst)
  obtain ⟨bits, h1, h2⟩ := rpmt_run net hn b x25519Pts _ (x25519Pts_ok net) hash (mul k) (mul k) pp X Y hX hY (fun _ _ => hmul _ _)
    (fun _ _ => hmul _ _) (by omega) hlen f0 hf hraw
  have hq : ∀ y ∈ Y, Hit b mul k f0 Y y := fun y hy => covered_of_mem _ _ _ _ (List.mem_map.2 ⟨y, hy, rfl⟩)
  refine ⟨k, f0, bits, hk, hf, ?_, h2, ?_, ?_⟩
  · unfold client25519 server25519
    rw [if_neg (by simp [hX]), if_neg (by simp [hY]), hk]
    exact h1
  · exact rpmt_no_false_negative b x25519Pts hash (mul k) (mul k) X Y f0 bits (fun _ _ => rfl) h2
  · exact fun hf => rpmt_exact _ X Y bits h2 hq hf

/-- A list of the wrong size stops the party that holds it. -/
theorem rpmt_wrong_size (net : Net G) (b : BloomEnv) (mul : Bytes → Bytes → Bytes) (pp : PP) (X : List Block) :
    (pp.clientLen ≠ X.length → client25519 net b mul pp X = .fail) ∧ (pp.serverLen ≠ X.length → server25519 net b mul pp X = .fail) := by
  constructor <;> intro h
  · unfold client25519; rw [if_pos h]
  · unfold server25519; rw [if_pos h]

/-- **C63** The P-256 build without the filter: with nonzero keys and an injective hash to nonzero
points, the bits are exactly membership, whatever the shuffle. -/
theorem rpmt_p256_shuffle [DecidableEq G] (cv : Curve G) (net : Net G) (hn : net.Ok) (H : Block → G) (hH0 : ∀ x, H x ≠ 0)
    (k1 k2 : Int) (hk1 : 0 < k1 ∧ k1 < cv.order) (hk2 : 0 < k2 ∧ k2 < cv.order) (shuf : List G → List G) (hs : ∀ l, (shuf l).Perm l) (pp : PP)
    (X Y : List Block) (hX : X.length = pp.clientLen) (hY : Y.length = pp.serverLen) (hi : ∀ x ∈ X, ∀ y ∈ Y, H x = H y → x = y) :
    ∃ bits, Runs (clientShuffle net (ecPts net.C) H (fun p => k2 • p) shuf pp X) (serverShuffle net (ecPts net.C) H (fun p => k1 • p) pp Y) () bits ∧
      Indicates (· ∈ Y) X bits := by
  have nz : ∀ (k : Int) (p : G), (0 < k ∧ k < cv.order) → p ≠ 0 → k • p ≠ 0 := fun k p hk hp => cv.smul_ne_zero hk.1 hk.2 hp
  obtain ⟨bits, h1, h2⟩ := rpmt_shuffle_run net hn (ecPts net.C) _ (ecPts_ok net hn net.C) H (fun p => k1 • p) (fun p => k2 • p) shuf hs pp X Y
    hX hY (fun y _ => nz _ _ hk1 (hH0 y)) (fun x _ => nz _ _ hk2 (hH0 x)) (fun y _ => nz _ _ hk2 (nz _ _ hk1 (hH0 y)))
  refine ⟨bits, h1, rpmt_exact _ X Y bits h2 (fun y hy => ⟨y, hy, smul_comm _ _ _⟩) ?_⟩
  rintro x hx ⟨y, hy, e⟩
  have : k2 • k1 • (H y - H x) = 0 := by
    rw [smul_sub, smul_sub, e, smul_comm, sub_self]
  by_cases hz : H y - H x = 0
  · rw [hi x hx y hy (sub_eq_zero.1 hz).symm]; exact hy
  · exact absurd this (nz _ _ hk2 (nz _ _ hk1 hz))

end Rpmt

/-! ### Non-vacuity -/

/-- A multiplication for examples: scalars act on 32-byte strings by adding bytes. -/
def toyMul (k p : Bytes) : Bytes := (List.range 32).map fun i => k.getD i 0 + p.getD i 0

theorem toyMul_length (k p : Bytes) : (toyMul k p).length = 32 := by simp [toyMul]

/-- The hypotheses of `psi_correct` are met by two items each with one in common. -/
example : ∃ k out, fixedKey = some k ∧ Runs (PSI.send toyNet toyMul (PSI.setup 40 1 1) [1, 2]) (PSI.receive toyNet toyMul (PSI.setup 40 1 1) [2, 3]) () out ∧
    out.Sublist [2, 3] ∧ 2 ∈ out := by
  obtain ⟨k, out, h1, h2, h3, h4, -⟩ := PSI.psi_correct toyNet toyNet_ok toyMul toyMul_length (PSI.setup 40 1 1) (by decide) [1, 2] [2, 3] rfl rfl (by decide)
  exact ⟨k, out, h1, h2, h3, h4 2 (by simp) (by simp)⟩

/-- With no collision of full images of these items the intersection comes out. -/
example (h : PSI.NoCollision (PSI.tag toyMul [] [] 32) [2, 3] [1, 2]) :
    Runs (PSI.sendWith toyNet toyMul [] ⟨2, 2, 32⟩ [1, 2]) (PSI.receiveWith toyNet toyMul [] ⟨2, 2, 32⟩ [2, 3]) () [2] := by
  have := PSI.psi_run toyNet toyNet_ok toyMul toyMul_length [] [] ⟨2, 2, 32⟩ (by decide) [1, 2] [2, 3] rfl rfl (by decide)
  rw [(PSI.psi_intersection toyMul [] [] 32 [2, 3] [1, 2] (fun _ _ => rfl)).2 h] at this
  exact this

/-- An environment for examples: tables of 1024 bits. -/
def toyBloom : BloomEnv := ⟨fun s k => s + k.foldl (fun a c => a * 31 + c.toUInt32) 0, [], fun _ _ => 1024, ⟨0, 0, [], 0, [], 0, 0⟩⟩

/-- The hypotheses of `rpmt_25519` are met. -/
example : ∃ bits, Runs (Rpmt.client25519 toyNet toyBloom toyMul (Rpmt.setup 40 1 1) [1, 2]) (Rpmt.server25519 toyNet toyBloom toyMul (Rpmt.setup 40 1 1) [2, 3]) () bits ∧
    bits[1]? = some 1 := by
  obtain ⟨-, -, bits, -, -, h, -, h2, -⟩ := Rpmt.rpmt_25519 toyNet toyNet_ok toyBloom toyMul toyMul_length (Rpmt.setup 40 1 1) (by decide) [1, 2] [2, 3] rfl rfl
    (by decide) (by decide)
  exact ⟨bits, h, h2 1 2 rfl (by simp)⟩

/-- The hypotheses of `rpmt_p256_shuffle` are met: items 1 and 2 against items 2 and 3. -/
example : ∃ bits, Runs
      (Rpmt.clientShuffle toyNet (ecPts toyNet.C) (fun x => if x = 1 then 1 else if x = 2 then 2 else 3) (fun p => (3 : Int) • p) List.reverse ⟨40, 2, 2⟩ [1, 2])
      (Rpmt.serverShuffle toyNet (ecPts toyNet.C) (fun x => if x = 1 then 1 else if x = 2 then 2 else 3) (fun p => (5 : Int) • p) ⟨40, 2, 2⟩ [2, 3]) () bits ∧
    Indicates (· ∈ [2, 3]) [1, 2] bits :=
  Rpmt.rpmt_p256_shuffle toyCurve toyNet toyNet_ok _ (by intro x; split <;> [decide; (split <;> decide)]) 5 3 (by decide) (by decide) List.reverse List.reverse_perm
    ⟨40, 2, 2⟩ [1, 2] [2, 3] rfl rfl (by
      intro x hx y hy
      simp only [List.mem_cons, List.not_mem_nil, or_false] at hx hy
      rcases hx with rfl | rfl <;> rcases hy with rfl | rfl <;> decide)

end Kunlun.CwPRF
