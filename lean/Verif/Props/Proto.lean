import Verif.Model.Proto
import Verif.Props.Channel
import Mathlib.Data.ZMod.Basic
/-! Two-party runs: the outcome does not depend on the interleaving, and proof rules for typed messages. -/

namespace Kunlun.Proto

open Kunlun

variable {G α β : Type}

/-- If the two parties can finish with `a` and `b`, then every run is finite, no run gets stuck before the end, and every complete run
ends with exactly these results and an empty connection. -/
theorem proto_outcome_unique (p : Proc α) (q : Proc β) (a : α) (b : β) (h : Runs p q a b) :
    ∃ n, ∀ k c, Steps k ⟨p, q, [], []⟩ c → k ≤ n ∧ Reach c ⟨.done a, .done b, [], []⟩ ∧
      (Final c → c = ⟨.done a, .done b, [], []⟩) := by
  obtain ⟨n, h⟩ := h
  refine ⟨n, fun k c hc => ?_⟩
  obtain ⟨h1, h2⟩ := h.all_runs (final_done a b [] []) hc
  refine ⟨h1, ⟨_, h2⟩, fun hf => ?_⟩
  cases h3 : n - k with
  | zero => rw [h3] at h2; cases h2; rfl
  | succ m => rw [h3] at h2; cases h2 with | tail s _ => exact absurd s (hf _)

/-- Two complete runs have the same results. -/
theorem proto_result_unique (p : Proc α) (q : Proc β) (a a' : α) (b b' : β) (h : Runs p q a b) (h' : Runs p q a' b') : a = a' ∧ b = b' := by
  obtain ⟨n, hn⟩ := proto_outcome_unique p q a b h
  obtain ⟨m, h'⟩ := h'
  have := (hn m _ h').2.2 (final_done a' b' [] [])
  cases this
  exact ⟨rfl, rfl⟩

/-- Buffers have the sizes the code gives them. -/
structure Net.Ok [AddCommGroup G] (net : Net G) : Prop where
  g : ∀ n, (net.g n).length = n
  inf : net.C.inf = 0

variable [AddCommGroup G]

theorem Reach.sendML (net : Net G) (hn : net.Ok) (m : Chan.Msg G) (sh : Chan.Shape) (hm : Chan.Matches net.C m sh) :
    ∃ w, (∀ suf, (Chan.recvMsg net.C net.olds sh).run (w ++ suf) = some (m, suf)) ∧
      (∀ {α β : Type} (k : Proc α) (q : Proc β) ab ba, Reach ⟨sendM net m k, q, ab, ba⟩ ⟨k, q, ab ++ w, ba⟩) ∧
      ∀ {α β : Type} (k : Proc β) (p : Proc α) ab ba, Reach ⟨p, sendM net m k, ab, ba⟩ ⟨p, k, ab, ba ++ w⟩ := by
  obtain ⟨chunks, h1, h2⟩ := Chan.msg_round_trip net.C net.g hn.g net.olds m sh hm
  refine ⟨chunks.flatten, h2, ?_, ?_⟩
  · intros; unfold sendM; rw [h1]; exact sendChunks_reachL _ _ _ _ _
  · intros; unfold sendM; rw [h1]; exact sendChunks_reachR _ _ _ _ _

/-- The first party sends, the second receives. -/
theorem Runs.msgLR (net : Net G) (hn : net.Ok) {m : Chan.Msg G} {sh : Chan.Shape} (hm : Chan.Matches net.C m sh) {k : Proc α}
    {k' : Chan.Msg G → Proc β} {a : α} {b : β} (h : Runs k (k' m) a b) : Runs (sendM net m k) (recvM net sh k') a b := by
  obtain ⟨w, h1, h2, -⟩ := Reach.sendML net hn m sh hm
  refine .trans (h2 k _ [] []) (.trans ?_ h)
  have := h1 []
  rw [List.append_nil] at this
  exact ofProg_reachR _ _ _ _ _ _ _ this

/-- The second party sends, the first receives. -/
theorem Runs.msgRL (net : Net G) (hn : net.Ok) {m : Chan.Msg G} {sh : Chan.Shape} (hm : Chan.Matches net.C m sh) {k : Proc β}
    {k' : Chan.Msg G → Proc α} {a : α} {b : β} (h : Runs (k' m) k a b) : Runs (recvM net sh k') (sendM net m k) a b := by
  obtain ⟨w, h1, -, h2⟩ := Reach.sendML net hn m sh hm
  refine .trans (h2 k _ [] []) (.trans ?_ h)
  have := h1 []
  rw [List.append_nil] at this
  exact ofProg_reachL _ _ _ _ _ _ _ this

/-- Both send first, then both receive. -/
theorem Runs.exchange (net : Net G) (hn : net.Ok) {m m' : Chan.Msg G} {sh sh' : Chan.Shape} (hm : Chan.Matches net.C m sh)
    (hm' : Chan.Matches net.C m' sh') {k : Chan.Msg G → Proc α} {k' : Chan.Msg G → Proc β} {a : α} {b : β} (h : Runs (k m') (k' m) a b) :
    Runs (sendM net m (recvM net sh' k)) (sendM net m' (recvM net sh k')) a b := by
  obtain ⟨w, h1, h2, -⟩ := Reach.sendML net hn m sh hm
  obtain ⟨w', h1', -, h2'⟩ := Reach.sendML net hn m' sh' hm'
  refine .trans (h2 _ _ [] []) (.trans (h2' _ _ _ []) (.trans ?_ h))
  have e := h1 []
  have e' := h1' []
  rw [List.append_nil] at e e'
  exact .trans (ofProg_reachL _ _ _ _ _ _ _ e') (ofProg_reachR _ _ _ _ _ _ _ e)

theorem Runs.pointsLR (net : Net G) (hn : net.Ok) {ps : List G} {n : Nat} (hl : ps.length = n) (h0 : ∀ p ∈ ps, p ≠ 0) {k : Proc α}
    {k' : List G → Proc β} {a : α} {b : β} (h : Runs k (k' ps) a b) : Runs (sendPoints net ps k) (recvPoints net n k') a b :=
  Runs.msgLR net hn (m := .points ps) (sh := .points n) ⟨hl.symm, by rw [hn.inf]; exact h0⟩ h

theorem Runs.pointsRL (net : Net G) (hn : net.Ok) {ps : List G} {n : Nat} (hl : ps.length = n) (h0 : ∀ p ∈ ps, p ≠ 0) {k : Proc β}
    {k' : List G → Proc α} {a : α} {b : β} (h : Runs (k' ps) k a b) : Runs (recvPoints net n k') (sendPoints net ps k) a b :=
  Runs.msgRL net hn (m := .points ps) (sh := .points n) ⟨hl.symm, by rw [hn.inf]; exact h0⟩ h

theorem blocks_back (bs : List Block) : (bs.map BitVec.toNat).map (BitVec.ofNat 128) = bs := by
  rw [List.map_map]
  conv => rhs; rw [← List.map_id bs]
  apply List.map_congr_left
  intro b _
  simp

theorem Runs.blocksLR (net : Net G) (hn : net.Ok) {bs : List Block} {n : Nat} (hl : bs.length = n) {k : Proc α}
    {k' : List Block → Proc β} {a : α} {b : β} (h : Runs k (k' bs) a b) : Runs (sendBlocks net bs k) (recvBlocks net n k') a b := by
  apply Runs.msgLR net hn (m := .blocks (bs.map BitVec.toNat))
  · refine ⟨by simp [hl], ?_⟩
    intro v hv
    rw [List.mem_map] at hv
    obtain ⟨b, -, rfl⟩ := hv
    exact b.isLt
  · simp only [blocks_back]; exact h

theorem Runs.blocksRL (net : Net G) (hn : net.Ok) {bs : List Block} {n : Nat} (hl : bs.length = n) {k : Proc β}
    {k' : List Block → Proc α} {a : α} {b : β} (h : Runs (k' bs) k a b) : Runs (recvBlocks net n k') (sendBlocks net bs k) a b := by
  apply Runs.msgRL net hn (m := .blocks (bs.map BitVec.toNat))
  · refine ⟨by simp [hl], ?_⟩
    intro v hv
    rw [List.mem_map] at hv
    obtain ⟨b, -, rfl⟩ := hv
    exact b.isLt
  · simp only [blocks_back]; exact h

theorem Runs.bytesLR (net : Net G) (hn : net.Ok) {bs : Bytes} {n : Nat} (hl : bs.length = n) {k : Proc α}
    {k' : Bytes → Proc β} {a : α} {b : β} (h : Runs k (k' bs) a b) : Runs (sendBytes net bs k) (recvBytes net n k') a b :=
  Runs.msgLR net hn (m := .bytes bs) (sh := .bytes n) hl.symm h

theorem Runs.bytesRL (net : Net G) (hn : net.Ok) {bs : Bytes} {n : Nat} (hl : bs.length = n) {k : Proc β}
    {k' : Bytes → Proc α} {a : α} {b : β} (h : Runs (k' bs) k a b) : Runs (recvBytes net n k') (sendBytes net bs k) a b :=
  Runs.msgRL net hn (m := .bytes bs) (sh := .bytes n) hl.symm h

/-- Rows of equal length, at least one, sizes that fit the 64-bit counters. -/
def Rows (vs : List Bytes) : Prop :=
  ∃ len, vs ≠ [] ∧ (∀ v ∈ vs, v.length = len) ∧ vs.length < 2 ^ 64 ∧ len < 2 ^ 64 ∧ vs.length * len < 2 ^ 64

theorem Runs.bytesVectorLR (net : Net G) (hn : net.Ok) {vs : List Bytes} (hv : Rows vs) {k : Proc α}
    {k' : List Bytes → Proc β} {a : α} {b : β} (h : Runs k (k' vs) a b) : Runs (sendBytesVector net vs k) (recvBytesVector net k') a b :=
  Runs.msgLR net hn (m := .bytesVector vs) (sh := .bytesVector) hv h

theorem Runs.bytesVectorRL (net : Net G) (hn : net.Ok) {vs : List Bytes} (hv : Rows vs) {k : Proc β}
    {k' : List Bytes → Proc α} {a : α} {b : β} (h : Runs (k' vs) k a b) : Runs (recvBytesVector net k') (sendBytesVector net vs k) a b :=
  Runs.msgRL net hn (m := .bytesVector vs) (sh := .bytesVector) hv h

theorem Runs.x25519LR (net : Net G) (hn : net.Ok) {ps : List Bytes} {n : Nat} (hl : ps.length = n) (h0 : ∀ p ∈ ps, p.length = 32) {k : Proc α}
    {k' : List Bytes → Proc β} {a : α} {b : β} (h : Runs k (k' ps) a b) : Runs (sendX25519 net ps k) (recvX25519 net n k') a b :=
  Runs.msgLR net hn (m := .x25519 ps) (sh := .x25519 n) ⟨hl.symm, h0⟩ h

theorem Runs.x25519RL (net : Net G) (hn : net.Ok) {ps : List Bytes} {n : Nat} (hl : ps.length = n) (h0 : ∀ p ∈ ps, p.length = 32) {k : Proc β}
    {k' : List Bytes → Proc α} {a : α} {b : β} (h : Runs (k' ps) k a b) : Runs (recvX25519 net n k') (sendX25519 net ps k) a b :=
  Runs.msgRL net hn (m := .x25519 ps) (sh := .x25519 n) ⟨hl.symm, h0⟩ h

theorem Runs.intLR (net : Net G) (hn : net.Ok) {w v : Nat} (hv : v < 256 ^ w) {k : Proc α}
    {k' : Nat → Proc β} {a : α} {b : β} (h : Runs k (k' v) a b) : Runs (sendInt net w v k) (recvInt net w k') a b :=
  Runs.msgLR net hn (m := .int w v) (sh := .int w) ⟨rfl, hv⟩ h

theorem Runs.intRL (net : Net G) (hn : net.Ok) {w v : Nat} (hv : v < 256 ^ w) {k : Proc β}
    {k' : Nat → Proc α} {a : α} {b : β} (h : Runs (k' v) k a b) : Runs (recvInt net w k') (sendInt net w v k) a b :=
  Runs.msgRL net hn (m := .int w v) (sh := .int w) ⟨rfl, hv⟩ h

theorem Runs.bigLR (net : Net G) (hn : net.Ok) {len : Nat} {v : Int} (h0 : 0 ≤ v) (h1 : v < 256 ^ len) {k : Proc α}
    {k' : Int → Proc β} {a : α} {b : β} (h : Runs k (k' v) a b) : Runs (sendBig net len v k) (recvBig net len k') a b :=
  Runs.msgLR net hn (m := .big len v) (sh := .big len) ⟨rfl, h0, h1⟩ h

theorem Runs.bigRL (net : Net G) (hn : net.Ok) {len : Nat} {v : Int} (h0 : 0 ≤ v) (h1 : v < 256 ^ len) {k : Proc β}
    {k' : Int → Proc α} {a : α} {b : β} (h : Runs (k' v) k a b) : Runs (recvBig net len k') (sendBig net len v k) a b :=
  Runs.msgRL net hn (m := .big len v) (sh := .big len) ⟨rfl, h0, h1⟩ h

theorem Runs.stringVectorLR (net : Net G) (hn : net.Ok) {len : Nat} {vs : List Bytes} (hv : (∀ v ∈ vs, v.length = len) ∧ vs.length < 2 ^ 64 ∧ vs.length * len < 2 ^ 64) {k : Proc α}
    {k' : List Bytes → Proc β} {a : α} {b : β} (h : Runs k (k' vs) a b) : Runs (sendStringVector net len vs k) (recvStringVector net len k') a b :=
  Runs.msgLR net hn (m := .stringVector len vs) (sh := .stringVector len) ⟨rfl, hv⟩ h

theorem Runs.stringVectorRL (net : Net G) (hn : net.Ok) {len : Nat} {vs : List Bytes} (hv : (∀ v ∈ vs, v.length = len) ∧ vs.length < 2 ^ 64 ∧ vs.length * len < 2 ^ 64) {k : Proc β}
    {k' : List Bytes → Proc α} {a : α} {b : β} (h : Runs (k' vs) k a b) : Runs (recvStringVector net len k') (sendStringVector net len vs k) a b :=
  Runs.msgRL net hn (m := .stringVector len vs) (sh := .stringVector len) ⟨rfl, hv⟩ h

/-- A connection carrying points of the group of seven elements, for examples. -/
def toyNet : Net (ZMod 7) where
  C := { byteLen := 2
         enc := fun p => if p = 0 then [0] else [4, UInt8.ofNat p.val]
         dec := fun s => match s with
           | [4, v] => if v.toNat < 7 then some (v.toNat : ZMod 7) else none
           | _ => none
         inf := 0
         enc_len := by decide
         dec_enc := by decide
         enc_inf := by decide
         byteLen_pos := by decide
         dec_zero := by
           intro t h
           match t, h with
           | [v], _ => rfl }
  g := fun n => List.replicate n 8
  olds := fun _ => 0

theorem toyNet_ok : toyNet.Ok := ⟨by simp [toyNet], rfl⟩

end Kunlun.Proto
