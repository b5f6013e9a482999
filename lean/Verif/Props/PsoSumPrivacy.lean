import Verif.Props.Pso
/-!
Property C108: what the receiver of the cardinality-sum protocol gets by oblivious transfer says nothing about the sender's values.
(That the transfer gives it only the messages it selected is C94.)
-/

namespace Kunlun.PSO

open Kunlun Proto CwPRF

variable {G : Type} [AddCommGroup G]

theorem bind_assoc {α β γ : Type} (p : Proc α) (f : α → Proc β) (g : β → Proc γ) : (p.bind f).bind g = p.bind fun a => (f a).bind g := by
  induction p with
  | done a => rfl
  | fail => rfl
  | send b k ih => exact congrArg (Proc.send b) ih
  | recv n k ih => exact congrArg (Proc.recv n) (funext ih)

namespace CardSum

/-- `CardSum.receive` up to the values it gets by oblivious transfer; the bytes sent and received up to there are the same. -/
def curious (mq : Mq) (e : OTE.Env G) (d : RDraw) (pp : PP) (Y : List Block) : Proc (List Bytes) :=
  if Y.length ≠ pp.base.receiverNum then .fail else
  (mq.server pp.base.mq Y).bind fun bits =>
  OTE.receiveBytes e.net (OTE.ALSZ.randomReceive e baseLen d.salt d.d d.r bits bits.length) bits bits.length

/-- `CardSum.send` up to the same place. -/
def sendHead (mq : Mq) (e : OTE.Env G) (s : SDraw) (r : Nat → ℤ) (pp : PP) (X : List Block) (v : List ℤ) : Proc Unit :=
  if X.length ≠ pp.base.senderNum then .fail else
  match bigPow2 pp.logValue, bigPow2 pp.logSum with
  | some _, some bound =>
    let n := pp.base.senderNum
    (mq.client pp.base.mq X).bind fun _ =>
    match maskAll bound r n v with
    | none => .fail
    | some v' =>
      let m0 := (List.range n).map fun i => BigInt.toByteVector (pp.logSum / 8) (r i)
      let m1 := (List.range n).map fun i => BigInt.toByteVector (pp.logSum / 8) (v'.getD i 0)
      OTE.sendBytesPairs e.net (OTE.ALSZ.randomSend e baseLen s.salt s.sk n) m0 m1 n
  | _, _ => .fail

/-- The whole protocol is this head followed by the two numbers the receiver sends. -/
theorem send_eq_head (mq : Mq) (e : OTE.Env G) (s : SDraw) (r : Nat → ℤ) (pp : PP) (X : List Block) (v : List ℤ) (v' : List ℤ) (bound : ℤ)
    (hb : bigPow2 pp.logSum = some bound) (hv : maskAll bound r pp.base.senderNum v = some v') :
    send mq e s r pp X v = (sendHead mq e s r pp X v).bind fun _ => recvInt e.net 8 fun card => recvBig e.net (pp.logSum / 8) fun sum =>
      .done ((card, BigInt.mod (sum - (List.range pp.base.senderNum).foldl (fun a i => a + r i) 0) bound), v') := by
  unfold send sendHead
  split
  · rfl
  · rw [hb]
    cases bigPow2 pp.logValue with
    | none => rfl
    | some x => simp only [hv, bind_assoc]

/-- The receiver continues from the same place without further draws. -/
theorem receive_eq_curious (mq : Mq) (e : OTE.Env G) (d : RDraw) (pp : PP) (Y : List Block) :
    ∃ k : Bytes → List Bytes → Proc Nat, receive mq e d pp Y = if Y.length ≠ pp.base.receiverNum then .fail else
      (mq.server pp.base.mq Y).bind fun bits =>
      (OTE.receiveBytes e.net (OTE.ALSZ.randomReceive e baseLen d.salt d.d d.r bits bits.length) bits bits.length).bind (k bits) := ⟨_, rfl⟩

end CardSum

/-- The masks that explain what the receiver has with values `w` in place of `v`. -/
def otherMasks (B : ℤ) (bits : Bytes) (v w : List ℤ) (r : Nat → ℤ) (i : Nat) : ℤ :=
  if bits.getD i 0 = 1 then (r i + v.getD i 0 - w.getD i 0) % B else r i

/-- **C108** For any values `v` and `w` of the sender and any masks `r` there are masks under which the receiver gets by oblivious transfer
the same byte strings from values `w` as it gets from values `v` with `r`. They are masks the sender may draw, and different `r` give
different ones (the renaming with `v` and `w` exchanged undoes it). -/
theorem card_sum_values_hidden (mq : Mq) (e : OTE.Env G) (hn : e.net.Ok) (s : SDraw) (d : RDraw) (hb : OTE.BaseOk e 128 s.salt s.sk d.d d.r)
    (pp : CardSum.PP) (hL : pp.logSum % 8 = 0) (hL64 : pp.logSum < 64) (hV64 : pp.logValue < 64) (r : Nat → ℤ)
    (hr : ∀ i, 0 ≤ r i ∧ r i < 2 ^ pp.logSum) (X Y : List Block) (v w : List ℤ) (hX : X.length = pp.base.senderNum)
    (hv : v.length = pp.base.senderNum) (hw : w.length = pp.base.senderNum) (hY : Y.length = pp.base.receiverNum)
    (hX0 : X ≠ []) (hl : X.length % 128 = 0) (hlen : X.length < 2 ^ 61)
    (Q : Block → Prop) (bits : Bytes) (hm : Runs (mq.client pp.base.mq X) (mq.server pp.base.mq Y) () bits) (hi : Indicates Q X bits) :
    ∃ res, Runs (CardSum.sendHead mq e s r pp X v) (CardSum.curious mq e d pp Y) () res ∧
      Runs (CardSum.sendHead mq e s (otherMasks (2 ^ pp.logSum) bits v w r) pp X w) (CardSum.curious mq e d pp Y) () res ∧
      (∀ i, 0 ≤ otherMasks (2 ^ pp.logSum) bits v w r i ∧ otherMasks (2 ^ pp.logSum) bits v w r i < 2 ^ pp.logSum) ∧
      otherMasks (2 ^ pp.logSum) bits w v (otherMasks (2 ^ pp.logSum) bits v w r) = r := by
  have hB : (0 : ℤ) < 2 ^ pp.logSum := by positivity
  set B : ℤ := 2 ^ pp.logSum with hBdef
  have hr' : ∀ i, 0 ≤ otherMasks B bits v w r i ∧ otherMasks B bits v w r i < B := by
    intro i
    unfold otherMasks
    split
    · exact ⟨Int.emod_nonneg _ (by omega), Int.emod_lt_of_pos _ hB⟩
    · exact hr i
  have hbn : bits.length = pp.base.senderNum := by rw [hi.1, hX]
  have run : ∀ (r : Nat → ℤ) (v : List ℤ), (∀ i, 0 ≤ r i ∧ r i < B) → v.length = pp.base.senderNum →
      ∃ res : List Bytes, Runs (CardSum.sendHead mq e s r pp X v) (CardSum.curious mq e d pp Y) () res ∧ res.length = pp.base.senderNum ∧
        ∀ i < pp.base.senderNum, res[i]? = some (BigInt.toByteVector (pp.logSum / 8) (if bits.getD i 0 = 1 then (v.getD i 0 + r i) % B else r i)) := by
    intro r v hr hv
    obtain ⟨hmask, res, lres, hrun, gres⟩ := card_sum_prefix_bytes e hn s d hb pp.logSum pp.base.senderNum hL hL64 r (fun i _ => hr i) X v hX hv hX0 hl
      hlen Q bits hi _ rfl
    refine ⟨res, ?_, lres, gres⟩
    unfold CardSum.sendHead CardSum.curious
    rw [if_neg (by simp [hX]), if_neg (by simp [hY])]
    simp only [CardSum.bigPow2, hL64, hV64, if_true]
    refine Runs.bind hm _ _ ?_
    simp only [hmask]
    rw [hbn]
    exact hrun
  obtain ⟨res, h1, l1, g1⟩ := run r v hr hv
  obtain ⟨res', h2, l2, g2⟩ := run (otherMasks B bits v w r) w hr' hw
  have : res' = res := by
    apply List.ext_getElem?
    intro i
    by_cases h : i < pp.base.senderNum
    · rw [g1 i h, g2 i h]
      congr 2
      unfold otherMasks
      split
      · rw [Int.add_emod_emod]
        congr 1
        ring
      · rfl
    · rw [List.getElem?_eq_none (by omega), List.getElem?_eq_none (by omega)]
  refine ⟨res, h1, this ▸ h2, hr', ?_⟩
  funext i
  unfold otherMasks
  split
  · rw [Int.sub_emod, Int.emod_add_emod, ← Int.sub_emod, show r i + v.getD i 0 - w.getD i 0 + w.getD i 0 - v.getD i 0 = r i by ring]
    exact Int.emod_eq_of_lt (hr i).1 (hr i).2
  · rfl

/-- 128 items, of which `5` is common: the values `i` and the values `0` give the receiver the same strings. -/
example : ∃ res, Runs
      (CardSum.sendHead (idealMq ((List.range 128).map (BitVec.ofNat 128))) OTE.toyEnv ⟨77, fun _ => 2⟩ (fun i => i % 7) ⟨setup 40 7 7, 32, 8⟩
        ((List.range 128).map (BitVec.ofNat 128)) ((List.range 128).map Int.ofNat))
      (CardSum.curious (idealMq ((List.range 128).map (BitVec.ofNat 128))) OTE.toyEnv ⟨78, 3, fun _ => 5⟩ ⟨setup 40 7 7, 32, 8⟩
        (5 :: List.replicate 127 1000)) () res ∧ ∃ r', Runs
      (CardSum.sendHead (idealMq ((List.range 128).map (BitVec.ofNat 128))) OTE.toyEnv ⟨77, fun _ => 2⟩ r' ⟨setup 40 7 7, 32, 8⟩
        ((List.range 128).map (BitVec.ofNat 128)) (List.replicate 128 0))
      (CardSum.curious (idealMq ((List.range 128).map (BitVec.ofNat 128))) OTE.toyEnv ⟨78, 3, fun _ => 5⟩ ⟨setup 40 7 7, 32, 8⟩
        (5 :: List.replicate 127 1000)) () res := by
  obtain ⟨bits, h1, h2⟩ := idealMq_runs (setup 40 7 7).mq ((List.range 128).map (BitVec.ofNat 128)) (5 :: List.replicate 127 1000)
  obtain ⟨res, h3, h4, -⟩ := card_sum_values_hidden (idealMq ((List.range 128).map (BitVec.ofNat 128))) OTE.toyEnv toyNet_ok ⟨77, fun _ => 2⟩ ⟨78, 3, fun _ => 5⟩
    (OTE.toyEnv_base 77) ⟨setup 40 7 7, 32, 8⟩ rfl (by decide) (by decide) (fun i => i % 7) (fun i => ⟨by omega, by
      show ((i : ℤ) % 7) < 2 ^ 32
      omega⟩)
    ((List.range 128).map (BitVec.ofNat 128)) (5 :: List.replicate 127 1000) ((List.range 128).map Int.ofNat) (List.replicate 128 0)
    (by rw [List.length_map, List.length_range]; rfl) (by rw [List.length_map, List.length_range]; rfl) (by rw [List.length_replicate]; rfl)
    (by rw [List.length_cons, List.length_replicate]; rfl) (by decide) (by rw [List.length_map, List.length_range])
    (by rw [List.length_map, List.length_range]; decide) _ bits h1 h2
  exact ⟨res, h3, _, h4⟩

/-- **C66 (violation)** `Setup` accepts every multiple of 8 as binary length of the bound. From 64 on `BigInt(pow(2, LOG_SUM_BOUND))` converts a
`double` that does not fit into `size_t`, so the sender's run has no defined result, whatever its items and values are. -/
theorem card_sum_bound_64 (mq : Mq) (e : OTE.Env G) (s : SDraw) (r : Nat → ℤ) (stat a b logSum logValue : Nat) (h8 : logSum % 8 = 0) (h : 64 ≤ logSum)
    (X : List Block) (v : List ℤ) :
    ∃ pp, CardSum.setup stat a b logSum logValue = some pp ∧ pp.logSum = logSum ∧ CardSum.send mq e s r pp X v = .fail := by
  refine ⟨⟨PSO.setup stat a b, logSum, logValue⟩, by simp [CardSum.setup, h8], rfl, ?_⟩
  unfold CardSum.send
  split
  · rfl
  · have : CardSum.bigPow2 logSum = none := if_neg (by omega)
    simp only [this]
    cases CardSum.bigPow2 logValue <;> rfl

example : 64 % 8 = 0 ∧ 64 ≤ 64 := by decide

end Kunlun.PSO
