import Verif.Model.Channel
import Verif.Props.Serialization
/-! Property C08: the stream channel. -/

namespace Kunlun.Chan

open Kunlun

variable {α β : Type} {G : Type}

/-- Everything the sender has handed over or still will, as seen from a state: bytes of the current receive, bytes in flight,
bytes unsent. -/
def pending (s : State α) : Bytes := s.got ++ s.wire ++ s.unsent.flatten

/-- Invariant of a connection: running the receiver's program on all pending bytes has the fixed outcome `r`, and the current
receive is not already complete. -/
def Inv (r : Option (α × Bytes)) (s : State α) : Prop :=
  s.prog.run (pending s) = r ∧
    match s.prog with
    | .done _ => s.got = []
    | .recv n _ => s.got.length ≤ n

theorem step_inv {r : Option (α × Bytes)} {s : State α} (h : Inv r s) (a : Act) : Inv r (step s a) := by
  obtain ⟨h1, h2⟩ := h
  cases a with
  | send k =>
    have key : pending (step s (.send k)) = pending s ∧ (step s (.send k)).prog = s.prog ∧ (step s (.send k)).got = s.got := by
      unfold step pending
      cases hu : s.unsent with
      | nil => simp [hu]
      | cons d ds =>
        by_cases hk : d.length ≤ k
        · simp [hk]
        · simp [hk, ← List.append_assoc]
          rw [List.append_assoc (s.got ++ s.wire), List.take_append_drop]
    unfold Inv
    rw [key.1, key.2.1, key.2.2]
    exact ⟨h1, h2⟩
  | recv k =>
    unfold step
    cases hp : s.prog with
    | done v => simp only; exact ⟨h1, h2⟩
    | recv n f =>
      simp only
      rw [hp] at h1 h2
      simp only at h2
      generalize hm : min k (min (n - s.got.length) s.wire.length) = m
      have hmn : m ≤ n - s.got.length := by omega
      have hmw : m ≤ s.wire.length := by omega
      have htl : (s.wire.take m).length = m := by simp; omega
      have hpend : s.got ++ s.wire.take m ++ s.wire.drop m ++ s.unsent.flatten = pending s := by
        unfold pending
        rw [List.append_assoc s.got, List.take_append_drop]
      by_cases hc : (s.got ++ s.wire.take m).length = n
      · rw [if_pos hc]
        constructor
        · simp only [pending, List.nil_append]
          rw [← h1, Prog.run, if_neg, ← hpend]
          · rw [List.append_assoc _ (s.wire.drop m), ← hc]
            rw [List.take_append_of_le_length (Nat.le_refl _), List.take_length, List.drop_append_of_le_length (Nat.le_refl _),
              List.drop_length, List.nil_append]
          · rw [← hpend, List.append_assoc _ (s.wire.drop m), List.length_append, hc]; omega
        · cases f (s.got ++ s.wire.take m) with
          | done => rfl
          | recv => exact Nat.zero_le _
      · rw [if_neg hc]
        constructor
        · simp only [pending]
          rw [hpend, ← h1]
        · show (s.got ++ s.wire.take m).length ≤ n
          rw [List.length_append, htl]; omega

theorem exec_inv {r : Option (α × Bytes)} (acts : List Act) {s : State α} (h : Inv r s) : Inv r (exec s acts) := by
  induction acts generalizing s with
  | nil => exact h
  | cons a as ih => exact ih (step_inv h a)

theorem start_inv (chunks : List Bytes) (p : Prog α) : Inv (p.run chunks.flatten) (start chunks p) := by
  constructor
  · simp [start, pending]
  · cases p with
    | done => rfl
    | recv => exact Nat.zero_le _

/-- **C08 (safety)** Under every schedule of partial transfers, if the receiver finishes then its result is the one of reading the
concatenation of the sent data directly; and what it has not consumed is still pending, in order. -/
theorem channel_schedule_independent (chunks : List Bytes) (p : Prog α) (acts : List Act) (v : α)
    (hd : (exec (start chunks p) acts).prog = .done v) :
    p.run chunks.flatten = some (v, (exec (start chunks p) acts).wire ++ (exec (start chunks p) acts).unsent.flatten) := by
  obtain ⟨h1, h2⟩ := exec_inv acts (start_inv chunks p)
  rw [hd] at h1 h2
  rw [← h1]
  simp only at h2
  simp [Prog.run, pending, h2]

/-- Number of `recv` steps the program needs at most on the given data, used as progress measure. -/
def needs : Prog α → Bytes → Nat
  | .done _, _ => 0
  | .recv n k, s => if s.length < n then 0 else (n + 1) + needs (k (s.take n)) (s.drop n)

/-- Progress measure. -/
def measure (s : State α) : Nat :=
  s.unsent.flatten.length + s.unsent.length + (needs s.prog (pending s) - s.got.length)

/-- If all requested data are provided by the sender, the receiver is never stuck: in every reachable unfinished state, a send or a
receive of at least one byte strictly lowers the measure, and no action ever raises it. -/
theorem step_measure {r : α × Bytes} {s : State α} (h : Inv (some r) s) (a : Act) : measure (step s a) ≤ measure s := by
  obtain ⟨h1, h2⟩ := h
  cases a with
  | send k =>
    have key : pending (step s (.send k)) = pending s ∧ (step s (.send k)).prog = s.prog ∧ (step s (.send k)).got = s.got ∧
        (step s (.send k)).unsent.flatten.length + (step s (.send k)).unsent.length ≤ s.unsent.flatten.length + s.unsent.length := by
      unfold step pending
      cases hu : s.unsent with
      | nil => simp [hu]
      | cons d ds =>
        by_cases hk : d.length ≤ k
        · simp [hk]; omega
        · simp [hk, ← List.append_assoc]
          rw [List.append_assoc (s.got ++ s.wire), List.take_append_drop]
    unfold measure
    rw [key.1, key.2.1, key.2.2.1]
    omega
  | recv k =>
    unfold step
    cases hp : s.prog with
    | done v => exact Nat.le_refl _
    | recv n f =>
      simp only
      rw [hp] at h1 h2
      simp only at h2
      generalize hm : min k (min (n - s.got.length) s.wire.length) = m
      have hmn : m ≤ n - s.got.length := by omega
      have hmw : m ≤ s.wire.length := by omega
      have htl : (s.wire.take m).length = m := by simp; omega
      have hpend : s.got ++ s.wire.take m ++ s.wire.drop m ++ s.unsent.flatten = pending s := by
        unfold pending
        rw [List.append_assoc s.got, List.take_append_drop]
      have hen : ¬ (pending s).length < n := by
        intro hlt; simp [Prog.run, hlt] at h1
      by_cases hc : (s.got ++ s.wire.take m).length = n
      · rw [if_pos hc]
        unfold measure
        simp only [hp, needs, if_neg hen]
        have e1 : (pending s).take n = s.got ++ s.wire.take m := by
          rw [← hpend, List.append_assoc _ (s.wire.drop m), ← hc, List.take_append_of_le_length (Nat.le_refl _), List.take_length]
        have e2 : (pending s).drop n = s.wire.drop m ++ s.unsent.flatten := by
          rw [← hpend, List.append_assoc _ (s.wire.drop m), ← hc, List.drop_append_of_le_length (Nat.le_refl _),
              List.drop_length, List.nil_append]
        rw [e1, e2]
        simp only [pending, List.nil_append, List.length_nil, Nat.sub_zero]
        omega
      · rw [if_neg hc]
        have e3 : pending { s with wire := s.wire.drop m, got := s.got ++ s.wire.take m } = pending s := by
          rw [← hpend]; simp [pending]
        unfold measure
        rw [← hp, e3]
        simp only [List.length_append, htl]
        omega

theorem send_progress {s : State α} (hne : s.unsent ≠ []) (k : Nat) : measure (step s (.send (k + 1))) < measure s := by
  cases hu : s.unsent with
  | nil => exact absurd hu hne
  | cons d ds =>
    have key : pending (step s (.send (k + 1))) = pending s ∧ (step s (.send (k + 1))).prog = s.prog ∧ (step s (.send (k + 1))).got = s.got ∧
        (step s (.send (k + 1))).unsent.flatten.length + (step s (.send (k + 1))).unsent.length < s.unsent.flatten.length + s.unsent.length := by
      unfold step pending
      rw [hu]
      by_cases hk : d.length ≤ k + 1
      · simp [hk]; omega
      · simp [hk, ← List.append_assoc]
        rw [List.append_assoc (s.got ++ s.wire), List.take_append_drop]
        exact ⟨rfl, by omega⟩
    unfold measure
    rw [key.1, key.2.1, key.2.2.1]
    omega

theorem recv_progress {r : α × Bytes} {s : State α} (h : Inv (some r) s) (hu : s.unsent = []) (hnd : ∀ v, s.prog ≠ .done v) (j : Nat) :
    measure (step s (.recv (j + 1))) < measure s := by
  obtain ⟨h1, h2⟩ := h
  cases hp : s.prog with
  | done v => exact absurd hp (hnd v)
  | recv n f =>
    unfold step
    rw [hp]
    simp only
    rw [hp] at h1 h2
    simp only at h2
    generalize hm : min (j + 1) (min (n - s.got.length) s.wire.length) = m
    have hmn : m ≤ n - s.got.length := by omega
    have hmw : m ≤ s.wire.length := by omega
    have htl : (s.wire.take m).length = m := by simp; omega
    have hpend : s.got ++ s.wire.take m ++ s.wire.drop m ++ s.unsent.flatten = pending s := by
      unfold pending
      rw [List.append_assoc s.got, List.take_append_drop]
    have hen : ¬ (pending s).length < n := by
      intro hlt; simp [Prog.run, hlt] at h1
    by_cases hc : (s.got ++ s.wire.take m).length = n
    · rw [if_pos hc]
      unfold measure
      simp only [hp, needs, if_neg hen]
      have e1 : (pending s).take n = s.got ++ s.wire.take m := by
        rw [← hpend, List.append_assoc _ (s.wire.drop m), ← hc, List.take_append_of_le_length (Nat.le_refl _), List.take_length]
      have e2 : (pending s).drop n = s.wire.drop m ++ s.unsent.flatten := by
        rw [← hpend, List.append_assoc _ (s.wire.drop m), ← hc, List.drop_append_of_le_length (Nat.le_refl _),
            List.drop_length, List.nil_append]
      rw [e1, e2]
      simp only [pending, List.nil_append, List.length_nil, Nat.sub_zero]
      omega
    · rw [if_neg hc]
      have e3 : pending { s with wire := s.wire.drop m, got := s.got ++ s.wire.take m } = pending s := by
        rw [← hpend]; simp [pending]
      have hpos : 0 < m := by
        have : n ≤ s.got.length + s.wire.length := by
          have := hen
          unfold pending at this
          rw [hu] at this
          simp at this
          omega
        rw [List.length_append, htl] at hc
        omega
      unfold measure
      rw [← hp, e3]
      simp only [List.length_append, htl]
      have : needs s.prog (pending s) ≥ n + 1 := by rw [hp]; simp only [needs, if_neg hen]; omega
      omega

theorem exec_measure {r : α × Bytes} (acts : List Act) {s : State α} (h : Inv (some r) s) : measure (exec s acts) ≤ measure s := by
  induction acts generalizing s with
  | nil => exact Nat.le_refl _
  | cons a as ih => exact Nat.le_trans (ih (step_inv h a)) (step_measure h a)

/-- A schedule containing `n` disjoint rounds, each made of an `fwrite` of at least one byte and later an `fread` of at least one
byte, among any other actions.  Every schedule in which both parties get to run again and again has such rounds for every `n`. -/
inductive Fair : Nat → List Act → Prop
  | zero (l : List Act) : Fair 0 l
  | round {n : Nat} {l : List Act} (a b : List Act) (k j : Nat) : Fair n l →
      Fair (n + 1) (a ++ ([.send (k + 1)] ++ (b ++ ([.recv (j + 1)] ++ l))))

theorem done_stays {s : State α} {v : α} (h : s.prog = .done v) (acts : List Act) : (exec s acts).prog = .done v := by
  induction acts generalizing s with
  | nil => exact h
  | cons a as ih =>
    apply ih
    cases a with
    | send k =>
      unfold step
      cases s.unsent with
      | nil => exact h
      | cons d ds => simp only; split <;> exact h
    | recv k => unfold step; rw [h]; exact h

theorem unsent_nil_stays {s : State α} (h : s.unsent = []) (acts : List Act) : (exec s acts).unsent = [] := by
  induction acts generalizing s with
  | nil => exact h
  | cons a as ih =>
    apply ih
    cases a with
    | send k => unfold step; simp [h]
    | recv k =>
      unfold step
      cases s.prog with
      | done => exact h
      | recv n f => simp only; split <;> exact h

theorem exec_append (s : State α) (a b : List Act) : exec s (a ++ b) = exec (exec s a) b := List.foldl_append

theorem fair_finishes {r : α × Bytes} {n : Nat} {acts : List Act} (hf : Fair n acts) {s : State α} (h : Inv (some r) s)
    (hn : measure s < n) : ∃ v, (exec s acts).prog = .done v := by
  induction hf generalizing s with
  | zero => omega
  | round a b k j _ ih =>
    rw [exec_append, exec_append, exec_append, exec_append]
    have i1 := exec_inv a h
    have i2 : Inv (some r) (exec (exec s a) [.send (k + 1)]) := exec_inv _ i1
    have i3 := exec_inv b i2
    have i4 : Inv (some r) (exec (exec (exec (exec s a) [.send (k + 1)]) b) [.recv (j + 1)]) := exec_inv _ i3
    have m1 := exec_measure a h
    have m2 := exec_measure [.send (k + 1)] i1
    have m3 := exec_measure b i2
    have m4 := exec_measure [.recv (j + 1)] i3
    by_cases hd : ∃ v, (exec (exec (exec s a) [.send (k + 1)]) b).prog = .done v
    · obtain ⟨v, hv⟩ := hd
      exact ⟨v, done_stays (done_stays hv _) _⟩
    · apply ih i4
      by_cases hu : (exec s a).unsent = []
      · have u2 := unsent_nil_stays (unsent_nil_stays hu [.send (k + 1)]) b
        have : measure (exec (exec (exec (exec s a) [.send (k + 1)]) b) [.recv (j + 1)]) < _ :=
          recv_progress i3 u2 (fun v hv => hd ⟨v, hv⟩) j
        omega
      · have : measure (exec (exec s a) [.send (k + 1)]) < _ := send_progress hu k
        omega

/-- **C08 (liveness)** If the sender's data suffice for the receiver's program, then there is a number of rounds after which every
fair schedule, whatever its partial transfer sizes, has finished the receiver, with the directly computed result. -/
theorem channel_delivers (chunks : List Bytes) (p : Prog α) (v : α) (rest : Bytes) (hr : p.run chunks.flatten = some (v, rest)) :
    ∃ n, ∀ acts, Fair n acts → (exec (start chunks p) acts).prog = .done v := by
  have hi := start_inv chunks p
  rw [hr] at hi
  refine ⟨measure (start chunks p) + 1, fun acts hf => ?_⟩
  obtain ⟨w, hw⟩ := fair_finishes hf hi (Nat.lt_succ_self _)
  have := channel_schedule_independent chunks p acts w hw
  rw [hr] at this
  cases this
  exact hw

/-! ### Typed messages -/

theorem run_bind (p : Prog α) (f : α → Prog β) (s : Bytes) :
    (p.bind f).run s = (p.run s).bind (fun r => (f r.1).run r.2) := by
  induction p generalizing s with
  | done v => rfl
  | recv n k ih =>
    simp only [Prog.bind, Prog.run]
    split
    · rfl
    · exact ih _ _

theorem rows_flatten (len : Nat) (vs : List Bytes) (h : ∀ v ∈ vs, v.length = len) (n : Nat) (hn : n = vs.length) :
    rows len n vs.flatten = vs := by
  subst hn
  induction vs with
  | nil => rfl
  | cons v vs ih =>
    have hv := h v (by simp)
    simp only [List.length_cons, rows, List.flatten_cons]
    rw [← hv, List.take_append_of_le_length (Nat.le_refl _), List.take_length, List.drop_append_of_le_length (Nat.le_refl _),
      List.drop_length, List.nil_append, hv, ih (fun w hw => h w (by simp [hw]))]

theorem flatten_length_const (len : Nat) (vs : List Bytes) (h : ∀ v ∈ vs, v.length = len) : vs.flatten.length = vs.length * len := by
  induction vs with
  | nil => simp
  | cons v vs ih => simp [h v (by simp), ih (fun w hw => h w (by simp [hw])), Nat.succ_mul]; omega

theorem run_recv_append (n : Nat) (k : Bytes → Prog α) (b s : Bytes) (h : b.length = n) :
    (Prog.recv n k).run (b ++ s) = (k b).run s := by
  subst h
  simp only [Prog.run]
  rw [if_neg (by simp)]
  simp

/-- The receiver was told the right shape, and the message is one the wire format can carry: integers fit their width, big
integers are non-negative and fit, points are not infinity, rows all have the announced length, sizes fit 64 bits. -/
def Matches (C : Ser.PointCodec G) : Msg G → Shape → Prop
  | .bytes b, .bytes n => n = b.length
  | .int w v, .int w' => w' = w ∧ v < 256 ^ w
  | .blocks vs, .blocks n => n = vs.length ∧ ∀ v ∈ vs, v < 2 ^ 128
  | .big len v, .big len' => len' = len ∧ 0 ≤ v ∧ v < 256 ^ len
  | .points ps, .points n => n = ps.length ∧ ∀ p ∈ ps, p ≠ C.inf
  | .x25519 ps, .x25519 n => n = ps.length ∧ ∀ p ∈ ps, p.length = 32
  | .bytesVector vs, .bytesVector => ∃ len, vs ≠ [] ∧ (∀ v ∈ vs, v.length = len) ∧ vs.length < 2 ^ 64 ∧ len < 2 ^ 64 ∧ vs.length * len < 2 ^ 64
  | .stringVector len vs, .stringVector len' => len' = len ∧ (∀ v ∈ vs, v.length = len) ∧ vs.length < 2 ^ 64 ∧ vs.length * len < 2 ^ 64
  | _, _ => False

theorem packRows_exact (len : Nat) (vs : List Bytes) (h : ∀ v ∈ vs, v.length = len) : packRows len vs = some vs.flatten := by
  unfold packRows
  rw [if_pos]
  · congr 2
    conv => rhs; rw [← List.map_id vs]
    apply List.map_congr_left
    intro v hv
    rw [← h v hv, List.take_length, id]
  · rw [List.all_eq_true]
    intro v hv
    simp [h v hv]

theorem msg_round_trip (C : Ser.PointCodec G) (g : Nat → Bytes) (hg : ∀ n, (g n).length = n) (olds : Nat → G) (m : Msg G) (sh : Shape)
    (hm : Matches C m sh) : ∃ chunks, sendMsg C g m = some chunks ∧
      ∀ suf, (recvMsg C olds sh).run (chunks.flatten ++ suf) = some (m, suf) := by
  cases m <;> cases sh <;> simp only [Matches] at hm
  case bytes.bytes b n =>
    refine ⟨_, rfl, fun suf => ?_⟩
    simp only [List.flatten_cons, List.flatten_nil, List.append_nil, recvMsg]
    rw [run_recv_append _ _ _ _ hm.symm, Prog.run]
  case int.int w v w' =>
    obtain ⟨rfl, hv⟩ := hm
    refine ⟨_, rfl, fun suf => ?_⟩
    simp only [List.flatten_cons, List.flatten_nil, List.append_nil, recvMsg]
    rw [run_recv_append _ _ _ _ (by simp), Prog.run, ofLE_leBytes _ _ hv]
  case blocks.blocks vs n =>
    obtain ⟨rfl, hv⟩ := hm
    refine ⟨_, rfl, fun suf => ?_⟩
    have hl : ∀ b ∈ vs.map (leBytes 16), b.length = 16 := by
      intro b hb; simp only [List.mem_map] at hb; obtain ⟨v, _, rfl⟩ := hb; simp
    simp only [List.flatten_cons, List.flatten_nil, List.append_nil, recvMsg]
    rw [run_recv_append _ _ _ _ (by rw [flatten_length_const 16 _ hl]; simp), Prog.run, rows_flatten 16 _ hl _ (by simp), List.map_map]
    have : vs.map (ofLE ∘ leBytes 16) = vs := by
      conv => rhs; rw [← List.map_id vs]
      apply List.map_congr_left
      intro v h
      simp only [Function.comp, id]
      rw [ofLE_leBytes 16 v (by have := hv v h; rw [show (256 : Nat) ^ 16 = 2 ^ 128 from by norm_num]; exact this)]
    rw [this]
  case big.big len v len' =>
    obtain ⟨rfl, h0, h1⟩ := hm
    refine ⟨_, rfl, fun suf => ?_⟩
    obtain ⟨n, rfl⟩ := Int.eq_ofNat_of_zero_le h0
    have hn : n < 256 ^ len' := by exact_mod_cast h1
    simp only [List.flatten_cons, List.flatten_nil, List.append_nil, recvMsg]
    rw [run_recv_append _ _ _ _ (by unfold BigInt.bn2binpad; split <;> simp), Prog.run]
    have := BigInt.bin2bn_bn2binpad n (List.replicate len' 0) (by simpa using hn)
    exact congrArg (fun z => some (Msg.big len' z, suf)) this
  case points.points ps n =>
    obtain ⟨rfl, hp⟩ := hm
    refine ⟨_, rfl, fun suf => ?_⟩
    have hl : ∀ b ∈ ps.map (Ser.putPoint C (g C.byteLen)), b.length = C.byteLen := by
      intro b hb; simp only [List.mem_map] at hb; obtain ⟨p, h, rfl⟩ := hb
      rw [Ser.putPoint_finite C _ (hg _) p (hp p h), C.enc_len p (hp p h)]
    simp only [List.flatten_cons, List.flatten_nil, List.append_nil, recvMsg]
    rw [run_recv_append _ _ _ _ (by rw [flatten_length_const _ _ hl]; simp), Prog.run, rows_flatten _ _ hl _ (by simp)]
    congr 3
    apply List.ext_getElem?
    intro i
    rw [List.getElem?_mapIdx, List.getElem?_map]
    cases hi : ps[i]? with
    | none => rfl
    | some p =>
      have hmem := List.mem_of_getElem? hi
      simp only [Option.map_some]
      rw [Ser.putPoint_finite C _ (hg _) p (hp p hmem), C.dec_enc p (hp p hmem), Option.getD_some]
  case x25519.x25519 ps n =>
    obtain ⟨rfl, hp⟩ := hm
    refine ⟨_, rfl, fun suf => ?_⟩
    simp only [List.flatten_cons, List.flatten_nil, List.append_nil, recvMsg]
    rw [run_recv_append _ _ _ _ (by rw [flatten_length_const 32 _ hp]; omega), Prog.run, rows_flatten 32 _ hp _ rfl]
  case bytesVector.bytesVector vs =>
    obtain ⟨len, hne, hl, hn, hlen, hprod⟩ := hm
    cases vs with
    | nil => exact absurd rfl hne
    | cons v vs =>
      have hv := hl v (by simp)
      refine ⟨_, by simp only [sendMsg, hv, packRows_exact len _ hl]; rfl, fun suf => ?_⟩
      simp only [List.flatten_cons, List.flatten_nil, List.append_nil, recvMsg, List.append_assoc]
      rw [run_recv_append _ _ _ _ (by simp), run_recv_append _ _ _ _ (by simp),
        ofLE_leBytes 8 _ (by simpa using hlen), ofLE_leBytes 8 _ (by simpa using hn)]
      have hfl := flatten_length_const len (v :: vs) hl
      rw [List.flatten_cons] at hfl
      rw [← List.append_assoc, run_recv_append _ _ _ _ (by
        rw [hfl, Nat.mul_comm, Nat.mod_eq_of_lt]
        · simp
        · rw [Nat.mul_comm]; simpa using hprod), Prog.run]
      have := rows_flatten len (v :: vs) hl _ rfl
      rw [List.flatten_cons] at this
      rw [show vs.length + 1 = (v :: vs).length from rfl, this]
  case stringVector.stringVector len vs len' =>
    obtain ⟨rfl, hl, hn, hprod⟩ := hm
    refine ⟨_, by simp only [sendMsg, packRows_exact _ _ hl]; rfl, fun suf => ?_⟩
    simp only [List.flatten_cons, List.flatten_nil, List.append_nil, recvMsg, List.append_assoc]
    rw [run_recv_append _ _ _ _ (by simp), ofLE_leBytes 8 _ (by simpa using hn)]
    rw [run_recv_append _ _ _ _ (by
        rw [flatten_length_const _ _ hl, Nat.mul_comm len', Nat.mod_eq_of_lt]
        exact hprod), Prog.run, rows_flatten _ _ hl _ rfl]

/-- **C08 (typed messages)** Any sequence of typed messages sent on one side and received with the matching typed calls on the
other is recovered unchanged, and following data are left untouched. -/
theorem channel_typed_round_trip (C : Ser.PointCodec G) (g : Nat → Bytes) (hg : ∀ n, (g n).length = n) (olds : Nat → G)
    (ms : List (Msg G)) (shs : List Shape) (hm : List.Forall₂ (Matches C) ms shs) :
    ∃ chunks, sendAll C g ms = some chunks ∧ ∀ suf, (recvAll C olds shs).run (chunks.flatten ++ suf) = some (ms, suf) := by
  induction hm with
  | nil => exact ⟨[], rfl, fun suf => rfl⟩
  | cons h _ ih =>
    obtain ⟨c1, e1, r1⟩ := msg_round_trip C g hg olds _ _ h
    obtain ⟨c2, e2, r2⟩ := ih
    refine ⟨c1 ++ c2, by simp [sendAll, e1, e2], fun suf => ?_⟩
    simp only [recvAll, run_bind, List.flatten_append, List.append_assoc]
    rw [r1]
    simp only [Option.bind_some]
    rw [r2]
    rfl

/-- **C08** all together: typed messages, over the fragmenting channel, under every schedule. -/
theorem channel_typed_messages (C : Ser.PointCodec G) (g : Nat → Bytes) (hg : ∀ n, (g n).length = n) (olds : Nat → G)
    (ms : List (Msg G)) (shs : List Shape) (hm : List.Forall₂ (Matches C) ms shs) :
    ∃ chunks, sendAll C g ms = some chunks ∧
      (∀ acts v, (exec (start chunks (recvAll C olds shs)) acts).prog = .done v → v = ms) ∧
      ∃ n, ∀ acts, Fair n acts → (exec (start chunks (recvAll C olds shs)) acts).prog = .done ms := by
  obtain ⟨chunks, e, r⟩ := channel_typed_round_trip C g hg olds ms shs hm
  have r' := r []
  rw [List.append_nil] at r'
  refine ⟨chunks, e, fun acts v hv => ?_, channel_delivers chunks _ ms [] r'⟩
  have := channel_schedule_independent chunks _ acts v hv
  rw [r', Option.some.injEq, Prod.mk.injEq] at this
  exact this.1.symm

/-! ### Boundaries -/

/-- `SendBytesVector` of an empty vector evaluates `A[0]` of an empty vector. -/
theorem bytesVector_empty_undefined (C : Ser.PointCodec G) (g : Nat → Bytes) : sendMsg C g (.bytesVector []) = none := rfl

/-- `SendBytesVector` with a row shorter than the first reads outside that row. -/
theorem bytesVector_ragged_undefined (C : Ser.PointCodec G) (g : Nat → Bytes) (v w : Bytes) (vs : List Bytes) (hw : w ∈ vs)
    (h : w.length < v.length) : sendMsg C g (.bytesVector (v :: vs)) = none := by
  have : packRows v.length (v :: vs) = none := by
    unfold packRows
    rw [if_neg]
    rw [List.all_eq_true]
    intro hall
    have := hall w (by simp [hw])
    simp at this
    omega
  simp [sendMsg, this]

/-- If the peer stops before all requested bytes were sent, no schedule ever lets `ReceiveDataInternal` return: it loops forever
(end of file is not detected). -/
theorem channel_eof_never_returns (chunks : List Bytes) (p : Prog α) (h : p.run chunks.flatten = none) (acts : List Act) (v : α) :
    (exec (start chunks p) acts).prog ≠ .done v := by
  intro hd
  have := channel_schedule_independent chunks p acts v hd
  rw [h] at this
  cases this

/-- Concrete instance: three messages, received byte by byte, out of step with the sends. -/
example : Matches Ser.toyCodec (.bytesVector [[1, 2], [3, 4]]) .bytesVector ∧ Matches Ser.toyCodec (.points [true]) (.points 1) ∧
    Matches Ser.toyCodec (.big 4 300) (.big 4) :=
  ⟨⟨2, by simp, by simp, by simp, by simp, by simp⟩, ⟨rfl, by simp [Ser.toyCodec]⟩, rfl, by decide, by decide⟩

end Kunlun.Chan
