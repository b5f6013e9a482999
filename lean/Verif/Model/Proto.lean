import Verif.Model.Channel
import Verif.Model.Block
import Mathlib.Logic.Relation
/-!
Two parties talking over a connection of `netio/stream_channel.hpp`, as used by everything under `mpc/`.

A party is a program that sends and receives byte strings. The two directions of the connection are byte queues. The operating system
may let either party go first, so a run is any sequence of steps. How bytes are grouped by `fwrite` and `fread` does not matter: that is
property C08, proved in `Verif/Props/Channel.lean`. Here one send appends all its bytes and one receive takes as many as it asked for.
-/

namespace Kunlun.Proto

open Kunlun

/-- A party: finished with a value, about to send, about to receive `n` bytes, or ended by `exit` or undefined behaviour. -/
inductive Proc (α : Type) where
  | done (v : α)
  | send (b : Bytes) (k : Proc α)
  | recv (n : Nat) (k : Bytes → Proc α)
  | fail

namespace Proc

variable {α β : Type}

/-- Sequential composition. -/
def bind : Proc α → (α → Proc β) → Proc β
  | .done v, f => f v
  | .send b k, f => .send b (k.bind f)
  | .recv n k, f => .recv n (fun b => (k b).bind f)
  | .fail, _ => .fail

/-- A local computation that may end the program. -/
def ofOption : Option α → Proc α
  | some v => .done v
  | none => .fail

/-- The calls of `SendDataInternal` one after the other. -/
def sendChunks (k : Proc α) : List Bytes → Proc α
  | [] => k
  | b :: bs => .send b (sendChunks k bs)

/-- A party that only receives (`Verif/Model/Channel.lean`). -/
def ofProg : Chan.Prog β → (β → Proc α) → Proc α
  | .done v, f => f v
  | .recv n k, f => .recv n (fun b => ofProg (k b) f)

end Proc

/-- Both parties and the bytes under way from the first to the second and back. -/
structure Conf (α β : Type) where
  p : Proc α
  q : Proc β
  ab : Bytes
  ba : Bytes

/-- One step of one party. -/
inductive Step {α β : Type} : Conf α β → Conf α β → Prop
  | sendL (b : Bytes) (k : Proc α) (q : Proc β) (ab ba : Bytes) : Step ⟨.send b k, q, ab, ba⟩ ⟨k, q, ab ++ b, ba⟩
  | recvL (n : Nat) (k : Bytes → Proc α) (q : Proc β) (ab ba : Bytes) (h : n ≤ ba.length) :
      Step ⟨.recv n k, q, ab, ba⟩ ⟨k (ba.take n), q, ab, ba.drop n⟩
  | sendR (p : Proc α) (b : Bytes) (k : Proc β) (ab ba : Bytes) : Step ⟨p, .send b k, ab, ba⟩ ⟨p, k, ab, ba ++ b⟩
  | recvR (p : Proc α) (n : Nat) (k : Bytes → Proc β) (ab ba : Bytes) (h : n ≤ ab.length) :
      Step ⟨p, .recv n k, ab, ba⟩ ⟨p, k (ab.take n), ab.drop n, ba⟩

/-- `n` steps. -/
inductive Steps {α β : Type} : Nat → Conf α β → Conf α β → Prop
  | refl (c) : Steps 0 c c
  | tail {n a b c} : Step a b → Steps n b c → Steps (n + 1) a c

/-- Some number of steps. -/
def Reach {α β : Type} (a b : Conf α β) : Prop := ∃ n, Steps n a b

/-- Started with an empty connection, the two parties can finish with results `a` and `b`, leaving the connection empty. -/
def Runs {α β : Type} (p : Proc α) (q : Proc β) (a : α) (b : β) : Prop := Reach ⟨p, q, [], []⟩ ⟨.done a, .done b, [], []⟩

/-! ### Determinism: the result does not depend on who goes first -/

section
variable {α β : Type}

theorem Steps.trans {m n : Nat} {a b c : Conf α β} (h1 : Steps m a b) (h2 : Steps n b c) : Steps (m + n) a c := by
  induction h1 with
  | refl => simpa using h2
  | tail s _ ih => rw [Nat.add_right_comm]; exact .tail s (ih h2)

theorem Reach.refl (c : Conf α β) : Reach c c := ⟨0, .refl c⟩

theorem Reach.trans {a b c : Conf α β} (h1 : Reach a b) (h2 : Reach b c) : Reach a c :=
  ⟨_, h1.choose_spec.trans h2.choose_spec⟩

theorem Reach.one {a b : Conf α β} (h : Step a b) : Reach a b := ⟨1, .tail h (.refl _)⟩

/-- Two different steps from one configuration can be completed to the same configuration by one step each. -/
theorem diamond {c d e : Conf α β} (h1 : Step c d) (h2 : Step c e) : d = e ∨ ∃ f, Step d f ∧ Step e f := by
  cases h1 with
  | sendL b k q ab ba =>
    cases h2 with
    | sendL => exact .inl rfl
    | sendR _ b' k' => exact .inr ⟨_, .sendR _ _ _ _ _, .sendL _ _ _ _ _⟩
    | recvR _ n k' _ _ h =>
      refine .inr ⟨⟨k, k' (ab.take n), ab.drop n ++ b, ba⟩, ?_, .sendL _ _ _ _ _⟩
      have := Step.recvR k n k' (ab ++ b) ba (by rw [List.length_append]; omega)
      rwa [List.take_append_of_le_length h, List.drop_append_of_le_length h] at this
  | recvL n k q ab ba h =>
    cases h2 with
    | recvL => exact .inl rfl
    | sendR _ b' k' =>
      refine .inr ⟨⟨k (ba.take n), k', ab, ba.drop n ++ b'⟩, .sendR _ _ _ _ _, ?_⟩
      have := Step.recvL n k k' ab (ba ++ b') (by rw [List.length_append]; omega)
      rwa [List.take_append_of_le_length h, List.drop_append_of_le_length h] at this
    | recvR _ n' k' _ _ h' => exact .inr ⟨_, .recvR _ _ _ _ _ h', .recvL _ _ _ _ _ h⟩
  | sendR p b k ab ba =>
    cases h2 with
    | sendR => exact .inl rfl
    | sendL b' k' => exact .inr ⟨_, .sendL _ _ _ _ _, .sendR _ _ _ _ _⟩
    | recvL n k' _ _ _ h =>
      refine .inr ⟨⟨k' (ba.take n), k, ab, ba.drop n ++ b⟩, ?_, .sendR _ _ _ _ _⟩
      have := Step.recvL n k' k ab (ba ++ b) (by rw [List.length_append]; omega)
      rwa [List.take_append_of_le_length h, List.drop_append_of_le_length h] at this
  | recvR p n k ab ba h =>
    cases h2 with
    | recvR => exact .inl rfl
    | sendL b' k' =>
      refine .inr ⟨⟨k', k (ab.take n), ab.drop n ++ b', ba⟩, .sendL _ _ _ _ _, ?_⟩
      have := Step.recvR k' n k (ab ++ b') ba (by rw [List.length_append]; omega)
      rwa [List.take_append_of_le_length h, List.drop_append_of_le_length h] at this
    | recvL n' k' _ _ _ h' => exact .inr ⟨_, .recvL _ _ _ _ _ h', .recvR _ _ _ _ _ h⟩

/-- A configuration in which nobody can move. -/
def Final (c : Conf α β) : Prop := ∀ d, ¬ Step c d

theorem final_done (a : α) (b : β) (ab ba : Bytes) : Final (⟨.done a, .done b, ab, ba⟩ : Conf α β) := by
  intro d h; cases h

/-- One step of another run can be made up for: the end is one step nearer. -/
theorem Steps.replay {n : Nat} {c f d : Conf α β} (h : Steps n c f) (hf : Final f) (hs : Step c d) : ∃ m, n = m + 1 ∧ Steps m d f := by
  induction h generalizing d with
  | refl => exact absurd hs (hf d)
  | tail s rest ih =>
    rcases diamond s hs with rfl | ⟨g, h1, h2⟩
    · exact ⟨_, rfl, rest⟩
    · obtain ⟨m, rfl, h3⟩ := ih hf h1
      exact ⟨m + 1, rfl, .tail h2 h3⟩

/-- If some run ends in `f`, then every run has at most as many steps and can be continued to `f`, so every run ends in `f`. -/
theorem Steps.all_runs {n k : Nat} {c f d : Conf α β} (h : Steps n c f) (hf : Final f) (hd : Steps k c d) : k ≤ n ∧ Steps (n - k) d f := by
  induction hd generalizing n with
  | refl => exact ⟨Nat.zero_le _, h⟩
  | tail s _ ih =>
    obtain ⟨m, rfl, h1⟩ := h.replay hf s
    obtain ⟨h2, h3⟩ := ih h1
    exact ⟨by omega, by rwa [Nat.add_sub_add_right]⟩

/-! ### Rules -/

theorem Step.bindL {γ : Type} {c d : Conf α β} (h : Step c d) (f : α → Proc γ) : Step ⟨c.p.bind f, c.q, c.ab, c.ba⟩ ⟨d.p.bind f, d.q, d.ab, d.ba⟩ := by
  cases h
  · exact .sendL _ _ _ _ _
  · exact .recvL _ _ _ _ _ (by assumption)
  · exact .sendR _ _ _ _ _
  · exact .recvR _ _ _ _ _ (by assumption)

theorem Step.bindR {γ : Type} {c d : Conf α β} (h : Step c d) (f : β → Proc γ) : Step ⟨c.p, c.q.bind f, c.ab, c.ba⟩ ⟨d.p, d.q.bind f, d.ab, d.ba⟩ := by
  cases h
  · exact .sendL _ _ _ _ _
  · exact .recvL _ _ _ _ _ (by assumption)
  · exact .sendR _ _ _ _ _
  · exact .recvR _ _ _ _ _ (by assumption)

theorem Reach.bindBoth {γ δ : Type} {c d : Conf α β} (h : Reach c d) (f : α → Proc γ) (g : β → Proc δ) :
    Reach ⟨c.p.bind f, c.q.bind g, c.ab, c.ba⟩ ⟨d.p.bind f, d.q.bind g, d.ab, d.ba⟩ := by
  obtain ⟨n, h⟩ := h
  induction h with
  | refl => exact .refl _
  | tail s _ ih => exact .trans (.one ((s.bindL f).bindR g)) ih

/-- A sub-protocol followed by the rest. -/
theorem Runs.bind {γ δ : Type} {p : Proc α} {q : Proc β} {a : α} {b : β} (h : Runs p q a b) (f : α → Proc γ) (g : β → Proc δ) {x : γ} {y : δ}
    (h2 : Runs (f a) (g b) x y) : Runs (p.bind f) (q.bind g) x y :=
  Reach.trans (Reach.bindBoth h f g) h2

/-- Exchange the roles of the two parties. -/
def Conf.swap (c : Conf α β) : Conf β α := ⟨c.q, c.p, c.ba, c.ab⟩

theorem Step.swap {c d : Conf α β} (h : Step c d) : Step c.swap d.swap := by
  cases h
  · exact .sendR _ _ _ _ _
  · exact .recvR _ _ _ _ _ (by assumption)
  · exact .sendL _ _ _ _ _
  · exact .recvL _ _ _ _ _ (by assumption)

theorem Runs.symm {p : Proc α} {q : Proc β} {a : α} {b : β} (h : Runs p q a b) : Runs q p b a := by
  obtain ⟨n, h⟩ := h
  have : ∀ {n : Nat} {c d : Conf α β}, Steps n c d → Steps n c.swap d.swap := by
    intro n c d h
    induction h with
    | refl => exact .refl _
    | tail s _ ih => exact .tail s.swap ih
  exact ⟨n, this h⟩

theorem Runs.done (a : α) (b : β) : Runs (.done a) (.done b) a b := Reach.refl _

theorem sendChunks_reachL (k : Proc α) (q : Proc β) (bs : List Bytes) (ab ba : Bytes) :
    Reach ⟨Proc.sendChunks k bs, q, ab, ba⟩ ⟨k, q, ab ++ bs.flatten, ba⟩ := by
  induction bs generalizing ab with
  | nil => rw [List.flatten_nil, List.append_nil]; exact Reach.refl _
  | cons b bs ih =>
    refine .trans (.one (.sendL _ _ _ _ _)) ?_
    have := ih (ab ++ b)
    rwa [List.append_assoc] at this

theorem sendChunks_reachR (p : Proc α) (k : Proc β) (bs : List Bytes) (ab ba : Bytes) :
    Reach ⟨p, Proc.sendChunks k bs, ab, ba⟩ ⟨p, k, ab, ba ++ bs.flatten⟩ := by
  induction bs generalizing ba with
  | nil => rw [List.flatten_nil, List.append_nil]; exact Reach.refl _
  | cons b bs ih =>
    refine .trans (.one (.sendR _ _ _ _ _)) ?_
    have := ih (ba ++ b)
    rwa [List.append_assoc] at this

theorem ofProg_reachL {γ : Type} (pr : Chan.Prog γ) (f : γ → Proc α) (q : Proc β) (ab ba : Bytes) (v : γ) (rest : Bytes)
    (h : pr.run ba = some (v, rest)) : Reach ⟨Proc.ofProg pr f, q, ab, ba⟩ ⟨f v, q, ab, rest⟩ := by
  induction pr generalizing ba with
  | done w => simp only [Chan.Prog.run, Option.some.injEq, Prod.mk.injEq] at h; obtain ⟨rfl, rfl⟩ := h; exact .refl _
  | recv n k ih =>
    simp only [Chan.Prog.run] at h
    split at h
    · simp at h
    · exact .trans (.one (.recvL _ _ _ _ _ (by omega))) (ih _ _ h)

theorem ofProg_reachR {γ : Type} (pr : Chan.Prog γ) (f : γ → Proc β) (p : Proc α) (ab ba : Bytes) (v : γ) (rest : Bytes)
    (h : pr.run ab = some (v, rest)) : Reach ⟨p, Proc.ofProg pr f, ab, ba⟩ ⟨p, f v, rest, ba⟩ := by
  induction pr generalizing ab with
  | done w => simp only [Chan.Prog.run, Option.some.injEq, Prod.mk.injEq] at h; obtain ⟨rfl, rfl⟩ := h; exact .refl _
  | recv n k ih =>
    simp only [Chan.Prog.run] at h
    split at h
    · simp at h
    · exact .trans (.one (.recvR _ _ _ _ _ (by omega))) (ih _ _ h)

end

/-! ### Typed calls -/

/-- What a connection needs to know: point encoding, content of uninitialised buffers, old values of destination points. -/
structure Net (G : Type) where
  C : Ser.PointCodec G
  g : Nat → Bytes
  olds : Nat → G

variable {G : Type} {α β : Type}

/-- A typed send, see `Chan.sendMsg`. -/
def sendM (net : Net G) (m : Chan.Msg G) (k : Proc α) : Proc α :=
  match Chan.sendMsg net.C net.g m with
  | none => .fail
  | some bs => Proc.sendChunks k bs

/-- A typed receive, see `Chan.recvMsg`. -/
def recvM (net : Net G) (sh : Chan.Shape) (k : Chan.Msg G → Proc α) : Proc α := Proc.ofProg (Chan.recvMsg net.C net.olds sh) k

/-- stream_channel.hpp:279-299 `SendECPoints`. -/
def sendPoints (net : Net G) (ps : List G) (k : Proc α) : Proc α := sendM net (.points ps) k

/-- stream_channel.hpp:301-320 `ReceiveECPoints`. -/
def recvPoints (net : Net G) (n : Nat) (k : List G → Proc α) : Proc α :=
  recvM net (.points n) fun | .points ps => k ps | _ => .fail

/-- stream_channel.hpp:239-242 `SendBlocks`. -/
def sendBlocks (net : Net G) (bs : List Block) (k : Proc α) : Proc α := sendM net (.blocks (bs.map BitVec.toNat)) k

/-- stream_channel.hpp:244-247 `ReceiveBlocks`. -/
def recvBlocks (net : Net G) (n : Nat) (k : List Block → Proc α) : Proc α :=
  recvM net (.blocks n) fun | .blocks vs => k (vs.map (BitVec.ofNat 128)) | _ => .fail

/-- stream_channel.hpp:229-232 `SendBytes`. -/
def sendBytes (net : Net G) (b : Bytes) (k : Proc α) : Proc α := sendM net (.bytes b) k

/-- stream_channel.hpp:234-237 `ReceiveBytes`. -/
def recvBytes (net : Net G) (n : Nat) (k : Bytes → Proc α) : Proc α :=
  recvM net (.bytes n) fun | .bytes b => k b | _ => .fail

/-- stream_channel.hpp:427-441 `SendBytesVector`. -/
def sendBytesVector (net : Net G) (vs : List Bytes) (k : Proc α) : Proc α := sendM net (.bytesVector vs) k

/-- stream_channel.hpp:443-458 `ReceiveBytesVector`. -/
def recvBytesVector (net : Net G) (k : List Bytes → Proc α) : Proc α :=
  recvM net .bytesVector fun | .bytesVector vs => k vs | _ => .fail

/-- stream_channel.hpp:323-331 `SendEC25519Points`. -/
def sendX25519 (net : Net G) (ps : List Bytes) (k : Proc α) : Proc α := sendM net (.x25519 ps) k

/-- stream_channel.hpp:333-341 `ReceiveEC25519Points`. -/
def recvX25519 (net : Net G) (n : Nat) (k : List Bytes → Proc α) : Proc α :=
  recvM net (.x25519 n) fun | .x25519 ps => k ps | _ => .fail

/-- stream_channel.hpp:403-407 `SendInteger` of a `w`-byte integer. -/
def sendInt (net : Net G) (w v : Nat) (k : Proc α) : Proc α := sendM net (.int w v) k

/-- stream_channel.hpp:408-412 `ReceiveInteger`. -/
def recvInt (net : Net G) (w : Nat) (k : Nat → Proc α) : Proc α :=
  recvM net (.int w) fun | .int _ v => k v | _ => .fail

/-- stream_channel.hpp:387-393 `SendBigInt(a, LEN)`. -/
def sendBig (net : Net G) (len : Nat) (v : Int) (k : Proc α) : Proc α := sendM net (.big len v) k

/-- stream_channel.hpp:395-401 `ReceiveBigInt(a, LEN)`. -/
def recvBig (net : Net G) (len : Nat) (k : Int → Proc α) : Proc α :=
  recvM net (.big len) fun | .big _ v => k v | _ => .fail

/-- stream_channel.hpp:461-474 `SendStringVector`. -/
def sendStringVector (net : Net G) (len : Nat) (vs : List Bytes) (k : Proc α) : Proc α := sendM net (.stringVector len vs) k

/-- stream_channel.hpp:476-491 `ReceiveStringVector`. -/
def recvStringVector (net : Net G) (len : Nat) (k : List Bytes → Proc α) : Proc α :=
  recvM net (.stringVector len) fun | .stringVector _ vs => k vs | _ => .fail

end Kunlun.Proto
