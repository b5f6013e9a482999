import Verif.Props.Proto
/-! Parties that cannot finish, whatever they receive. -/

namespace Kunlun.Proto

open Kunlun

variable {G α β : Type}

/-- No sequence of received bytes leads to a result. -/
def Proc.Never : Proc α → Prop
  | .done _ => False
  | .send _ k => k.Never
  | .recv _ k => ∀ b, (k b).Never
  | .fail => True

theorem Proc.Never.bind {p : Proc α} (h : p.Never) (f : α → Proc β) : (p.bind f).Never := by
  induction p with
  | done v => exact h.elim
  | send b k ih => exact ih h
  | recv n k ih => exact fun b => ih b (h b)
  | fail => trivial

theorem Proc.Never.then (p : Proc α) {f : α → Proc β} (h : ∀ a, (f a).Never) : (p.bind f).Never := by
  induction p with
  | done v => exact h v
  | send b k ih => exact ih
  | recv n k ih => exact fun b => ih b
  | fail => trivial

theorem Proc.Never.chunks {k : Proc α} (h : k.Never) (l : List Bytes) : (Proc.sendChunks k l).Never := by
  induction l with
  | nil => exact h
  | cons b l ih => exact ih

theorem Proc.Never.prog {γ : Type} (p : Chan.Prog γ) {k : γ → Proc α} (h : ∀ c, (k c).Never) : (Proc.ofProg p k).Never := by
  induction p with
  | done v => exact h v
  | recv n k ih => exact fun b => ih b

variable [AddCommGroup G]

theorem Proc.Never.sendBlocks (net : Net G) (bs : List Block) {k : Proc α} (h : k.Never) : (Proto.sendBlocks net bs k).Never := by
  unfold Proto.sendBlocks sendM
  split
  · trivial
  · exact h.chunks _

theorem Proc.Never.recvBlocks (net : Net G) (n : Nat) {k : List Block → Proc α} (h : ∀ bs, (k bs).Never) : (Proto.recvBlocks net n k).Never := by
  unfold Proto.recvBlocks recvM
  apply Proc.Never.prog
  intro c
  cases c <;> first | exact h _ | trivial

theorem never_steps {n : Nat} {c d : Conf α β} (h : Steps n c d) (hc : c.q.Never) : d.q.Never := by
  induction h with
  | refl => exact hc
  | tail s _ ih =>
    apply ih
    cases s with
    | sendL => exact hc
    | recvL => exact hc
    | sendR => exact hc
    | recvR => exact hc _

theorem never_stepsL {n : Nat} {c d : Conf α β} (h : Steps n c d) (hc : c.p.Never) : d.p.Never := by
  induction h with
  | refl => exact hc
  | tail s _ ih =>
    apply ih
    cases s with
    | sendL => exact hc
    | recvL => exact hc _
    | sendR => exact hc
    | recvR => exact hc

/-- No run of such a party finishes, whatever the other party does. -/
theorem not_runs_of_never {p : Proc α} {q : Proc β} (h : q.Never) (a : α) (b : β) : ¬ Runs p q a b := by
  rintro ⟨n, hs⟩
  exact never_steps hs h

theorem not_runs_of_neverL {p : Proc α} {q : Proc β} (h : p.Never) (a : α) (b : β) : ¬ Runs p q a b := by
  rintro ⟨n, hs⟩
  exact never_stepsL hs h

end Kunlun.Proto
