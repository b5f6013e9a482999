import Verif.Props.VoleOprf
/-!
C98: what the parties of Private-ID learn about items that are not their own.

The identifier of an item is the XOR of two pseudorandom values, one for a key of the sender and one for a key of the receiver. With the VOLE OPRF
each party ends with both keys (C79), so it can compute the identifier of every item it can think of and look it up in the shared list.
-/

namespace Kunlun.PSO

open Kunlun Proto CwPRF

variable {G : Type} [AddCommGroup G] {K : Type}

/-- An execution of the OPRF after which the server's key evaluates to `F` on every list in `Zs`. -/
def Serves (o : Oprf K) (F : Block → Bytes) (client : List Block) (Zs : List (List Block)) : Prop :=
  ∃ k f, Runs o.server (o.client client) k (client.map F ++ f) ∧ ∀ Z ∈ Zs, ∃ f', o.eval k Z = some (Z.map F ++ f')

/-- The same with a client that ends with the server's key; `keep` is this client. -/
def Leaks (o : Oprf K) (keep : List Block → Proc K) (F : Block → Bytes) (client : List Block) (Zs : List (List Block)) : Prop :=
  ∃ k, Runs o.server (keep client) k k ∧ ∀ Z ∈ Zs, ∃ f', o.eval k Z = some (Z.map F ++ f')

namespace PrivateID

/-- The items of the dictionary `D` whose identifiers are in the list. -/
def lookUp (o1 o2 : Oprf K) (k1 k2 : K) (D : List Block) (u : List Bytes) : Option (List Block) := do
  let a ← o1.eval k1 D
  let b ← o2.eval k2 D
  let ids ← combine D.length a b
  return ((D.zip ids).filter fun p => decide (p.2 ∈ u)).map Prod.fst

/-- `receive` with another end: it sends and receives the same bytes. -/
def curiousReceive (mq : Mq) (e : OTE.Env G) (HB : Bytes → Block) (r : RDraw) (shuf : List Bytes → List Bytes) (o1 o2 : Oprf K) (keep : List Block → Proc K)
    (pp : PP) (Y D : List Block) : Proc (List Block) :=
  if Y.length ≠ pp.receiverNum then .fail else
  (keep Y).bind fun k1 =>
  match o1.eval k1 Y with
  | none => .fail
  | some F1Y =>
    o2.server.bind fun k2 =>
    match o2.eval k2 Y with
    | none => .fail
    | some F2Y =>
      match combine pp.receiverNum F1Y F2Y with
      | none => .fail
      | some ids =>
        (PSU.receiveBytes mq e HB r pp.psu ids).bind fun u =>
        sendBytesVector e.net (shuf u) <| Proc.ofOption (lookUp o1 o2 k1 k2 D (shuf u))

/-- `send` with another end. -/
def curiousSend (mq : Mq) (e : OTE.Env G) (HB : Bytes → Block) (s : SDraw) (o1 o2 : Oprf K) (keep : List Block → Proc K) (pp : PP) (itemLen : Nat)
    (X D : List Block) : Proc (List Block) :=
  if X.length ≠ pp.senderNum then .fail else
  o1.server.bind fun k1 =>
  match o1.eval k1 X with
  | none => .fail
  | some F1X =>
    (keep X).bind fun k2 =>
    match o2.eval k2 X with
    | none => .fail
    | some F2X =>
      match combine pp.senderNum F1X F2X with
      | none => .fail
      | some ids =>
        (PSU.sendBytes mq e HB s pp.psu itemLen ids).bind fun _ =>
        recvBytesVector e.net fun u => Proc.ofOption (lookUp o1 o2 k1 k2 D u)

end PrivateID

theorem lookUp_spec (o1 o2 : Oprf K) (k1 k2 : K) (F1 F2 : Block → Bytes) (n : Nat) (l1 : ∀ x, (F1 x).length = n) (l2 : ∀ x, (F2 x).length = n)
    (D : List Block) (f1 f2 : List Bytes) (h1 : o1.eval k1 D = some (D.map F1 ++ f1)) (h2 : o2.eval k2 D = some (D.map F2 ++ f2)) (u : List Bytes) :
    PrivateID.lookUp o1 o2 k1 k2 D u = some (D.filter fun d => decide (ident F1 F2 d ∈ u)) := by
  unfold PrivateID.lookUp
  simp only [h1, h2, Option.bind_eq_bind, Option.bind_some, combine_spec F1 F2 D f1 f2 D.length rfl (fun x _ => by rw [l1, l2]), Option.pure_def,
    Option.some.injEq]
  clear h1 h2
  induction D with
  | nil => rfl
  | cons a E ih =>
    rw [List.map_cons, List.zip_cons_cons, List.filter_cons, List.filter_cons]
    split
    · rw [List.map_cons, ih]
    · exact ih

/-- The second half of Private-ID, with arbitrary ends. -/
theorem id_tail (mq : Mq) (e : OTE.Env G) (hn : e.net.Ok) (HB : Bytes → Block) (s : SDraw) (r : RDraw) (hb : OTE.BaseOk e 128 s.salt s.sk r.d r.r)
    (shuf : List Bytes → List Bytes) (hs : ∀ l, (shuf l).Perm l) (pp : PP) (itemLen : Nat) (A B : List Bytes) (hA : A.length = pp.senderNum)
    (hB : B.length = pp.receiverNum) (hA0 : A ≠ []) (hB0 : B ≠ []) (lA : ∀ z ∈ A, z.length = itemLen) (lB : ∀ z ∈ B, z.length = itemLen)
    (hsz : (A.length + B.length + 127) * (itemLen + 1) < 2 ^ 64) (Q : Block → Prop) [DecidablePred Q]
    (hm : MqRuns mq pp.mq Q (A.map HB) (B.map HB)) :
    ∃ u, u.Perm (B ++ A.filter fun x => decide (¬ Q (HB x))) ∧ ∀ {α β : Type} (fS : List Bytes → Proc α) (fR : List Bytes → Proc β) (a : α) (b : β),
      fS u = .done a → fR u = .done b → Runs ((PSU.sendBytes mq e HB s pp itemLen A).bind fun _ => recvBytesVector e.net fS)
      ((PSU.receiveBytes mq e HB r pp B).bind fun u => sendBytesVector e.net (shuf u) (fR (shuf u))) a b := by
  have hpad : PSU.padded A.length ≤ A.length + 127 := by unfold PSU.padded; omega
  have hmul : ∀ a, a ≤ A.length + B.length + 127 → a < 2 ^ 64 ∧ a * itemLen < 2 ^ 64 := by
    intro a ha
    have h3 := Nat.mul_le_mul_right (itemLen + 1) ha
    rw [Nat.mul_succ] at h3
    omega
  have hlen : itemLen < 2 ^ 64 := by
    have : 0 < A.length := List.length_pos_of_ne_nil hA0
    have h3 := (hmul 1 (by omega)).2
    omega
  have hpsu := psu_bytes_run mq e hn HB s r hb pp Q itemLen A B hA hB hA0 lA ⟨(hmul _ (by omega)).1, hlen, (hmul _ (by omega)).2⟩ hm
  set w := B ++ A.filter fun x => decide (¬ Q (HB x)) with hw
  refine ⟨shuf w, hs w, fun fS fR a b h1 h2 => ?_⟩
  refine Runs.bind hpsu _ _ ?_
  have hu : ∀ z ∈ shuf w, z.length = itemLen := by
    intro z hz
    rw [(hs _).mem_iff, hw, List.mem_append, List.mem_filter] at hz
    rcases hz with h | h
    · exact lB z h
    · exact lA z h.1
  have hwl : w.length ≤ A.length + B.length + 127 := by
    rw [hw, List.length_append]
    have := List.length_filter_le (fun x => decide (¬ Q (HB x))) A
    omega
  have hul : (shuf w).length ≤ A.length + B.length + 127 := by rw [(hs _).length_eq]; exact hwl
  refine .bytesVectorRL e.net hn ?_ (by rw [h1, h2]; exact .done _ _)
  refine ⟨itemLen, ?_, hu, (hmul _ hul).1, hlen, (hmul _ hul).2⟩
  intro h
  have := (hs w).length_eq
  have hB1 : 0 < B.length := List.length_pos_of_ne_nil hB0
  rw [h, hw, List.length_append] at this
  simp only [List.length_nil] at this
  omega

/-- In the shared list are the identifiers of the items of both parties. -/
theorem filter_ids (id : Block → Bytes) (Q : Bytes → Prop) [DecidablePred Q] (X Y D : List Block)
    (hinj : ∀ x ∈ X ++ Y, ∀ y ∈ D, id x = id y → x = y) (hq : ∀ z ∈ X.map id, Q z → z ∈ Y.map id) (u : List Bytes)
    (hu : u.Perm (Y.map id ++ (X.map id).filter fun x => decide (¬ Q x))) :
    (D.filter fun d => decide (id d ∈ u)) = D.filter fun d => decide (d ∈ X ∨ d ∈ Y) := by
  apply List.filter_congr
  intro d hd
  rw [decide_eq_decide, hu.mem_iff, List.mem_append, List.mem_filter]
  constructor
  · rintro (h | ⟨h, -⟩)
    · obtain ⟨y, hy, e⟩ := List.mem_map.1 h
      rw [← hinj y (by simp [hy]) d hd e]; exact .inr hy
    · obtain ⟨x, hx, e⟩ := List.mem_map.1 h
      rw [← hinj x (by simp [hx]) d hd e]; exact .inl hx
  · rintro (h | h)
    · by_cases hQ : Q (id d)
      · exact .inl (hq _ (List.mem_map_of_mem h) hQ)
      · exact .inr ⟨List.mem_map_of_mem h, by simpa using hQ⟩
    · exact .inl (List.mem_map_of_mem h)

section
variable (mq : Mq) (e : OTE.Env G) (hn : e.net.Ok) (HB : Bytes → Block) (s : SDraw) (r : RDraw) (hb : OTE.BaseOk e 128 s.salt s.sk r.d r.r)
    (shuf : List Bytes → List Bytes) (hs : ∀ l, (shuf l).Perm l) (o1 o2 : Oprf K) (keep : List Block → Proc K) (F1 F2 : Block → Bytes) (pp : PrivateID.PP)
    (itemLen : Nat) (X Y D : List Block) (hX : X.length = pp.senderNum) (hY : Y.length = pp.receiverNum) (hp1 : pp.psu.senderNum = pp.senderNum)
    (hp2 : pp.psu.receiverNum = pp.receiverNum) (hX0 : X ≠ []) (hY0 : Y ≠ []) (l1 : ∀ x, (F1 x).length = itemLen) (l2 : ∀ x, (F2 x).length = itemLen)
    (hsz : (X.length + Y.length + 127) * (itemLen + 1) < 2 ^ 64)
    (Q : Block → Prop) [DecidablePred Q] (hm : MqRuns mq pp.psu.mq Q ((X.map (ident F1 F2)).map HB) ((Y.map (ident F1 F2)).map HB))
    (hq : ∀ z ∈ X.map (ident F1 F2), Q (HB z) → z ∈ Y.map (ident F1 F2))
    (hinj : ∀ x ∈ X ++ Y, ∀ y ∈ D, ident F1 F2 x = ident F1 F2 y → x = y)

include l1 l2 in
theorem ident_length (x : Block) : (ident F1 F2 x).length = itemLen := by
  unfold ident; rw [List.length_zipWith, l1, l2, Nat.min_self]

include hn hb hs hX hY hp1 hp2 hX0 hY0 l1 l2 hsz hm hq hinj in
/-- **C98 (violation, receiver).** If the client of the first OPRF gets the server's key, the receiver finds out, for every list `D` of guesses, which
of them occur in the sender's or its own set, from the bytes of an ordinary run. -/
theorem private_id_receiver_looks_up (h1 : Leaks o1 keep F1 Y [X, Y, D]) (h2 : Serves o2 F2 X [Y, D]) :
    ∃ u, Runs (PrivateID.send mq e HB s o1 o2 pp itemLen X) (PrivateID.curiousReceive mq e HB r shuf o1 o2 keep pp Y D)
      (u, X.map (ident F1 F2)) (D.filter fun d => decide (d ∈ X ∨ d ∈ Y)) := by
  obtain ⟨k1, r1, e1⟩ := h1
  obtain ⟨k2, f2, r2, e2⟩ := h2
  obtain ⟨x1, e1X⟩ := e1 X (by simp)
  obtain ⟨y1, e1Y⟩ := e1 Y (by simp)
  obtain ⟨d1, e1D⟩ := e1 D (by simp)
  obtain ⟨y2, e2Y⟩ := e2 Y (by simp)
  obtain ⟨d2, e2D⟩ := e2 D (by simp)
  have li := ident_length F1 F2 itemLen l1 l2
  obtain ⟨u, hu, run⟩ := id_tail mq e hn HB s r hb shuf hs pp.psu itemLen (X.map (ident F1 F2)) (Y.map (ident F1 F2)) (by simp [hX, hp1])
    (by simp [hY, hp2]) (by simpa using hX0) (by simpa using hY0) (by intro z hz; obtain ⟨w, -, rfl⟩ := List.mem_map.1 hz; exact li w)
    (by intro z hz; obtain ⟨w, -, rfl⟩ := List.mem_map.1 hz; exact li w) (by simpa using hsz) Q hm
  refine ⟨u, ?_⟩
  unfold PrivateID.send PrivateID.curiousReceive
  rw [if_neg (by simp [hX]), if_neg (by simp [hY])]
  refine Runs.bind r1 _ _ ?_
  simp only [e1X, e1Y]
  refine Runs.bind r2.symm _ _ ?_
  simp only [e2Y, combine_spec F1 F2 X _ _ _ hX (fun x _ => by rw [l1, l2]), combine_spec F1 F2 Y _ _ _ hY (fun x _ => by rw [l1, l2])]
  refine run _ (fun u => Proc.ofOption (PrivateID.lookUp o1 o2 k1 k2 D u)) _ _ rfl ?_
  rw [lookUp_spec o1 o2 k1 k2 F1 F2 itemLen l1 l2 D d1 d2 e1D e2D, filter_ids (ident F1 F2) (fun z => Q (HB z)) X Y D hinj hq u hu]
  rfl

include hn hb hs hX hY hp1 hp2 hX0 hY0 l1 l2 hsz hm hq hinj in
/-- **C98 (violation, sender).** The same for the sender, which is the client of the second OPRF. -/
theorem private_id_sender_looks_up (h1 : Serves o1 F1 Y [X, D]) (h2 : Leaks o2 keep F2 X [X, Y, D]) :
    ∃ u, Runs (PrivateID.curiousSend mq e HB s o1 o2 keep pp itemLen X D) (PrivateID.receive mq e HB r shuf o1 o2 pp Y)
      (D.filter fun d => decide (d ∈ X ∨ d ∈ Y)) (u, Y.map (ident F1 F2)) := by
  obtain ⟨k1, f1, r1, e1⟩ := h1
  obtain ⟨k2, r2, e2⟩ := h2
  obtain ⟨x1, e1X⟩ := e1 X (by simp)
  obtain ⟨d1, e1D⟩ := e1 D (by simp)
  obtain ⟨x2, e2X⟩ := e2 X (by simp)
  obtain ⟨y2, e2Y⟩ := e2 Y (by simp)
  obtain ⟨d2, e2D⟩ := e2 D (by simp)
  have li := ident_length F1 F2 itemLen l1 l2
  obtain ⟨u, hu, run⟩ := id_tail mq e hn HB s r hb shuf hs pp.psu itemLen (X.map (ident F1 F2)) (Y.map (ident F1 F2)) (by simp [hX, hp1])
    (by simp [hY, hp2]) (by simpa using hX0) (by simpa using hY0) (by intro z hz; obtain ⟨w, -, rfl⟩ := List.mem_map.1 hz; exact li w)
    (by intro z hz; obtain ⟨w, -, rfl⟩ := List.mem_map.1 hz; exact li w) (by simpa using hsz) Q hm
  refine ⟨u, ?_⟩
  unfold PrivateID.curiousSend PrivateID.receive
  rw [if_neg (by simp [hX]), if_neg (by simp [hY])]
  refine Runs.bind r1 _ _ ?_
  simp only [e1X]
  refine Runs.bind r2.symm _ _ ?_
  simp only [e2X, e2Y, combine_spec F1 F2 X _ _ _ hX (fun x _ => by rw [l1, l2]), combine_spec F1 F2 Y _ _ _ hY (fun x _ => by rw [l1, l2])]
  refine run (fun u => Proc.ofOption (PrivateID.lookUp o1 o2 k1 k2 D u)) (fun u => .done (u, Y.map (ident F1 F2))) _ _ ?_ rfl
  rw [lookUp_spec o1 o2 k1 k2 F1 F2 itemLen l1 l2 D d1 d2 e1D e2D, filter_ids (ident F1 F2) (fun z => Q (HB z)) X Y D hinj hq u hu]
  rfl

end

/-! ### Example -/

/-- An OPRF with a fixed function of the low byte. -/
def exOprf (f : UInt8 → UInt8) : Oprf Unit :=
  ⟨.done (), fun _ X => some (X.map fun x => [f (UInt8.ofNat x.toNat)]), fun X => .done (X.map fun x => [f (UInt8.ofNat x.toNat)])⟩

theorem exIdent {x y : Block} (h : ident (fun x => [UInt8.ofNat x.toNat]) (fun _ => [7]) x = ident (fun x => [UInt8.ofNat x.toNat]) (fun _ => [7]) y) :
    UInt8.ofNat x.toNat = UInt8.ofNat y.toNat := by
  simp only [ident, List.zipWith_cons_cons, List.zipWith_nil_right, List.cons.injEq, and_true] at h
  have := congrArg (· ^^^ (7 : UInt8)) h
  simpa [UInt8.xor_assoc] using this

theorem exInj : ∀ x ∈ ([1, 2] ++ [2, 3, 4, 5] : List Block), ∀ y ∈ ([1, 3, 9] : List Block),
    ident (fun x => [UInt8.ofNat x.toNat]) (fun _ => [7]) x = ident (fun x => [UInt8.ofNat x.toNat]) (fun _ => [7]) y → x = y := by
  intro x hx y hy h
  have h' := exIdent h
  simp only [List.cons_append, List.nil_append, List.mem_cons, List.not_mem_nil, or_false] at hx hy
  rcases hx with rfl | rfl | rfl | rfl | rfl | rfl <;> rcases hy with rfl | rfl | rfl <;>
    first | rfl | (exact absurd (congrArg UInt8.toNat h') (by simp))

theorem exQ : ∀ z ∈ ([1, 2] : List Block).map (ident (fun x => [UInt8.ofNat x.toNat]) (fun _ => [7])),
    (fun b : Bytes => BitVec.ofNat 128 (b.getD 0 0).toNat) z ∈
      (([2, 3, 4, 5] : List Block).map (ident (fun x => [UInt8.ofNat x.toNat]) (fun _ => [7]))).map (fun b => BitVec.ofNat 128 (b.getD 0 0).toNat) →
    z ∈ ([2, 3, 4, 5] : List Block).map (ident (fun x => [UInt8.ofNat x.toNat]) (fun _ => [7])) := by
  intro z hz h
  obtain ⟨x, -, rfl⟩ := List.mem_map.1 hz
  obtain ⟨w, hw, e⟩ := List.mem_map.1 h
  obtain ⟨y, hy, rfl⟩ := List.mem_map.1 hw
  have e2 := congrArg BitVec.toNat e
  simp only [ident, List.zipWith_cons_cons, List.zipWith_nil_right, List.getD_cons_zero, BitVec.toNat_ofNat] at e2
  have b1 := (UInt8.ofNat y.toNat ^^^ (7 : UInt8)).toNat_lt
  have b2 := (UInt8.ofNat x.toNat ^^^ (7 : UInt8)).toNat_lt
  rw [Nat.mod_eq_of_lt (by omega), Nat.mod_eq_of_lt (by omega)] at e2
  refine List.mem_map.2 ⟨y, hy, ?_⟩
  simp only [ident, List.zipWith_cons_cons, List.zipWith_nil_right, UInt8.toNat_inj.1 e2]

/-- Sender `1, 2`, receiver `2, 3, 4, 5`, guesses `1, 3, 9`: the receiver learns that `1` is there and `9` is not. -/
example : ∃ u, Runs
      (PrivateID.send (idealMq (([1, 2].map (ident (fun x => [UInt8.ofNat x.toNat]) (fun _ => [7]))).map fun b => BitVec.ofNat 128 (b.getD 0 0).toNat))
        OTE.toyEnv (fun b => BitVec.ofNat 128 (b.getD 0 0).toNat) ⟨77, fun _ => 2⟩ (exOprf id) (exOprf fun _ => 7) (PrivateID.setup 40 1 2) 1 [1, 2])
      (PrivateID.curiousReceive (idealMq (([1, 2].map (ident (fun x => [UInt8.ofNat x.toNat]) (fun _ => [7]))).map fun b => BitVec.ofNat 128 (b.getD 0 0).toNat))
        OTE.toyEnv (fun b => BitVec.ofNat 128 (b.getD 0 0).toNat) ⟨78, 3, fun _ => 5⟩ List.reverse (exOprf id) (exOprf fun _ => 7) (fun _ => .done ())
        (PrivateID.setup 40 1 2) [2, 3, 4, 5] [1, 3, 9])
      (u, [1, 2].map (ident (fun x => [UInt8.ofNat x.toNat]) (fun _ => [7]))) [1, 3] := by
  obtain ⟨u, h⟩ := private_id_receiver_looks_up _ OTE.toyEnv toyNet_ok (fun b => BitVec.ofNat 128 (b.getD 0 0).toNat) ⟨77, fun _ => 2⟩ ⟨78, 3, fun _ => 5⟩
    (OTE.toyEnv_base _) List.reverse List.reverse_perm (exOprf id) (exOprf fun _ => 7) (fun _ => .done ()) (fun x => [UInt8.ofNat x.toNat]) (fun _ => [7])
    (PrivateID.setup 40 1 2) 1 [1, 2] [2, 3, 4, 5] [1, 3, 9] rfl rfl rfl rfl (by simp) (by simp) (fun _ => rfl) (fun _ => rfl) (by decide)
    _ (idealMq_runs _ _ _) exQ exInj
    ⟨(), OTE.done_run rfl, fun Z _ => ⟨[], by simp [exOprf]⟩⟩ ⟨(), [], OTE.done_run (by simp), fun Z _ => ⟨[], by simp [exOprf]⟩⟩
  exact ⟨u, h⟩

end Kunlun.PSO

namespace Kunlun.VOLEOPRF

open Kunlun Kunlun.Proto Kunlun.OKVS Kunlun.Baxos Kunlun.VOLE

variable {G : Type} [AddCommGroup G]

/-- **C98** The VOLE OPRF, which Private-ID uses, is such an OPRF: one function, for the ordinary client as well as for the one that keeps the key. -/
theorem vole_oprf_leaks (e : OTE.Env G) (hn : e.net.Ok) (c : BCfg) (hbin : c.binary = false) (hc : (c.cfg 0).Ok)
    (junk : Nat → Nat → OKVS.Node) (salt salt' : Block) (a : ACoins) (b : BCoins) (hb : OTE.BaseOk e 128 a.ot.salt a.ot.sk b.ot.d b.ot.r)
    (hb2 : OTE.BaseOk e 128 b.ot2.salt b.ot2.sk a.ot2.d a.ot2.r) (hN : Length (size c)) (Y P : List Block) (r : Block) (hr : drawR salt = some r)
    (hY : encode0 c junk r Y Y.length = some P) (hfitY : Fit c (hashes r Y)) (Zs : List (List Block)) (hfit : ∀ Z ∈ Zs, Fit c (hashes r Z)) :
    ∃ F : Block → Bytes, PSO.Serves (asOprf e c junk salt salt' a b) F Y Zs ∧
      PSO.Leaks (asOprf e c junk salt salt' a b) (fun Y => clientKeeps e c junk salt a Y Y.length) F Y Zs ∧ ∀ x, (F x).length = 16 := by
  obtain ⟨C, hC, run⟩ := oprf_run e hn c junk salt salt' a b hb hb2 hN Y P r hr hY
  obtain ⟨dvs, -, hdec⟩ := dec_spec hbin hc hY
  have hv : ∀ Z, Fit c (hashes r Z) → (dec c r C Z Z.length).map blockToV8 = some ((Z.map fun x => Block.toBytes (prf c dvs r C x)) ++ []) := by
    intro Z hZ
    rw [hdec r C Z Z.length hC (le_refl _) hZ, Option.map_some, Nat.sub_self, List.replicate_zero, List.append_nil, List.append_nil, blockToV8,
      List.map_map]
    rfl
  have he : ∀ Z ∈ Zs, ∃ f', (asOprf e c junk salt salt' a b).eval (r, blockToByte C) Z = some ((Z.map fun x => Block.toBytes (prf c dvs r C x)) ++ f') := by
    intro Z hZ
    refine ⟨[], ?_⟩
    show evaluate c r (blockToByte C) Z Z.length = _
    unfold evaluate
    rw [byteToBlock_blockToByte]
    exact hv Z (hfit Z hZ)
  exact ⟨fun x => Block.toBytes (prf c dvs r C x),
    ⟨(r, blockToByte C), [], run (fun r C => (dec c r C Y Y.length).map blockToV8) _ (hv Y hfitY), he⟩,
    ⟨(r, blockToByte C), run _ _ rfl, he⟩, fun x => Block.toBytes_length _⟩

/-- **C98 (violation)** Private-ID over the VOLE OPRF, from beginning to end: the identifiers are those of one function, and for every list of guesses
`D` the receiver, and likewise the sender, learns which of them are in the two sets. -/
theorem vole_private_id_looks_up (mq : PSO.Mq) (e : OTE.Env G) (hn : e.net.Ok) (HB : Bytes → Block) (s : PSO.SDraw) (d : PSO.RDraw)
    (hbp : OTE.BaseOk e 128 s.salt s.sk d.d d.r) (shuf : List Bytes → List Bytes) (hs : ∀ l, (shuf l).Perm l)
    (c : BCfg) (hbin : c.binary = false) (hc : (c.cfg 0).Ok) (hN : Length (size c))
    (junk1 junk2 : Nat → Nat → OKVS.Node) (salt1 salt1' salt2 salt2' : Block) (a1 a2 : ACoins) (b1 b2 : BCoins)
    (hb1 : OTE.BaseOk e 128 a1.ot.salt a1.ot.sk b1.ot.d b1.ot.r) (hb1' : OTE.BaseOk e 128 b1.ot2.salt b1.ot2.sk a1.ot2.d a1.ot2.r)
    (hb2 : OTE.BaseOk e 128 a2.ot.salt a2.ot.sk b2.ot.d b2.ot.r) (hb2' : OTE.BaseOk e 128 b2.ot2.salt b2.ot2.sk a2.ot2.d a2.ot2.r)
    (pp : PSO.PrivateID.PP) (X Y D P1 P2 : List Block) (r1 r2 : Block) (hr1 : drawR salt1 = some r1) (hr2 : drawR salt2 = some r2)
    (he1 : encode0 c junk1 r1 Y Y.length = some P1) (he2 : encode0 c junk2 r2 X X.length = some P2)
    (hfit : ∀ Z ∈ [X, Y, D], Fit c (hashes r1 Z) ∧ Fit c (hashes r2 Z))
    (hX : X.length = pp.senderNum) (hY : Y.length = pp.receiverNum) (hp1 : pp.psu.senderNum = pp.senderNum)
    (hp2 : pp.psu.receiverNum = pp.receiverNum) (hX0 : X ≠ []) (hY0 : Y ≠ []) (hsz : (X.length + Y.length + 127) * 17 < 2 ^ 64) :
    ∃ id : Block → Bytes, ∀ (Q : Block → Prop) [DecidablePred Q], PSO.MqRuns mq pp.psu.mq Q ((X.map id).map HB) ((Y.map id).map HB) →
      (∀ z ∈ X.map id, Q (HB z) → z ∈ Y.map id) → (∀ x ∈ X ++ Y, ∀ y ∈ D, id x = id y → x = y) →
      ∃ u v, Runs (PSO.PrivateID.send mq e HB s (asOprf e c junk1 salt1 salt1' a1 b1) (asOprf e c junk2 salt2 salt2' a2 b2) pp 16 X)
          (PSO.PrivateID.curiousReceive mq e HB d shuf (asOprf e c junk1 salt1 salt1' a1 b1) (asOprf e c junk2 salt2 salt2' a2 b2)
            (fun Y => clientKeeps e c junk1 salt1 a1 Y Y.length) pp Y D)
          (u, X.map id) (D.filter fun d => decide (d ∈ X ∨ d ∈ Y)) ∧
        Runs (PSO.PrivateID.curiousSend mq e HB s (asOprf e c junk1 salt1 salt1' a1 b1) (asOprf e c junk2 salt2 salt2' a2 b2)
            (fun X => clientKeeps e c junk2 salt2 a2 X X.length) pp 16 X D)
          (PSO.PrivateID.receive mq e HB d shuf (asOprf e c junk1 salt1 salt1' a1 b1) (asOprf e c junk2 salt2 salt2' a2 b2) pp Y)
          (D.filter fun d => decide (d ∈ X ∨ d ∈ Y)) (v, Y.map id) := by
  obtain ⟨F1, s1, k1, l1⟩ := vole_oprf_leaks e hn c hbin hc junk1 salt1 salt1' a1 b1 hb1 hb1' hN Y P1 r1 hr1 he1 (hfit Y (by simp)).1 [X, Y, D]
    fun Z hZ => (hfit Z hZ).1
  obtain ⟨F2, s2, k2, l2⟩ := vole_oprf_leaks e hn c hbin hc junk2 salt2 salt2' a2 b2 hb2 hb2' hN X P2 r2 hr2 he2 (hfit X (by simp)).2 [X, Y, D]
    fun Z hZ => (hfit Z hZ).2
  have t2 : PSO.Serves (asOprf e c junk2 salt2 salt2' a2 b2) F2 X [Y, D] := by
    obtain ⟨k, f, h, h'⟩ := s2
    exact ⟨k, f, h, fun Z hZ => h' Z (List.mem_cons_of_mem _ hZ)⟩
  have t1 : PSO.Serves (asOprf e c junk1 salt1 salt1' a1 b1) F1 Y [X, D] := by
    obtain ⟨k, f, h, h'⟩ := s1
    exact ⟨k, f, h, fun Z hZ => h' Z (by simp only [List.mem_cons, List.not_mem_nil, or_false] at hZ ⊢; tauto)⟩
  refine ⟨PSO.ident F1 F2, fun Q _ hm hq hinj => ?_⟩
  obtain ⟨u, hu⟩ := PSO.private_id_receiver_looks_up mq e hn HB s d hbp shuf hs _ _ _ F1 F2 pp 16 X Y D hX hY hp1 hp2 hX0 hY0 l1 l2 hsz Q hm hq hinj k1 t2
  obtain ⟨v, hv⟩ := PSO.private_id_sender_looks_up mq e hn HB s d hbp shuf hs _ _ _ F1 F2 pp 16 X Y D hX hY hp1 hp2 hX0 hY0 l1 l2 hsz Q hm hq hinj t1 k2
  exact ⟨u, v, hu, hv⟩

/-- The hypotheses of `vole_oprf_leaks` are met. -/
example : ∃ F : Block → Bytes, PSO.Serves (asOprf OTE.toyEnv toyCfg (fun _ _ => ⟨0, none, none⟩) 1 2 toyA toyB) F [5, 6, 7] [[7, 1], [9]] ∧
    PSO.Leaks (asOprf OTE.toyEnv toyCfg (fun _ _ => ⟨0, none, none⟩) 1 2 toyA toyB)
      (fun Y => clientKeeps OTE.toyEnv toyCfg (fun _ _ => ⟨0, none, none⟩) 1 toyA Y Y.length) F [5, 6, 7] [[7, 1], [9]] ∧ ∀ x, (F x).length = 16 := by
  obtain ⟨r, hr, hX⟩ := Option.bind_eq_some_iff.1 toy_solves
  refine vole_oprf_leaks OTE.toyEnv toyNet_ok toyCfg rfl toyCfg_ok _ 1 2 toyA toyB toy_base toy_base2 toy_length [5, 6, 7] _ r hr hX ?_ [[7, 1], [9]] ?_
  · unfold Fit; simp [hashes, setDense, idxFor, toyCfg, Idx.bits]
  · intro Z hZ
    simp only [List.mem_cons, List.not_mem_nil, or_false] at hZ
    rcases hZ with rfl | rfl <;> (unfold Fit; simp [hashes, setDense, idxFor, toyCfg, Idx.bits])

end Kunlun.VOLEOPRF
