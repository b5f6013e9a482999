import Verif.Props.NaorPinkas
/-!
Property C107: what Naor-Pinkas oblivious transfer keeps from the receiver.

The two masks of a position are hashes of two points. A receiver that has both points has the Diffie-Hellman value of the two points the
sender sent before, whatever public key the receiver answered with. (That this value is hard to compute is an assumption on the curve and
not proved.)
-/

namespace Kunlun.NPOT

open Kunlun Kunlun.Proto

variable {G : Type} [AddCommGroup G]

/-- `W` is the Diffie-Hellman value of `A` and `B` for the base `g`. -/
def IsDH (g A B W : G) : Prop := ∃ a b : ℤ, A = a • g ∧ B = b • g ∧ W = (a * b) • g

/-- The value is determined by the two points. -/
theorem IsDH.unique {g A B W W' : G} (h : IsDH g A B W) (h' : IsDH g A B W') : W = W' := by
  obtain ⟨a, b, hA, hB, rfl⟩ := h
  obtain ⟨a', b', hA', hB', rfl⟩ := h'
  have h1 : (a * b) • g = a • (b' • g) := by rw [mul_smul, ← hB, hB']
  rw [h1, smul_comm, ← hA, hA', smul_smul, mul_comm]

/-- Any receiver that sends `len` points, which it may choose after seeing the sender's points; its result is all it has seen. -/
def anyReceiver (net : Net G) (len : Nat) (choose : G → List G → List G) : Proc (G × List G × List Block × List Block) :=
  recvPoints net 1 fun Cs => recvPoints net len fun X => sendPoints net (choose (Cs.getD 0 0) X) <|
  recvBlocks net len fun Y0 => recvBlocks net len fun Y1 => .done (Cs.getD 0 0, X, Y0, Y1)

/-- **C107** Whatever points the receiver answers with, the masks of position `i` are the hashes of two points whose sum is the
Diffie-Hellman value of `C` and `X[i]`; so one of the two and that value give the other. -/
theorem npot_both_keys_dh (net : Net G) (hn : net.Ok) (kdf : G → Block) (g : G) (d : ℤ) (r : Nat → ℤ) (m0 m1 : List Block) (len : Nat)
    (h0 : m0.length = len) (h1 : m1.length = len) (hC : d • g ≠ 0) (hX : ∀ i < len, r i • g ≠ 0) (choose : G → List G → List G)
    (hlen : ∀ C X, (choose C X).length = len) (hfin : ∀ C X, ∀ p ∈ choose C X, p ≠ 0) :
    ∃ C X Y0 Y1, Runs (send net kdf g d r m0 m1 len) (anyReceiver net len choose) () (C, X, Y0, Y1) ∧
      X.length = len ∧ Y0.length = len ∧ Y1.length = len ∧
      ∀ i < len, ∃ K0 K1 Z, X[i]? = some Z ∧ Y0[i]? = m0[i]?.map (kdf K0 ^^^ ·) ∧ Y1[i]? = m1[i]?.map (kdf K1 ^^^ ·) ∧
        IsDH g C Z (K0 + K1) := by
  set X := (List.range len).map fun i => r i • g with hXd
  set pk := choose (d • g) X with hpk
  refine ⟨d • g, X, (List.range len).map fun i => kdf (key0 r pk i) ^^^ m0.getD i 0,
    (List.range len).map fun i => kdf (key1 (d • g) r pk i) ^^^ m1.getD i 0, ?_, by simp [hXd], by simp, by simp, ?_⟩
  · unfold send anyReceiver
    refine .pointsLR net hn rfl (by simpa using hC) ?_
    refine .pointsLR net hn (by simp) ?_ ?_
    · intro p hp
      rw [List.mem_map] at hp
      obtain ⟨i, hi, rfl⟩ := hp
      exact hX i (List.mem_range.1 hi)
    refine .pointsRL net hn (hlen _ _) (hfin _ _) ?_
    rw [if_neg (by omega)]
    exact .blocksLR net hn (by simp) (.blocksLR net hn (by simp) (.done _ _))
  · intro i hi
    refine ⟨key0 r pk i, key1 (d • g) r pk i, r i • g, by simp [hXd, hi], ?_, ?_, d, r i, rfl, rfl, ?_⟩
    · simp [List.getD, h0, hi]
    · simp [List.getD, h1, hi]
    · rw [key1, add_sub_cancel, smul_smul, mul_comm]

/-- **C107** The honest receiver: the key it computes opens the message it chose; the key of the other message is the Diffie-Hellman value
minus this key. -/
theorem npot_other_key (g : G) (d : ℤ) (r sk : Nat → ℤ) (sel : Bytes) (len i : Nat) (hi : i < len) (hb : sel.getD i 0 = 0 ∨ sel.getD i 0 = 1) (W : G)
    (hW : IsDH g (d • g) (r i • g) W) :
    let pk := (List.range len).map (pk0 g (d • g) sk sel)
    let own := sk i • r i • g
    (if sel.getD i 0 = 0 then key0 r pk i = own ∧ key1 (d • g) r pk i = W - own else
      key1 (d • g) r pk i = own ∧ key0 r pk i = W - own) := by
  intro pk own
  have e : W = (d * r i) • g := hW.unique ⟨d, r i, rfl, rfl, rfl⟩
  have hg : pk.getD i 0 = pk0 g (d • g) sk sel i := getD_map_range _ _ _ _ hi
  have hc : r i • sk i • g = own := smul_comm _ _ _
  have hd : r i • d • g = W := by rw [e, smul_smul, mul_comm]
  rcases hb with hb | hb
  · rw [if_pos hb]
    have h1 : key0 r pk i = own := by rw [key0, hg, pk0, if_neg (by rw [hb]; decide), hc]
    exact ⟨h1, by rw [key1, h1, hd]⟩
  · rw [if_neg (by rw [hb]; decide)]
    have h1 : key0 r pk i = W - own := by rw [key0, hg, pk0, if_pos hb, smul_sub, hd, hc]
    exact ⟨by rw [key1, h1, hd, sub_sub_cancel], h1⟩

/-- Two transfers over the toy connection against a receiver that answers with `C` and the first point. -/
example : ∃ C X Y0 Y1, Runs (send toyNet (fun p => BitVec.ofNat 128 p.val) 1 3 (fun i => i + 1) [10, 20] [30, 40] 2)
      (anyReceiver toyNet 2 fun C X => [if C = 0 then 1 else C, if X.getD 0 0 = 0 then 1 else X.getD 0 0]) () (C, X, Y0, Y1) := by
  obtain ⟨C, X, Y0, Y1, h, -⟩ := npot_both_keys_dh toyNet toyNet_ok (fun p => BitVec.ofNat 128 p.val) 1 3 (fun i => i + 1) [10, 20] [30, 40] 2 rfl rfl
    (by decide) (by decide) (fun C X => [if C = 0 then 1 else C, if X.getD 0 0 = 0 then 1 else X.getD 0 0]) (fun _ _ => rfl) (by
      intro C X p hp
      simp only [List.mem_cons, List.not_mem_nil, or_false] at hp
      rcases hp with rfl | rfl <;> split <;> first | decide | assumption)
  exact ⟨C, X, Y0, Y1, h⟩

end Kunlun.NPOT
