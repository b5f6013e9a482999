import Verif.Model.AesLemmas
/-!
# Parallel loops

`#pragma omp parallel for` (for example crypto/otp.hpp:8-11, crypto/aes.hpp:141-143, crypto/ec_point.hpp:396-399,
filter/bloom_filter.hpp:122-127, mpc/oprf/ote_oprf.hpp:217-224) hands the iterations of a loop to threads that share the memory.
An iteration is a program that reads and writes single cells; a schedule says which iteration makes the next access. Any
distribution of the iterations over any number of threads, with any timing, is one of these schedules (a thread that runs several
iterations one after another gives a schedule in which those iterations do not overlap).

Simplified: an access to one cell is indivisible and seen at once by all threads. For programs in which no cell written by one
iteration is touched by another this is what the C++ memory model promises; the two loops of the code that do touch a common cell
(`PlainInsert`, whose updates are `omp atomic`, and the flag of `PlainContain`) have models of their own.
-/

namespace Kunlun
namespace Omp

variable {A V : Type}

/-- The body of one loop iteration: reads, writes, and computation in between on local variables. -/
inductive Body (A V : Type) where
  | done
  | read (a : A) (k : V → Body A V)
  | write (a : A) (v : V) (k : Body A V)

/-- The shared memory. -/
abbrev Mem (A V : Type) := A → V

variable [DecidableEq A]

/-- Storing into one cell. -/
def Mem.store (m : Mem A V) (a : A) (v : V) : Mem A V := fun b => if b = a then v else m b

/-- The iteration run alone to its end. -/
def Body.exec : Body A V → Mem A V → Mem A V
  | .done, m => m
  | .read a k, m => (k (m a)).exec m
  | .write a v k, m => k.exec (m.store a v)

/-- The loop without the pragma: the iterations one after another. -/
def sequential : List (Body A V) → Mem A V → Mem A V
  | [], m => m
  | p :: ps, m => sequential ps (p.exec m)

/-- One access of an iteration. -/
def Body.step : Body A V → Mem A V → Body A V × Mem A V
  | .done, m => (.done, m)
  | .read a k, m => (k (m a), m)
  | .write a v k, m => (k, m.store a v)

/-- Iteration `i` makes its next access. -/
def stepAt (ps : List (Body A V)) (m : Mem A V) (i : Nat) : List (Body A V) × Mem A V :=
  match ps[i]? with
  | none => (ps, m)
  | some p => (ps.set i (p.step m).1, (p.step m).2)

/-- The accesses in the order of the schedule. -/
def run : List Nat → List (Body A V) × Mem A V → List (Body A V) × Mem A V
  | [], s => s
  | i :: is, s => run is (stepAt s.1 s.2 i)

/-- The iteration has ended. -/
def Body.Ended : Body A V → Prop
  | .done => True
  | _ => False

/-- `#pragma omp parallel for`: the loop is left when every iteration has ended. -/
def Parallel (ps : List (Body A V)) (m : Mem A V) (sched : List Nat) (m' : Mem A V) : Prop :=
  ∃ qs, run sched (ps, m) = (qs, m') ∧ ∀ q ∈ qs, q.Ended

/-- The iteration reads cells of `R` and `W` only, and writes cells of `W` only. -/
def Body.Within (R W : A → Prop) : Body A V → Prop
  | .done => True
  | .read a k => (R a ∨ W a) ∧ ∀ v, (k v).Within R W
  | .write a _ k => W a ∧ k.Within R W

/-- No iteration writes a cell that another one touches. -/
def RaceFree (ps : List (Body A V)) : Prop :=
  ∃ (R W : Nat → A → Prop), (∀ i (p : Body A V), ps[i]? = some p → p.Within (R i) (W i)) ∧
    ∀ i j, i < ps.length → j < ps.length → i ≠ j → ∀ a, W i a → ¬ R j a ∧ ¬ W j a

/-! ### The bodies of the loops of the code -/

/-- crypto/otp.hpp:9-11 `C[i] = A[i]^B[i]`. Cells are addressed by array and index; `c = a` or `c = b` is the use in place. -/
def xorBody (a b c i : Nat) : Body (Nat × Nat) UInt8 :=
  .read (a, i) fun x => .read (b, i) fun y => .write (c, i) (x ^^^ y) .done

/-- crypto/aes.hpp:142-143, 185-186 `Enc(key, data[i])` / `Dec(key, data[i])`, with `f` the block function. -/
def inPlaceBody (f : V → V) (i : Nat) : Body Nat V :=
  .read i fun x => .write i (f x) .done

/-- crypto/ec_point.hpp:397-399, 411-413, 431-433 and most loops of the protocols: `vec_result[i] = f(vec_A[i], vec_B[i])`, where
the result vector is another array. -/
def zipBody (f : V → V → V) (a b c i : Nat) : Body (Nat × Nat) V :=
  .read (a, i) fun x => .read (b, i) fun y => .write (c, i) (f x y) .done

/-- A loop inside an iteration: the bodies one after another. -/
def Body.seq : Body A V → Body A V → Body A V
  | .done, q => q
  | .read a k, q => .read a fun v => (k v).seq q
  | .write a v k, q => .write a v (k.seq q)

/-- A `for` loop inside an iteration. -/
def Body.loop : List (Body A V) → Body A V
  | [] => .done
  | p :: ps => p.seq (Body.loop ps)

/-- The two matrices of `Packing`: `(false, i, b)` is `matrix_mapping_values[i][b]`, `(true, j, b)` is `matrix_input[j][b]`. -/
abbrev PackCell := Bool × Nat × Nat

/-- mpc/oprf/ote_oprf.hpp:221: `matrix_input[j][i >> 3] |= (uint8_t)((bool)(matrix_mapping_values[i][j >> 3] & (1 << (j & 7)))) <<
(i & 7)`: one read of each matrix and one write. -/
def packOp (ij : Nat × Nat) : Body PackCell UInt8 :=
  .read (false, ij.1, ij.2 >>> 3) fun v => .read (true, ij.2, ij.1 >>> 3) fun w =>
    .write (true, ij.2, ij.1 >>> 3)
      (w ||| ((if v &&& (1 <<< UInt8.ofNat (ij.2 &&& 7)) = 0 then 0 else 1) <<< UInt8.ofNat (ij.1 &&& 7))) .done

/-- mpc/oprf/ote_oprf.hpp:218-224: the iteration for `low_index = t * BATCH_SIZE`, two loops inside. -/
def packBody (width batch t : Nat) : Body PackCell UInt8 :=
  Body.loop (((List.range width).flatMap fun i => (List.range batch).map fun k => (i, t * batch + k)).map packOp)

/-- filter/bloom_filter.hpp:126 without the `omp atomic` of line 125 (not in the code): read the byte, then write it back with one
more bit. -/
def plainOrBody (a : A) (mask : UInt8) : Body A UInt8 :=
  .read a fun v => .write a (v ||| mask) .done

end Omp
end Kunlun
