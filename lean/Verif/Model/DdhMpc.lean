import Verif.Model.Proto
import Verif.Model.Group
/-!
Model of `mpc/oprf/ddh_oprf.hpp` (permuted OPRF) and `mpc/peqt/peqt_from_ddh.hpp` (permuted equality test).

Drawn scalars and shuffles are parameters, as are the hash to the curve `H` (`Hash::BlockToECPoint`) and the hash of points
(`Hash::ECPointToBytes`).
-/

namespace Kunlun

open Kunlun.Proto

/-- The loop `out[map[i]] = f(i)` of `n` parallel iterations executed in the order `sched` on a vector; `none` is an access outside one of
the vectors. Two iterations with the same target would race, which the theorems exclude. -/
def scatter {α : Type} (map : List Nat) (f : Nat → α) (sched : List Nat) (out : List α) : Option (List α) :=
  sched.foldlM (fun v i => map[i]?.bind fun t => if t < v.length then some (v.set t (f i)) else none) out

namespace DDHOPRF

variable {G : Type} [AddCommGroup G]

/-- ddh_oprf.hpp:82-115 `Server`: the key it returns is `k` as bytes. -/
def server (net : Net G) (k : ℤ) (bnLen : Nat) (map sched : List Nat) (n : Nat) : Proc Bytes :=
  recvPoints net n fun mask =>
  match scatter map (fun i => k • mask.getD i 0) sched (List.replicate n 0) with
  | none => .fail
  | some out => sendPoints net out <| .done (BigInt.toByteVector bnLen k)

/-- ddh_oprf.hpp:117-139 `Evaluate`; reading past the input vector is `none`. -/
def evaluate (H : Block → G) (kdf : G → Bytes) (key : Bytes) (X : List Block) (n : Nat) : Option (List Bytes) :=
  (List.range n).mapM fun i => X[i]?.map fun x => kdf (BigInt.fromByteVector key • H x)

/-- ddh_oprf.hpp:141-184 `Client`. -/
def client (net : Net G) (order : ℤ) (H : Block → G) (kdf : G → Bytes) (r : ℤ) (X : List Block) (n : Nat) : Proc (List Bytes) :=
  if X.length < n then .fail else
  sendPoints net ((List.range n).map fun i => r • H (X.getD i 0)) <| recvPoints net n fun F =>
  .done ((List.range n).map fun i => kdf (BigInt.modInverse r order • F.getD i 0))

end DDHOPRF

namespace DDHPEQT

variable {G : Type} [AddCommGroup G]

/-- peqt_from_ddh.hpp:39-44: the permutation of the matrix positions; `len` is the size of the vector filled. -/
def permutationMap (rowMap colMap : List Nat) (rows cols len : Nat) : Option (List Nat) :=
  ((List.range rows).flatMap fun i => (List.range cols).map fun j => (i, j)).foldlM (fun v p =>
    rowMap[p.1]?.bind fun a => colMap[p.2]?.bind fun b => if p.1 * cols + p.2 < v.length then some (v.set (p.1 * cols + p.2) (a * cols + b)) else none)
    (List.replicate len 0)

/-- peqt_from_ddh.hpp:19-86 `Send`; `s1` and `s2` are the orders in which its two parallel loops run. -/
def send (net : Net G) (H : Block → G) (k : ℤ) (rowMap colMap s1 s2 : List Nat) (Y : List Block) (rows cols : Nat) : Proc (List Nat) :=
  match permutationMap rowMap colMap rows cols Y.length with
  | none => .fail
  | some map =>
    match scatter map (fun i => k • H (Y.getD i 0)) s1 (List.replicate Y.length 0) with
    | none => .fail
    | some FY => recvPoints net Y.length fun mask => sendPoints net FY <|
      match scatter map (fun i => k • mask.getD i 0) s2 (List.replicate Y.length 0) with
      | none => .fail
      | some FX => sendPoints net FX <| .done map

/-- peqt_from_ddh.hpp:88-137 `Receive`. -/
def receive [DecidableEq G] (net : Net G) (order : ℤ) (H : Block → G) (r : ℤ) (X : List Block) : Proc Bytes :=
  sendPoints net (X.map fun x => r • H x) <| recvPoints net X.length fun FY => recvPoints net X.length fun FX =>
  .done ((List.range X.length).map fun i => if FY.getD i 0 = BigInt.modInverse r order • FX.getD i 0 then 1 else 0)

end DDHPEQT

end Kunlun
