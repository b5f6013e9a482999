import Verif.Model.AdcpMany
/-!
The account files of `adcp/adcp.hpp`: each account lives in the file `identity + ".account"`, is read with `FetchAccount` before a transaction and
written with `SaveAccount` by `UpdateAccount`. The contents of a file are taken to be the account (that this is what is read back is C47).
-/

namespace Kunlun.ADCP

variable {G : Type} [AddCommGroup G] [DecidableEq G]

/-- The account files, by identity. -/
abbrev Ledger (G : Type) := Bytes → Option (Account G)

/-- adcp.hpp:188-199 `SaveAccount(a, a.identity + ".account")`: the file is replaced. -/
def Ledger.save (f : Ledger G) (a : Account G) : Ledger G := fun id => if id = a.identity then some a else f id

/-- Several calls, in order. -/
def Ledger.saveAll (f : Ledger G) (l : List (Account G)) : Ledger G := l.foldl Ledger.save f

/-- The accounts a caller of `Miner` reads from the files; every name gives an object of its own. -/
def Ledger.fetch (f : Ledger G) (ids : List Bytes) : Option (List (Account G)) := ids.mapM f

/-- Read two accounts and call `Miner` (adcp.hpp:619-642) on the two objects: its answer and the files afterwards. -/
def ledgerOne (cv : Curve G) (H : Bytes → ℤ) (pp : PP G) (d : DecRun G) (s : ℤ) (ctx : ToOne G) (f : Ledger G) (snd rcv : Bytes) :
    Option (Bool × Ledger G) := do
  let a ← f snd
  let b ← f rcv
  let r ← miner cv H pp d s ctx a b
  return (r.1, if r.1 then f.saveAll (updateAccount cv d ctx a b).1 else f)

/-- Read the sender's and the receivers' accounts and call `Miner` (adcp.hpp:1420-1444): its answer and the files afterwards. -/
def ledgerMany (cv : Curve G) (H : Bytes → ℤ) (pp : PP G) (d : DecRun G) (ss : List (List (Nat × Bool))) (s : ℤ) (ctx : ToMany G) (f : Ledger G)
    (snd : Bytes) (rcvs : List Bytes) : Option (Bool × Ledger G) := do
  let a ← f snd
  let bs ← f.fetch rcvs
  let r ← minerMany cv H pp d ss s ctx a bs
  return (r.1, if r.1 then f.saveAll (updateMany cv d ss ctx a bs).1 else f)

end Kunlun.ADCP
