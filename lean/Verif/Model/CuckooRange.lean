import Verif.Model.Cuckoo
/-!
Model of the insertion of many items into the cuckoo filter: `filter/cuckoo_filter.hpp:162-204`.
-/

namespace Kunlun.Cuckoo

/-- cuckoo_filter.hpp:179-204 `Insert(begin, end)` and `Insert(container)`: the items are inserted in order; the first insertion that
reports failure ends the loop. Each item comes with the `rand()` values used while it is inserted. -/
def insertRange (H : Bytes → UInt32) : Filter → List (Bytes × (Nat → Nat)) → Option (Filter × Bool)
  | f, [] => some (f, true)
  | f, (x, rnd) :: xs => do
    let (f1, ok) ← insert H rnd f x
    if ok then insertRange H f1 xs else some (f1, false)

/-- cuckoo_filter.hpp:162-177 `Insert(vector<ECPoint>)`: point `i` is written in compressed form at the front of its own 65 bytes of one
uninitialised array, and these 65 bytes are inserted. -/
def insertPoints (H : Bytes → UInt32) (f : Filter) (pts : List (Bytes × Bytes × (Nat → Nat))) : Option (Filter × Bool) :=
  insertRange H f (pts.map fun p => (pointBuffer p.1 p.2.1, p.2.2))

end Kunlun.Cuckoo
