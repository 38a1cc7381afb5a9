import Verif.Model.Dictionary
import Verif.Model.ArrayFactory
/-
The rest of `Dictionary<Key, T>` (/repo/include/solace/dictionary.hpp): creation with a capacity, sizes, and iteration. An iterator is a
pair of indices into the keys and the values.
-/
namespace Solace.Dict
variable {K V : Type}

/-- `makeVector(size)`, vector.hpp:374-397; `heap` tells which allocations succeed. -/
def makeVector {α : Type} (heap : Nat → Bool) (sz n : Nat) : Except Err (Vec α) := Vec.allocate heap sz (wrap64 (n * sz))

/-- `makeDictionary(size)`, dictionary.hpp:251-267. `heapK` and `heapV` tell whether the first and the second allocation succeed. -/
def make (heapK heapV : Nat → Bool) (szK szV n : Nat) : Except Err (Dict K V) :=
  match (makeVector heapK szK n : Except Err (Vec K)) with
  | .error e => .error e
  | .ok keys =>
    match (makeVector heapV szV n : Except Err (Vec V)) with
    | .error e => .error e
    | .ok values => .ok ⟨keys, values⟩

/-- `empty`, `size` and `capacity`, dictionary.hpp:134-136. -/
def empty (d : Dict K V) : Bool := d.values.next == 0
def size (d : Dict K V) : Nat := d.values.next
def capacity (szV : Nat) (d : Dict K V) : Nat := Vec.capacity szV d.values

/-- `operator*` of the iterator, dictionary.hpp:101. -/
def entryAt (d : Dict K V) (it : Nat × Nat) : Outcome (K × V) :=
  match d.lookup.cells[it.1]?, d.values.cells[it.2]? with
  | some (some k), some (some v) => .ok (k, v)
  | _, _ => .ub

/-- `for (auto e : dictionary)`: dictionary.hpp:93-115, 206-210. -/
def iterateLoop (d : Dict K V) (stop : Nat × Nat) : Nat → Nat × Nat → Option (Outcome (List (K × V)))
  | 0, _ => none
  | fuel + 1, it =>
    if it.1 ≠ stop.1 ∨ it.2 ≠ stop.2 then
      match entryAt d it with
      | .ok e => (iterateLoop d stop fuel (it.1 + 1, it.2 + 1)).map fun o => o >>= fun es => .ok (e :: es)
      | .throws => some .throws
      | .terminate => some .terminate
      | .ub => some .ub
    else some (.ok [])

def iterate (fuel szK szV : Nat) (d : Dict K V) : Option (Outcome (List (K × V))) :=
  iterateLoop d (Vec.viewSize szK d.lookup, Vec.viewSize szV d.values) fuel (0, 0)

end Solace.Dict
