import Verif.Model.Vector
/-
Model of `Dictionary<Key, T>` (/repo/include/solace/dictionary.hpp): a vector of keys and a vector of values. Keys are
compared with `==`, which is taken to be equality. `szK`, `szV` are the sizes of a key and a value.
-/
namespace Solace

structure Dict (K V : Type) where
  lookup : Vec K
  values : Vec V
deriving DecidableEq, Repr

namespace Dict
variable {K V : Type}

/-- `makeDictionary(keysMem, valuesMem)`, dictionary.hpp:226-244. -/
def ofBytes (szK szV keyBytes valueBytes : Nat) : Dict K V := ⟨.ofBytes szK keyBytes, .ofBytes szV valueBytes⟩

/-- `put`, dictionary.hpp:145-176 (both overloads). `none` for the key or value: its constructor throws. -/
def put (szK szV : Nat) (d : Dict K V) (k : Option K) (v : Option V) : Dict K V × Outcome (Except Err Unit) :=
  match Vec.emplaceBack szV d.values v with
  | (vs, .ok (.ok ())) =>
    match Vec.emplaceBack szK d.lookup k with
    | (ks, .ok (.ok ())) => (⟨ks, vs⟩, .ok (.ok ()))
    | (ks, .ok (.error e)) =>
      match Vec.popBack szV vs with
      | .ok (vs', _) => (⟨ks, vs'⟩, .ok (.error e))
      | .throws => (⟨ks, vs⟩, .throws)
      | .terminate => (⟨ks, vs⟩, .terminate)
      | .ub => (⟨ks, vs⟩, .ub)
    | (ks, r) => (⟨ks, vs⟩, r)
  | (vs, r) => (⟨d.lookup, vs⟩, r)

/-- The loop of `find`: the keys still to compare and the index `valueIt` is at. -/
def findLoop [DecidableEq K] (values : List (Option V)) (key : K) : List (Option K) → Nat → Outcome (Option V)
  | [], _ => .ok none
  | none :: _, _ => .ub
  | some k :: ks, i =>
    if k = key then
      match values[i]? with
      | some (some v) => .ok (some v)
      | _ => .ub
    else findLoop values key ks (i + 1)

/-- `find`, dictionary.hpp:179-204. -/
def find [DecidableEq K] (szK : Nat) (d : Dict K V) (key : K) : Outcome (Option V) :=
  findLoop d.values.cells key (d.lookup.cells.take (Vec.viewSize szK d.lookup)) 0

/-- The loop of `ArrayView::indexOf`, arrayView.hpp:258-268, for `contains`. -/
def containsLoop [DecidableEq K] (key : K) : List (Option K) → Outcome Bool
  | [] => .ok false
  | none :: _ => .ub
  | some k :: ks => if key = k then .ok true else containsLoop key ks

/-- `contains`, dictionary.hpp:141-143. -/
def contains [DecidableEq K] (szK : Nat) (d : Dict K V) (key : K) : Outcome Bool :=
  containsLoop key (d.lookup.cells.take (Vec.viewSize szK d.lookup))

end Dict
end Solace
