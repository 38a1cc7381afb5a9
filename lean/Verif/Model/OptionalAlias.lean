import Verif.Model.Basic
/-
The members of `Optional` that return references, in a program with several optionals and values: `filter` and `orElse`, include/solace/optional.hpp.

A program is a list of steps. Objects are numbered in the order in which they are made; an object that is gone leaves an empty slot. A temporary is an object that is gone
at the next step. The elements are values that are copied without change (that copies and destructors can fail is elsewhere). The predicate changes nothing.
-/
namespace Solace.OptAlias

/-- What an `Optional<T> const&` refers to: an optional of the program or `_kEmptyInstance`, optional.hpp:317 and 334. -/
inductive OptPlace where
  | object (i : Nat) | emptyInstance
deriving DecidableEq, Repr

/-- What a `T const&` refers to: `_payload` of an optional or a value of the program. -/
inductive ValPlace where
  | payload (i : Nat) | value (j : Nat)
deriving DecidableEq, Repr

structure State (T : Type) where
  opts : List (Option (Option T))
  vals : List (Option T)
  optRefs : List OptPlace
  valRefs : List ValPlace

inductive Step (T : Type) where
  /-- an `Optional<T>` is made -/
  | make (v : Option T)
  /-- a `T` is made -/
  | makeValue (v : T)
  /-- `o = none`, `o = v`, optional.hpp:172-190: the payload is destroyed, and made again where it was; references to the old one are then to the new one when `T` has
  no members that are `const` or references, [basic.life]/8, which is assumed -/
  | assign (i : Nat) (v : Option T)
  /-- `a.swap(b)` and `a = mv(b)`, optional.hpp:149-183: the contents change places -/
  | swap (i k : Nat)
  | assignValue (j : Nat) (v : T)
  | destroy (i : Nat)
  | destroyValue (j : Nat)
  /-- `Optional const& r = o.filter(p)` -/
  | filter (i : Nat) (p : T → Bool)
  /-- `T const& r = o.orElse(t)` -/
  | orElse (i j : Nat)

variable {T : Type}

/-- The reference `filter` returns, optional.hpp:284-289. -/
def filterPlace (i : Nat) (o : Option T) (p : T → Bool) : OptPlace :=
  match o with
  | some v => if p v then .object i else .emptyInstance
  | none => .emptyInstance

/-- The reference `orElse` returns, optional.hpp:228-234. -/
def orElsePlace (i j : Nat) (o : Option T) : ValPlace :=
  match o with
  | none => .value j
  | some _ => .payload i

/-- One step. To use an object that is gone (or never was) is undefined. To bind `t` of `orElse` to a value that is there is all that is done with it. -/
def step (s : State T) : Step T → Outcome (State T)
  | .make v => .ok { s with opts := s.opts ++ [some v] }
  | .makeValue v => .ok { s with vals := s.vals ++ [some v] }
  | .assign i v => match s.opts[i]? with
    | some (some _) => .ok { s with opts := s.opts.set i (some v) }
    | _ => .ub
  | .swap i k => match s.opts[i]?, s.opts[k]? with
    | some (some a), some (some b) => .ok { s with opts := (s.opts.set i (some b)).set k (some a) }
    | _, _ => .ub
  | .assignValue j v => match s.vals[j]? with
    | some (some _) => .ok { s with vals := s.vals.set j (some v) }
    | _ => .ub
  | .destroy i => match s.opts[i]? with
    | some (some _) => .ok { s with opts := s.opts.set i none }
    | _ => .ub
  | .destroyValue j => match s.vals[j]? with
    | some (some _) => .ok { s with vals := s.vals.set j none }
    | _ => .ub
  | .filter i p => match s.opts[i]? with
    | some (some o) => .ok { s with optRefs := s.optRefs ++ [filterPlace i o p] }
    | _ => .ub
  | .orElse i j => match s.opts[i]?, s.vals[j]? with
    | some (some o), some (some _) => .ok { s with valRefs := s.valRefs ++ [orElsePlace i j o] }
    | _, _ => .ub

def run (s : State T) : List (Step T) → Outcome (State T)
  | [] => .ok s
  | x :: xs => do
    let s' ← step s x
    run s' xs

/-- To read what an `Optional<T> const&` refers to. -/
def readOpt (s : State T) (r : Nat) : Outcome (Option T) :=
  match s.optRefs[r]? with
  | some .emptyInstance => .ok none
  | some (.object i) => match s.opts[i]? with
    | some (some o) => .ok o
    | _ => .ub
  | none => .ub

/-- To read what a `T const&` refers to. -/
def readVal (s : State T) (r : Nat) : Outcome T :=
  match s.valRefs[r]? with
  | some (.payload i) => match s.opts[i]? with
    | some (some (some v)) => .ok v
    | _ => .ub
  | some (.value j) => match s.vals[j]? with
    | some (some v) => .ok v
    | _ => .ub
  | none => .ub

end Solace.OptAlias
