import Verif.Model.NestedMemory
/-
Loops over vectors, arrays and dictionaries whose bodies change the very containers, or any others: range `for`, and `forEach` of arrays.
The containers, the memory and the single statements are those of `Verif.Model.NestedMemory`.

A loop asks for `begin()` and `end()` once (array.hpp:168-186 and vector.hpp:151-173 by way of `view()`, arrayView.hpp:180-194; `forEach`,
array.hpp:246-284, loops over the view it was given, arrayView.hpp:302-326). Both are plain pointers into the block of the elements, so what a round
visits is the object that lies at this place at that time. Iterators of dictionaries are pairs of such pointers (dictionary.hpp:76-123, 206-210).

Bodies are programs again, of any form: they may depend on the element they are given and on everything else in the program.
-/
namespace Solace.Nested
open PathMem

/-! ### The memory of elements -/

mutual
/-- The objects in block `b`, if it is the block of the elements of this object or of one inside it. -/
def Val.stored (b : Nat) : Val → Option (List Val)
  | .str _ => none
  | .vec c _ es => if c = some b then some es else storedAll b es
  | .arr c es => if c = some b then some es else storedAll b es
  | .dict kb _ ks vb _ vs =>
    if kb = some b then some ks else if vb = some b then some vs
    else match storedAll b ks with
      | some es => some es
      | none => storedAll b vs
def storedAll (b : Nat) : List Val → Option (List Val)
  | [] => none
  | v :: vs =>
    match v.stored b with
    | some es => some es
    | none => storedAll b vs
end

/-- The objects in block `b`: `none` if it was given back or never was the block of elements. -/
def stored (b : Nat) : Vars → Option (List Val)
  | [] => none
  | none :: vs => stored b vs
  | some v :: vs =>
    match v.stored b with
    | some es => some es
    | none => stored b vs

/-- The object at place `k` of block `b`. -/
def cell (vs : Vars) (b k : Nat) : Option Val :=
  match stored b vs with
  | none => none
  | some es => es[k]?

/-! ### Programs -/

/-- What is looped over: a variable, or the element that a loop around this one was given by reference. -/
inductive Place where
  | var (i : Nat)
  | elem (b k : Nat)
deriving DecidableEq, Repr

/-- Statements. -/
inductive Stmt where
  | skip
  | op (o : Op)
  | seq (s t : Stmt)
  /-- anything that depends on the state: `if`, `switch`, calls of functions -/
  | choose (f : Prog → Stmt)
  /-- `for (auto& x : place) body`: the body is given the block, the number of the round and the element -/
  | each (pl : Place) (body : Nat → Nat → Val → Stmt)
  /-- `for (auto x : dictionary) body` with the blocks of keys and values, the number of the round, the key and the value -/
  | entries (pl : Place) (body : Nat → Nat → Nat → Val → Val → Stmt)

/-- A single statement that was reached: the state before it, and the loops it is in: the blocks they go through, and how many elements. -/
structure Event where
  state : Prog
  op : Op
  active : List (Nat × Nat)

/-- How a program ends. -/
inductive End where
  | done (p : Prog)
  /-- a single statement has no defined behaviour, whatever loops it is in -/
  | undefined
  /-- a loop reads an object that is no longer there -/
  | dangling

/-- The statements reached, in order, and the end. -/
structure Run where
  log : List Event
  result : End

def Run.andThen (r : Run) (f : Prog → Run) : Run :=
  match r.result with
  | .done p => ⟨r.log ++ (f p).log, (f p).result⟩
  | .undefined => ⟨r.log, .undefined⟩
  | .dangling => ⟨r.log, .dangling⟩

/-- The rounds of a loop over block `b`: `n` more, from element `k`. -/
def rounds (b : Nat) (f : Nat → Val → Prog → Run) : Nat → Nat → Prog → Run
  | _, 0, p => ⟨[], .done p⟩
  | k, n + 1, p =>
    match cell p.vars b k with
    | none => ⟨[], .dangling⟩
    | some x => (f k x p).andThen (rounds b f (k + 1) n)

/-- The rounds of a loop over a dictionary. -/
def rounds2 (kb vb : Nat) (f : Nat → Val → Val → Prog → Run) : Nat → Nat → Prog → Run
  | _, 0, p => ⟨[], .done p⟩
  | k, n + 1, p =>
    match cell p.vars kb k, cell p.vars vb k with
    | some x, some y => (f k x y p).andThen (rounds2 kb vb f (k + 1) n)
    | _, _ => ⟨[], .dangling⟩

/-- The container at a place. References are those that the loops around give; anything else is no C++ program. -/
inductive Found where
  | obj (v : Val)
  | gone
  | never

def lookup (vs : Vars) (active : List (Nat × Nat)) : Place → Found
  | .var i =>
    match get vs i with
    | some v => .obj v
    | none => .never
  | .elem b k =>
    if active.any (fun a => a.1 == b && decide (k < a.2)) then
      match cell vs b k with
      | some v => .obj v
      | none => .gone
    else .never

/-- The block and the number of the elements of a vector or an array. -/
def Val.extent : Val → Option (Nat × Nat)
  | .vec (some b) _ es => some (b, es.length)
  | .arr (some b) es => some (b, es.length)
  | _ => none

/-- One step after the other. Loops over what is no container, or over one without memory, which has no elements, do nothing. A loop over a dictionary
whose vectors differ in length (dictionary.hpp:226-230 makes them) does not stop before its memory ends, since the end is
reached only when both pointers reach theirs in the same round (dictionary.hpp:93-95): it is undefined whatever the body does. -/
def exec (g : Policy) : Stmt → List (Nat × Nat) → Prog → Run
  | .skip, _, p => ⟨[], .done p⟩
  | .op o, active, p =>
    ⟨[⟨p, o, active⟩], match step g p o with
      | .ok r => .done r.1
      | _ => .undefined⟩
  | .seq s t, active, p => (exec g s active p).andThen (exec g t active)
  | .choose f, active, p => exec g (f p) active p
  | .each pl body, active, p =>
    match lookup p.vars active pl with
    | .never => ⟨[], .undefined⟩
    | .gone => ⟨[], .dangling⟩
    | .obj v =>
      match v.extent with
      | none => ⟨[], .done p⟩
      | some (b, n) => rounds b (fun k x q => exec g (body b k x) ((b, n) :: active) q) 0 n p
  | .entries pl body, active, p =>
    match lookup p.vars active pl with
    | .never => ⟨[], .undefined⟩
    | .gone => ⟨[], .dangling⟩
    | .obj (.dict (some kb) _ ks (some vb) _ vs) =>
      if ks.length = vs.length then
        rounds2 kb vb (fun k x y q => exec g (body kb vb k x y) ((kb, ks.length) :: (vb, vs.length) :: active) q) 0 ks.length p
      else ⟨[], .undefined⟩
    | .obj _ => ⟨[], .done p⟩

end Solace.Nested
