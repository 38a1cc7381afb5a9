import Verif.Model.Base16
import Verif.Model.VariableSpan
import Verif.Model.DictionaryIteration
import Verif.Model.EnvIterate
import Verif.Model.PathMore
import Verif.Model.RangeView
/-
Programs with iterator variables. The library has seven classes of iterators; each is described by the operations it has
(`Kind`), and a program declares variables of one class for one container, copies, moves, assigns, advances, compares and
dereferences them. The container stays as it is.

A pointer into the container is an index. An operation on a variable that was not declared is no C++ program; it is `ub` here.
-/
namespace Solace.Iterators

/-- A class of iterators for a given container. `eq` is `none` if the class has no `==`, `moveAssign` if an rvalue cannot be
assigned. `moved` is what the move constructor leaves in its argument; `moveAssign a b` gives `a` and `b` after `a = mv(b)`, and
`setTo a t` gives `a` after the assignment of what `begin()` or `end()` returned. -/
structure Kind (S X : Type) where
  begin' : Outcome S
  end' : Outcome S
  next : S → Outcome S
  deref : S → Outcome X
  ne : S → S → Bool
  eq : Option (S → S → Bool)
  moved : S → S
  moveAssign : Option (S → S → S × S)
  setTo : Option (S → S → S)

/-- Statements of a program. `newBegin x`: `auto x = c.begin();`, `setBegin x`: `x = c.begin();`, `copy x y`: `auto x = y;`, `move x y`:
`auto x = mv(y);`, `assign x y`: `x = y;`, `moveAssign x y`: `x = mv(y);`. -/
inductive Op where
  | newBegin (x : Nat)
  | newEnd (x : Nat)
  | setBegin (x : Nat)
  | setEnd (x : Nat)
  | copy (x y : Nat)
  | move (x y : Nat)
  | assign (x y : Nat)
  | moveAssign (x y : Nat)
  | next (x : Nat)
  | deref (x : Nat)
  | eq (x y : Nat)
  | ne (x y : Nat)
deriving DecidableEq, Repr

/-- What a statement lets the program see. -/
inductive Obs (X : Type) where
  | nothing
  | item (x : X)
  | answer (b : Bool)
deriving DecidableEq, Repr

/-- The variables. -/
abbrev Vars (S : Type) := Nat → Option S

def Vars.set {S : Type} (w : Vars S) (x : Nat) (s : S) : Vars S := fun v => if v = x then some s else w v

/-- Reading a variable. -/
def Vars.get {S : Type} (w : Vars S) (x : Nat) : Outcome S :=
  match w x with
  | some s => .ok s
  | none => .ub

/-- Assigning what `begin()` or `end()` returned. -/
def assignTemporary {S X : Type} (k : Kind S X) (w : Vars S) (x : Nat) (t : S) : Outcome (Vars S × Obs X) :=
  match k.setTo with
  | none => .ub
  | some f => w.get x >>= fun s => .ok (w.set x (f s t), .nothing)

/-- One statement. -/
def step {S X : Type} (k : Kind S X) (w : Vars S) : Op → Outcome (Vars S × Obs X)
  | .newBegin x => k.begin' >>= fun s => .ok (w.set x s, .nothing)
  | .newEnd x => k.end' >>= fun s => .ok (w.set x s, .nothing)
  | .setBegin x => k.begin' >>= fun t => assignTemporary k w x t
  | .setEnd x => k.end' >>= fun t => assignTemporary k w x t
  | .copy x y => w.get y >>= fun s => .ok (w.set x s, .nothing)
  | .move x y => w.get y >>= fun s => .ok ((w.set y (k.moved s)).set x s, .nothing)
  | .assign x y => w.get x >>= fun _ => w.get y >>= fun s => .ok (w.set x s, .nothing)
  | .moveAssign x y =>
    match k.moveAssign with
    | none => .ub
    | some f => w.get x >>= fun s => w.get y >>= fun t => .ok ((w.set y (f s t).2).set x (f s t).1, .nothing)
  | .next x => w.get x >>= fun s => k.next s >>= fun s' => .ok (w.set x s', .nothing)
  | .deref x => w.get x >>= fun s => k.deref s >>= fun v => .ok (w, .item v)
  | .eq x y =>
    match k.eq with
    | none => .ub
    | some f => w.get x >>= fun s => w.get y >>= fun t => .ok (w, .answer (f s t))
  | .ne x y => w.get x >>= fun s => w.get y >>= fun t => .ok (w, .answer (k.ne s t))

/-- A program: what it sees. -/
def run {S X : Type} (k : Kind S X) : Vars S → List Op → Outcome (List (Obs X))
  | _, [] => .ok []
  | w, op :: ops => step k w op >>= fun r => run k r.1 ops >>= fun os => .ok (r.2 :: os)

/-- `swap(rhs)`, as move assignment. -/
def exchange {S : Type} (a b : S) : S × S := (b, a)

/-- Implicit move assignment of members that are pointers. -/
def copied {S : Type} (_ b : S) : S × S := (b, b)

/-- `Base16Encoded_Iterator`, base16.hpp:53-87, src/base16.cpp:163-166: a pointer to a byte. Advancing past the end and reading
there is undefined. -/
def hexEncode (src : List Byte) : Kind Nat (List Byte) where
  begin' := .ok 0
  end' := .ok src.length
  next i := if i < src.length then .ok (i + 1) else .ub
  deref i := match src[i]? with
    | some b => .ok (Base16.hexPair b)
    | none => .ub
  ne i j := i != j
  eq := some fun i j => i == j
  moved i := i
  moveAssign := some copied
  setTo := some fun _ t => t

/-- `Base16Decoded_Iterator`, base16.hpp:113-154, src/base16.cpp:185-229: comparison looks at `_i` only, which is told by the
number of characters left. -/
def hexDecode (src : List Byte) : Kind Base16.DecIter Byte where
  begin' := Base16.DecIter.begin src
  end' := Base16.DecIter.begin []
  next := Base16.DecIter.next
  deref := Base16.DecIter.deref
  ne a b := a.left.length != b.left.length
  eq := some fun a b => a.left.length == b.left.length
  moved a := a
  moveAssign := some copied
  setTo := some fun _ t => t

/-- `VariableSpan::Iterator`, variableSpan.hpp:89-146, 172-186: `==` compares the numbers of elements left. The move assignment
(102-104) calls a member `swap` that does not exist, so it cannot be used; what `begin()` of a constant span returns is constant
(147, 180-186) and is assigned by copying. The move constructor leaves an empty view (memoryView.hpp:109-113). -/
def span (constant host : Bool) (n : Nat) (enc : VariableSpan.Enc) (count : Nat) (data : List Byte) :
    Kind VariableSpan.Iter (List Byte) where
  begin' := .ok ⟨count, data⟩
  end' := .ok ⟨0, data⟩
  next it := .ok (it.next host n enc)
  deref it := it.deref host n enc
  ne a b := !(a.nElements == b.nElements)
  eq := some fun a b => a.nElements == b.nElements
  moved a := { a with data := [] }
  moveAssign := none
  setTo := if constant then some fun _ t => t else none

/-- `Dictionary::Iterator`, dictionary.hpp:77-119, 206-210: pointers to a key and to a value. -/
def dictionary {K V : Type} (szK szV : Nat) (d : Dict K V) : Kind (Nat × Nat) (K × V) where
  begin' := .ok (0, 0)
  end' := .ok (Vec.viewSize szK d.lookup, Vec.viewSize szV d.values)
  next it := .ok (it.1 + 1, it.2 + 1)
  deref it := Dict.entryAt d it
  ne a b := a.1 != b.1 || a.2 != b.2
  eq := some fun a b => a.1 == b.1 && a.2 == b.2
  moved a := a
  moveAssign := some exchange
  setTo := some fun a t => (exchange a t).1

/-- `Env::Iterator`, env.hpp:52-97, 156-164, src/env.cpp:55-82. What `begin()` returns is constant and assigned by copying.
`fuel` for `size()`. -/
def env (fuel : Nat) (w : EnvIter.World) : Kind EnvIter.Iter Env.Var where
  begin' := match EnvIter.iterBegin fuel w with
    | some i => .ok i
    | none => .ub
  end' := match EnvIter.iterEnd fuel w with
    | some i => .ok i
    | none => .ub
  next := EnvIter.Iter.next
  deref a := a.deref w
  ne a b := a.ne b
  eq := some fun a b => a.index == b.index
  moved a := a
  moveAssign := some exchange
  setTo := some fun _ t => t

/-- `Path::Iterator`, path.hpp:60-106, 317-323, src/path.cpp:98-109. The move constructor leaves an empty view. -/
def path (p : Path) : Kind Path.Iter (List Byte) where
  begin' := .ok p.begin'
  end' := .ok p.end'
  next it := .ok it.next
  deref := Path.Iter.deref
  ne a b := !a.eq b
  eq := some Path.Iter.eq
  moved a := { a with comps := [] }
  moveAssign := some Path.Iter.moveAssign
  setTo := some fun a t => (Path.Iter.moveAssign a t).1

/-- `RangeView::Iter`, range_view.hpp:36-58: it has `!=` only. `fuel` for `++`. -/
def range {α : Type} (fuel : Nat) (xs : List α) (pred : α → Bool) : Kind Nat α where
  begin' := .ok 0
  end' := .ok xs.length
  next i := match RangeView.next xs pred fuel i with
    | some r => r
    | none => .ub
  deref i := RangeView.deref xs i
  ne i j := i != j
  eq := none
  moved i := i
  moveAssign := some copied
  setTo := some fun _ t => t

end Solace.Iterators
