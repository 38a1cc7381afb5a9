import Verif.Model.Path
/-
Model of the rest of `Path` (/repo/include/solace/path.hpp, /repo/src/path.cpp): making a path of one string, the root,
iteration, `forEach`, the queries on the text of a path and joining with arguments that are moved.
-/
namespace Solace.Path

/-- `makePath(StringView)`, src/path.cpp:42-55, also for `String const&` and `char const*` (path.hpp:420-428): an array of one
component. -/
def single (alloc : Nat → Except Err MutView) (vec : Nat → Except Err Unit) (s : List Byte) : Except Err Path :=
  match text (Str.make alloc s) with
  | .error e => .error e
  | .ok c =>
    match vec 1 with
    | .error e => .error e
    | .ok _ => .ok (.ofVector 1 [c])

/-- `makeRoot()` and `Path::Root`, src/path.cpp:32-39. -/
def root (alloc : Nat → Except Err MutView) (vec : Nat → Except Err Unit) : Path :=
  match single alloc vec [] with
  | .ok p => p
  | .error _ => .none

/-- `Path::isRelative`, src/path.cpp:244-247. -/
def isRelative (p : Path) : Outcome Bool := do
  let a ← p.isAbsolute
  pure (!a)

/-! ### Iteration -/

/-- `Path::Iterator`, path.hpp:62-106: the view of the components and an index (`size_t`). -/
structure Iter where
  index : Nat
  comps : List (List Byte)
deriving DecidableEq, Repr

/-- `begin()`, path.hpp:317-319. -/
def begin' (p : Path) : Iter := ⟨0, p.comps⟩
/-- `end()`, path.hpp:321-323. -/
def end' (p : Path) : Iter := ⟨p.comps.length, p.comps⟩

/-- `operator++`, src/path.cpp:98-103. -/
def Iter.next (it : Iter) : Iter := { it with index := wrap64 (it.index + 1) }

/-- `operator->` and `operator*`, src/path.cpp:106-109, path.hpp:89-91; `ArrayView::operator[]` throws outside the view. -/
def Iter.deref (it : Iter) : Outcome (List Byte) :=
  match it.comps[it.index]? with
  | some c => .ok c
  | .none => .throws

/-- `operator==`, path.hpp:81-83; `operator!=` (77-79) is its negation. -/
def Iter.eq (a b : Iter) : Bool := a.index == b.index

/-- `operator=(Iterator&&)` and `swap`, path.hpp:73-75, 94-99: the two are exchanged. -/
def Iter.moveAssign (a b : Iter) : Iter × Iter := (b, a)

/-- `for (auto c : path)`: what the body sees, in order. `none`: not finished within the fuel. -/
def rangeFor : Nat → Iter → Iter → Option (Outcome (List (List Byte)))
  | 0, _, _ => .none
  | fuel + 1, it, e =>
    if it.eq e then some (.ok [])
    else
      match it.deref with
      | .ok c => (rangeFor fuel it.next e).map fun r => do let cs ← r; pure (c :: cs)
      | .throws => some .throws
      | .terminate => some .terminate
      | .ub => some .ub

/-- `forEach(f) const`, path.hpp:333-341, for a function with state `σ`: the calls made and how it ends. -/
def forEach {σ : Type} (f : σ → List Byte → Outcome σ) : σ → List (List Byte) → List (List Byte) × Outcome σ
  | s, [] => ([], .ok s)
  | s, c :: cs =>
    match f s c with
    | .ok s' =>
      let r := forEach f s' cs
      (c :: r.1, r.2)
    | .throws => ([c], .throws)
    | .terminate => ([c], .terminate)
    | .ub => ([c], .ub)

/-- `forEach(f) &&`, path.hpp:343-351, for a function that takes over each component it is given: the components it got,
and the path left behind (`String(String&&)` leaves the empty string, C86). The array itself is not moved. -/
def forEachMoved (p : Path) : List (List Byte) × Path := (p.comps, ⟨p.noBuffer, p.comps.map fun _ => []⟩)

/-! ### Queries on the text, with the delimiter "/" -/

/-- `startsWith(StringView)`, path.hpp:235-238. -/
def startsWithText (alloc : Nat → Except Err MutView) (p : Path) (x : List Byte) : Outcome Bool := do
  let t ← p.toString alloc [0x2F#8]
  pure (StringView.startsWith t x)

/-- `endsWith(StringView)`, path.hpp:250-253. -/
def endsWithText (alloc : Nat → Except Err MutView) (p : Path) (x : List Byte) : Outcome Bool := do
  let t ← p.toString alloc [0x2F#8]
  pure (StringView.endsWith t x)

/-- `contains(StringView)` and `contains(String)`, path.hpp:267-278; `after` and `xAfter` are the memory behind the text and
behind `x`. -/
def containsText (alloc : Nat → Except Err MutView) (p : Path) (after x xAfter : List Byte) : Outcome Bool := do
  let t ← p.toString alloc [0x2F#8]
  StringView.contains t after x xAfter

/-! ### Joining with arguments that are moved -/

/-- An argument of `makePath(args...)` with the way it is passed on: a string or a path that is copied, a string or a path
that is an rvalue. -/
inductive Piece where
  | str (s : List Byte)
  | path (cs : List (List Byte))
  | strMoved (s : List Byte)
  | pathMoved (cs : List (List Byte))
deriving DecidableEq, Repr

/-- What an argument holds. -/
def Piece.comps : Piece → List (List Byte)
  | .str s => [s]
  | .path cs => cs
  | .strMoved s => [s]
  | .pathMoved cs => cs

/-- `countPathComponents(arg)`, path.hpp:433-447. There is an overload for each kind but the rvalue `String`: for that one
the template (445-447) is the best match, which calls itself with the same argument. `none`: not finished within the fuel. -/
def countOne : Nat → Piece → Option Nat
  | _, .str _ => some 1
  | _, .path cs => some cs.length
  | _, .pathMoved cs => some cs.length
  | 0, .strMoved _ => .none
  | fuel + 1, .strMoved s => countOne fuel (.strMoved s)

/-- The fold of `countPathComponents(base, args...)`, path.hpp:444-447, in `size_t`. -/
def countAll (fuel : Nat) : List Piece → Option Nat
  | [] => some 0
  | a :: as =>
    match countOne fuel a with
    | .none => .none
    | some n =>
      match countAll fuel as with
      | .none => .none
      | some m => some (wrap64 (n + m))

/-- `emplace_back` of a moved component, path.hpp:473-479; the result is ignored. -/
def pushMoved (cap : Nat) (acc : List (List Byte)) (c : List Byte) : List (List Byte) :=
  if cap ≤ acc.length then acc else acc ++ [c]

/-- `joinComponents(base, args...)`, path.hpp:450-530: the result, and what each argument holds afterwards. -/
def joinPieces (alloc : Nat → Except Err MutView) (cap : Nat) :
    List (List Byte) → List Piece → Except Err (List (List Byte)) × List (List (List Byte))
  | acc, [] => (.ok acc, [])
  | acc, a :: as =>
    match a with
    | .str s =>
      match joinLoop alloc cap acc [s] with
      | .ok acc' => let r := joinPieces alloc cap acc' as; (r.1, [s] :: r.2)
      | .error e => (.error e, [s] :: as.map Piece.comps)
    | .path cs =>
      match joinLoop alloc cap acc cs with
      | .ok acc' => let r := joinPieces alloc cap acc' as; (r.1, cs :: r.2)
      | .error e => (.error e, cs :: as.map Piece.comps)
    | .strMoved s => let r := joinPieces alloc cap (pushMoved cap acc s) as; (r.1, [[]] :: r.2)
    | .pathMoved cs => let r := joinPieces alloc cap (cs.foldl (pushMoved cap) acc) as; (r.1, (cs.map fun _ => []) :: r.2)

/-- `makePath(args...)`, path.hpp:536-550: the result, and what each argument holds afterwards. -/
def makeMoved (alloc : Nat → Except Err MutView) (vec : Nat → Except Err Unit) (fuel : Nat) (args : List Piece) :
    Option (Except Err Path × List (List (List Byte))) :=
  match countAll fuel args with
  | .none => .none
  | some count =>
    match vec count with
    | .error e => some (.error e, args.map Piece.comps)
    | .ok _ =>
      let r := joinPieces alloc count [] args
      match r.1 with
      | .error e => some (.error e, r.2)
      | .ok cs => some (.ok (.ofVector count cs), r.2)

end Solace.Path
