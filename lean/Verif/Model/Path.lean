import Verif.Model.String
/-
Model of `Path` (/repo/include/solace/path.hpp, /repo/src/path.cpp).

A path is its list of components, each the content of a `String`, and the flag `noBuffer`: whether the buffer of the
component array has size 0. The flag is what `Array::empty()` tests (array.hpp:136-138), so `Path::empty()` is the flag and
not `components = []`. Vectors of components are lists with a capacity (C44). `alloc` is the allocation of string memory
(as in Model/String), `vec n` the allocation of room for `n` components.
-/
namespace Solace

structure Path where
  noBuffer : Bool
  comps : List (List Byte)
deriving DecidableEq, Repr

namespace Path

/-- The content of a `String` made by `makeString`, or the error. -/
def text (r : Except Err Str) : Except Err (List Byte) := r.map Str.view

/-- `Path()`, path.hpp:138. -/
def none : Path := ⟨true, []⟩

/-- `Path{vector.toArray()}`. -/
def ofVector (cap : Nat) (comps : List (List Byte)) : Path := ⟨cap == 0, comps⟩

/-- The state of the callback in `parse`: `maybeError`, capacity and content of `nonEmptyComponents`. -/
structure Parse where
  err : Option Err
  cap : Nat
  comps : List (List Byte)
deriving DecidableEq, Repr

/-- `emplace_back` with the result ignored. -/
def Parse.push (a : Parse) (c : List Byte) : Parse := if a.cap ≤ a.comps.length then a else { a with comps := a.comps ++ [c] }

/-- Lines 66-73: the vector is made at the first piece. -/
def Parse.prepare (vec : Nat → Except Err Unit) (a : Parse) (count : Nat) : Parse :=
  if a.cap = 0 ∧ count ≠ 0 then
    match vec count with
    | .ok _ => { a with cap := count, comps := [] }
    | .error e => { a with err := some e }
  else a

/-- Lines 75-84. -/
def Parse.add (alloc : Nat → Except Err MutView) (a : Parse) (c : List Byte) (i count : Nat) : Parse :=
  if i + 1 = count ∧ c = [] then a
  else
    match text (Str.make alloc c) with
    | .ok s => a.push s
    | .error e => { a with err := some e }

/-- The callback of `parse`, src/path.cpp:62-84. -/
def onPiece (alloc : Nat → Except Err MutView) (vec : Nat → Except Err Unit) (a : Parse) (c : List Byte) (i count : Nat) : Parse :=
  if a.err.isSome then a else (a.prepare vec count).add alloc c i count

/-- src/path.cpp:86-94. -/
def Parse.finish (a : Parse) : Except Err Path :=
  match a.err with
  | some e => .error e
  | .none => if a.comps = [] then .ok (.ofVector a.cap (a.push []).comps) else .ok (.ofVector a.cap a.comps)

/-- `Path::parse`, src/path.cpp:58-95; `none`: does not return within the fuel. -/
def parse (alloc : Nat → Except Err MutView) (vec : Nat → Except Err Unit) (fuel : Nat) (s d : List Byte) :
    Option (Except Err Path) :=
  match StringView.split3 fuel s d with
  | .none => .none
  | some (calls, _) => some (calls.foldl (fun a c => onPiece alloc vec a c.1 c.2.1 c.2.2) ⟨.none, 0, []⟩).finish

/-- `_components[i]`, array.hpp:144-146. -/
def component (p : Path) (i : Nat) : Outcome (List Byte) :=
  match p.comps[i]? with
  | some c => .ok c
  | .none => .throws

/-- The sum of src/path.cpp:126-129, a `uint16`. -/
def lengthLoop (delim : Nat) : Nat → List (List Byte) → Nat
  | len, [] => len
  | len, c :: cs => lengthLoop delim (wrap16 (len + (delim + c.length))) cs

/-- `Path::length(delim)`, src/path.cpp:112-132. -/
def length (p : Path) (d : List Byte) : Nat :=
  match p.comps with
  | [] => 0
  | [c] => if c = [] then d.length else c.length
  | cs => sub16 (lengthLoop d.length 0 cs) d.length

/-- `Path::isAbsolute`, src/path.cpp:238-241; `noexcept`. -/
def isAbsolute (p : Path) : Outcome Bool :=
  if p.noBuffer then .ok false
  else (do let c ← p.component 0; pure (c == [])).noexcept

/-- `Path::toString(delim)`, src/path.cpp:347-361: the content of the string. -/
def toString (alloc : Nat → Except Err MutView) (p : Path) (d : List Byte) : Outcome (List Byte) := do
  let abs ← p.isAbsolute
  if abs && p.comps.length == 1 then
    match text (Str.make alloc d) with
    | .ok s => pure s
    | .error _ => pure []
  else
    match text (Str.makeJoin alloc d p.comps) with
    | .ok s => pure s
    | .error _ => pure []

/-- The loop of `compareTo`, src/path.cpp:138-147, over the common indices. -/
def compareLoop : List (List Byte) → List (List Byte) → Outcome Int
  | a :: as, b :: bs => do
    let diff ← StringView.compareTo a b
    if diff ≠ 0 then pure diff else compareLoop as bs
  | _, _ => .ok 0

/-- `Path::compareTo`, src/path.cpp:135-151. The counts are below 2^31 (each component takes at least 24 bytes). -/
def compareTo (p q : Path) : Outcome Int := do
  let diff ← compareLoop p.comps q.comps
  if diff ≠ 0 then pure diff else pure ((p.comps.length : Int) - q.comps.length)

/-- The loop of `startsWith`, src/path.cpp:164-172: `k` components of `other` are left, `i` is the index. -/
def startsWithLoop (p q : Path) : Nat → Nat → Outcome Bool
  | 0, _ => .ok true
  | k + 1, i => do
    let o ← q.component i
    let t ← p.component i
    if !StringView.equals t o then pure (StringView.startsWith t o && k == 0) else startsWithLoop p q k (i + 1)

/-- `Path::startsWith(Path)`, src/path.cpp:154-175, with the default delimiter "/". -/
def startsWith (p q : Path) : Outcome Bool :=
  if p.noBuffer then .ok q.noBuffer
  else if q.noBuffer then .ok p.noBuffer
  else if q.length [0x2F#8] > p.length [0x2F#8] then .ok false
  else startsWithLoop p q q.comps.length 0

/-- The loop of `endsWith`, src/path.cpp:192-199; the indices are `size_t`. -/
def endsWithLoop (p q : Path) : Nat → Nat → Outcome Bool
  | 0, _ => .ok true
  | k + 1, i => do
    let t ← p.component (sub64 (sub64 p.comps.length 1) i)
    let o ← q.component (sub64 (sub64 q.comps.length 1) i)
    if !StringView.equals t o then pure (StringView.endsWith t o && k == 0) else endsWithLoop p q k (i + 1)

/-- `Path::endsWith(Path)`, src/path.cpp:177-202. -/
def endsWith (p q : Path) : Outcome Bool :=
  if p.noBuffer then .ok q.noBuffer
  else if q.noBuffer then .ok p.noBuffer
  else if q.length [0x2F#8] > p.length [0x2F#8] then .ok false
  else endsWithLoop p q q.comps.length 0

/-- The inner loop of `contains`, src/path.cpp:219-227: do the `k` components from `i` on match? -/
def matchLoop (p q : Path) (first : Nat) : Nat → Nat → Outcome Bool
  | 0, _ => .ok true
  | k + 1, i => do
    let b ← p.component (first + i)
    let o ← q.component i
    if !StringView.equals b o then pure false else matchLoop p q first k (i + 1)

/-- The outer loop of `contains`, src/path.cpp:213-232: `k` positions are left. -/
def containsLoop (p q : Path) : Nat → Nat → Outcome Bool
  | 0, _ => .ok false
  | k + 1, first => do
    let a ← p.component first
    let o ← q.component 0
    if StringView.equals a o then
      let all ← matchLoop p q first (q.comps.length - 1) 1
      if all then pure true else containsLoop p q k (first + 1)
    else containsLoop p q k (first + 1)

/-- `Path::contains(Path)`, src/path.cpp:204-235. -/
def contains (p q : Path) : Outcome Bool :=
  if q.comps.length > p.comps.length then .ok false
  else containsLoop p q (p.comps.length - q.comps.length + 1) 0

/-- `SelfRef`, `ParentRef`, src/path.cpp:28-29. -/
def selfRef : List Byte := [0x2E#8]
def parentRef : List Byte := [0x2E#8, 0x2E#8]

/-- Append the copy of a component to a vector of that capacity; a failed copy is left out. -/
def copyTo (alloc : Nat → Except Err MutView) (cap : Nat) (acc : List (List Byte)) (c : List Byte) : List (List Byte) :=
  match text (Str.make alloc c) with
  | .ok s => if cap ≤ acc.length then acc else acc ++ [s]
  | .error _ => acc

/-- The loop of `normalize`, src/path.cpp:259-270. -/
def normalizeLoop (alloc : Nat → Except Err MutView) (cap : Nat) : List (List Byte) → List (List Byte) → List (List Byte)
  | acc, [] => acc
  | acc, c :: cs =>
    if StringView.equals c selfRef then normalizeLoop alloc cap acc cs
    else if StringView.equals c parentRef && decide (0 < acc.length) then normalizeLoop alloc cap acc.dropLast cs
    else normalizeLoop alloc cap (copyTo alloc cap acc c) cs

/-- `Path::normalize`, src/path.cpp:250-273. -/
def normalize (alloc : Nat → Except Err MutView) (vec : Nat → Except Err Unit) (p : Path) : Path :=
  match vec p.comps.length with
  | .error _ => .none
  | .ok _ => .ofVector p.comps.length (normalizeLoop alloc p.comps.length [] p.comps)

/-- Copying an array of strings (`makeArray(Array const&)` with `ctor(String&, String const&)`, string.hpp:467-470): each
element is `makeString(s).unwrap()`, which throws when memory runs out. -/
def copyArray (alloc : Nat → Except Err MutView) : List (List Byte) → Outcome (List (List Byte))
  | [] => .ok []
  | c :: cs =>
    match text (Str.make alloc c) with
    | .error _ => .throws
    | .ok s => do
      let rest ← copyArray alloc cs
      pure (s :: rest)

/-- `Path::getParent`, src/path.cpp:276-302. -/
def getParent (alloc : Nat → Except Err MutView) (vec : Nat → Except Err Unit) (p : Path) : Outcome Path :=
  if p.comps.length < 2 then
    match vec p.comps.length with
    | .error _ => .ok .none
    | .ok _ => do
      let cs ← copyArray alloc p.comps
      pure (.ofVector p.comps.length cs)
  else
    match vec (p.comps.length - 1) with
    | .error _ => .ok .none
    | .ok _ =>
      .ok (.ofVector (p.comps.length - 1)
        ((p.comps.take (p.comps.length - 1)).foldl (copyTo alloc (p.comps.length - 1)) []))

/-- `Path::getBasename`, src/path.cpp:305-313. -/
def getBasename (p : Path) : List Byte :=
  match p.comps.getLast? with
  | .none => []
  | some c => if p.comps.length = 1 ∧ c = [] then [0x2F#8] else c

/-- `Path::subpath`, src/path.cpp:321-338; `noexcept`, and `unwrap` of a failed allocation throws. -/
def subpath (alloc : Nat → Except Err MutView) (vec : Nat → Except Err Unit) (p : Path) (from' to' : Nat) : Outcome Path :=
  let n := p.comps.length
  let f := min from' n
  let t := max f (min to' n)
  match vec (t - f) with
  | .error _ => .terminate
  | .ok _ => .ok (.ofVector (t - f) (((p.comps.drop f).take (t - f)).foldl (copyTo alloc (t - f)) []))

/-- `Path::equals`, src/path.cpp:341-344. -/
def equals (p q : Path) : Bool :=
  decide (p.comps.length = q.comps.length) && (p.comps.zip q.comps).all fun c => StringView.equals c.1 c.2

/-- An argument of `makePath(args...)`: a path or a string. -/
inductive Arg where
  | path (p : Path)
  | str (s : List Byte)
deriving DecidableEq, Repr

def Arg.comps : Arg → List (List Byte)
  | .path p => p.comps
  | .str s => [s]

/-- Copy components one after the other, stopping at the first error (`joinComponents`, path.hpp:450-530; the result of
`emplace_back` is ignored). -/
def joinLoop (alloc : Nat → Except Err MutView) (cap : Nat) : List (List Byte) → List (List Byte) → Except Err (List (List Byte))
  | acc, [] => .ok acc
  | acc, c :: cs =>
    match text (Str.make alloc c) with
    | .ok s => joinLoop alloc cap (if cap ≤ acc.length then acc else acc ++ [s]) cs
    | .error e => .error e

/-- `makePath(args...)`, path.hpp:536-550. The arguments are copied (`const&` and `StringView`). -/
def make (alloc : Nat → Except Err MutView) (vec : Nat → Except Err Unit) (args : List Arg) : Except Err Path :=
  let count := (args.map fun a => a.comps.length).sum
  match vec count with
  | .error e => .error e
  | .ok _ =>
    match joinLoop alloc count [] (args.flatMap Arg.comps) with
    | .error e => .error e
    | .ok cs => .ok (.ofVector count cs)

end Path
end Solace
