import Verif.Model.StringView
/-
`StringLiteral` as a promise that the characters last: /repo/include/solace/stringView.hpp:91-98 (`swap`), 451-463 (`StringLiteral`), 466-474
(`swap` of views and literals), src/stringView.cpp:71-82 (`substring`), and what relies on it without copying the characters:
`makeString(StringLiteral)` (src/string.cpp:46-49), `makeError(…, StringLiteral)` (posixErrorDomain.hpp:202-221) and the constructors of
`Version` (version.hpp:94-100, 123-129).

A program has character arrays — string literals, other arrays of static storage, arrays of automatic storage — and variables of the types
`StringView` and `StringLiteral`. `Model/StringOwner.lean` (C86) takes for granted that a string made from a literal refers to
characters that live for ever; here this is not assumed.
-/
namespace Solace.Literal

/-- Where an array of characters comes from: a literal in the source, an array of static storage that the program may write, an array
on the stack. -/
inductive Storage where
  | literal | static | automatic
deriving DecidableEq, Repr

/-- An array, with its terminating NUL; `live` until its scope is left. -/
structure Arr where
  bytes : List Byte
  storage : Storage
  live : Bool
deriving DecidableEq, Repr

/-- `_data` (an array and an offset, `none` is the null pointer) and `_size`, stringView.hpp:424-426. -/
structure View where
  data : Option (Nat × Nat)
  size : Nat
deriving DecidableEq, Repr

/-- A variable of type `StringLiteral` or `StringView`. -/
structure Var where
  literal : Bool
  view : View
deriving DecidableEq, Repr

/-- Arrays, variables, and the views kept by strings, error tags and versions made from literals. -/
structure World where
  arrs : List Arr
  vars : List Var
  kept : List View
deriving DecidableEq, Repr

def World.empty : World := ⟨[], [], []⟩

/-- The characters `_data[0]` to `_data[_size - 1]`. -/
def read (w : World) (v : View) : Outcome (List Byte) :=
  if v.size = 0 then .ok []
  else
    match v.data with
    | none => .ub
    | some (i, off) =>
      match w.arrs[i]? with
      | none => .ub
      | some a => if a.live ∧ off + v.size ≤ a.bytes.length then .ok ((a.bytes.drop off).take v.size) else .ub

/-- `substring(from, to)`, src/stringView.cpp:71-82. -/
def substring (v : View) (from' to' : Nat) : View :=
  let f := min from' v.size
  let t := min v.size (max to' f)
  ⟨v.data.map fun p => (p.1, p.2 + f), t - f⟩

inductive Op where
  /-- an array comes into being; a literal has its terminating NUL like every initialised array -/
  | array (bytes : List Byte) (s : Storage)
  /-- the scope of an automatic array is left -/
  | leave (i : Nat)
  /-- the program writes into an array that is no literal -/
  | write (i j : Nat) (b : Byte)
  /-- `StringView v;` or `StringLiteral l;` -/
  | default (literal : Bool)
  /-- `StringLiteral l{array};` -/
  | literal (i : Nat)
  /-- `StringView v{array + off, n};` within the array -/
  | view (i off n : Nat)
  /-- `StringView v = x.substring(a, b);` -/
  | sub (x a b : Nat)
  /-- `x = y;` -/
  | assign (x y : Nat)
  /-- `swap(x, y)` or `x.swap(y)` -/
  | swap (x y : Nat)
  /-- `makeString(x)`, `makeError(code, x)`, `Version(1, 2, 3, x)` -/
  | keep (x : Nat)
deriving DecidableEq, Repr

/-- One statement. What does not compile or has no meaning (an index out of range) leaves the world. -/
def step (w : World) : Op → World
  | .array bytes s => { w with arrs := w.arrs ++ [⟨bytes ++ [0#8], s, true⟩] }
  | .leave i =>
    match w.arrs[i]? with
    | some a => if a.storage = .automatic then { w with arrs := w.arrs.set i { a with live := false } } else w
    | none => w
  | .write i j b =>
    match w.arrs[i]? with
    | some a => if a.storage ≠ .literal ∧ a.live then { w with arrs := w.arrs.set i { a with bytes := a.bytes.set j b } } else w
    | none => w
  | .default l => { w with vars := w.vars ++ [⟨l, ⟨none, 0⟩⟩] }
  | .literal i =>
    -- stringView.hpp:458-462: any array of characters
    match w.arrs[i]? with
    | some a => if a.live then { w with vars := w.vars ++ [⟨true, ⟨some (i, 0), a.bytes.length - 1⟩⟩] } else w
    | none => w
  | .view i off n =>
    match w.arrs[i]? with
    | some a => if a.live ∧ off + n ≤ a.bytes.length then { w with vars := w.vars ++ [⟨false, ⟨some (i, off), n⟩⟩] } else w
    | none => w
  | .sub x a b =>
    match w.vars[x]? with
    | some u => { w with vars := w.vars ++ [⟨false, substring u.view a b⟩] }
    | none => w
  | .assign x y =>
    -- a view is no literal: `literal = view` does not compile
    match w.vars[x]?, w.vars[y]? with
    | some u, some v => if u.literal ∧ ¬v.literal then w else { w with vars := w.vars.set x { u with view := v.view } }
    | _, _ => w
  | .swap x y =>
    -- 91-98, 466-474: `StringView&` binds to a literal
    match w.vars[x]?, w.vars[y]? with
    | some u, some v => { w with vars := (w.vars.set x { u with view := v.view }).set y { v with view := u.view } }
    | _, _ => w
  | .keep x =>
    match w.vars[x]? with
    | some u => if u.literal then { w with kept := w.kept ++ [u.view] } else w
    | none => w

def run (w : World) (ops : List Op) : World := ops.foldl step w

end Solace.Literal
