import Verif.Model.StringViewMake
/-
The variadic string functions with arguments of every kind they take (/repo/include/solace/string.hpp). `Verif.Model.String`
has them for string views and `const` strings. Here the overload the compiler picks for each kind of argument is part of the
model: for an argument of type `String` that is not `const` the forwarding template `totalSize(Args&&...)` is a better match
than `totalSize(String const&)`, because it binds without adding `const`; a `String` given as an rvalue is a named, non-const
lvalue inside of the template, so it goes the same way. For all other kinds the plain overload is at least as good and wins.
-/
namespace Solace.StringArgs

inductive Arg where
  /-- a `char` -/
  | char (c : Byte)
  /-- a `StringView` or a `StringLiteral` -/
  | view (s : List Byte)
  /-- a `char const*` or an array of `char`: the memory from that address on -/
  | cstring (mem : Option (List Byte))
  /-- a `String const` lvalue showing this text -/
  | constString (s : List Byte)
  /-- any other `String` showing this text -/
  | string (s : List Byte)
deriving DecidableEq, Repr

/-- `totalSize` of one argument, string.hpp:488-517, and the instance of the template (519-522) with one argument of type
`String&`, which calls itself: `none` when that takes more than `fuel` calls. -/
def totalSizeOne (fuel : Nat) : Arg → Option (Outcome Nat)
  | .char _ => some (.ok 1)
  | .view s => some (.ok s.length)
  | .cstring m => some ((Make.ofCString m).bind fun v => .ok v.size)
  | .constString s => some (.ok s.length)
  | .string s =>
    match fuel with
    | 0 => none
    | fuel + 1 => totalSizeOne fuel (.string s)

/-- The fold in `totalSize(args...)`, string.hpp:519-522, before it is narrowed to 16 bits (the sum is an `int`; there are
fewer than 2^15 arguments). -/
def totalSizeSum (fuel : Nat) : List Arg → Option (Outcome Nat)
  | [] => some (.ok 0)
  | a :: as =>
    match totalSizeOne fuel a with
    | none => none
    | some r => (totalSizeSum fuel as).map fun o => r.bind fun n => o.bind fun k => .ok (n + k)

/-- `totalSize(args...)`. -/
def totalSize (fuel : Nat) (args : List Arg) : Option (Outcome Nat) :=
  (totalSizeSum fuel args).map fun o => o.bind fun n => .ok (wrap16 n)

/-- The bytes `writeArg` writes, string.hpp:524-537. -/
def written : Arg → Outcome (List Byte)
  | .char c => .ok [c]
  | .view s => .ok s
  | .cstring m => (Make.ofCString m).bind Make.SV.chars
  | .constString s => .ok s
  | .string s => .ok s

def writtenAll : List Arg → Outcome (List (List Byte))
  | [] => .ok []
  | a :: as => (written a).bind fun s => (writtenAll as).bind fun ss => .ok (s :: ss)

/-- The conversion of one of the first two arguments to the parameter type: a C string becomes a `StringView`, a string its
view (string.hpp:585-603); a character stays one. -/
def convert : Arg → Outcome Arg
  | .char c => .ok (.char c)
  | .view s => .ok (.view s)
  | .cstring m => ((Make.ofCString m).bind Make.SV.chars).bind fun s => .ok (.view s)
  | .constString s => .ok (.view s)
  | .string s => .ok (.view s)

/-- The body shared by the two overloads, string.hpp:552-582: the writes go on until the first failing one, whose error is
dropped. -/
def concat (alloc : Nat → Except Err MutView) (fuel : Nat) (args : List Arg) : Option (Outcome (Except Err Str)) :=
  (totalSize fuel args).map fun o => o.bind fun total =>
    match alloc total with
    | .error e => .ok (.error e)
    | .ok v => (writtenAll args).bind fun ss => .ok (.ok ⟨(Str.writeArgs (.ofBuffer v.bytes) ss).data, total⟩)

/-- `makeString(lhs, rhs, args...)`, string.hpp:552-603. (`rhs` is not a character: no overload takes that.) -/
def makeString (alloc : Nat → Except Err MutView) (fuel : Nat) (lhs rhs : Arg) (args : List Arg) :
    Option (Outcome (Except Err Str)) :=
  match convert lhs, convert rhs with
  | .ok l, .ok r => concat alloc fuel (l :: r :: args)
  | _, _ => some .ub

/-- The argument as `writeJointArgs` takes it: whether its overload is one of those for strings, and the bytes. -/
def joint : Arg → Outcome (Bool × List Byte)
  | .constString s => .ok (true, s)
  | .string s => .ok (true, s)
  | a => (written a).bind fun s => .ok (false, s)

def jointAll : List Arg → Outcome (List (Bool × List Byte))
  | [] => .ok []
  | a :: as => (joint a).bind fun s => (jointAll as).bind fun ss => .ok (s :: ss)

/-- The template `makeStringJoin(by, args...)`, string.hpp:743-782; `by` is a string view or one character. -/
def joinArgs (alloc : Nat → Except Err MutView) (fuel : Nat) (by' : List Byte) (args : List Arg) :
    Option (Outcome (Except Err Str)) :=
  (totalSize fuel args).map fun o => o.bind fun _ => (jointAll args).bind fun ss => .ok (Str.makeJoinArgs alloc by' ss)

/-- `makeStringJoin(by, args...)`, string.hpp:641-669 and 743-788: without arguments the empty string; one string view or
`const` string is copied; everything else goes to the template, where a better match than `StringView` and
`String const&` is found. (A character is no argument of this function.) -/
def makeJoin (alloc : Nat → Except Err MutView) (fuel : Nat) (by' : List Byte) : List Arg → Option (Outcome (Except Err Str))
  | [] => some (.ok (.ok ⟨[], 0⟩))
  | [.view s] => some (.ok (Str.make alloc s))
  | [.constString s] => some (.ok (Str.make alloc s))
  | args => joinArgs alloc fuel by' args

end Solace.StringArgs
