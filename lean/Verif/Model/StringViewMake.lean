import Verif.Model.String
/-
Model of how string views are made and read (/repo/include/solace/stringView.hpp, /repo/src/stringView.cpp), with the memory
around them: a view is a pointer and a 16-bit size, and reading outside of the memory the pointer leads to is undefined
behaviour. `Verif.Model.StringView` models the functions on the characters of a view.
-/
namespace Solace.Make

/-- `_data` (`none`: the null pointer; otherwise the memory from that address to the end of the object) and `_size`,
stringView.hpp:424-426. -/
structure SV where
  data : Option (List Byte)
  size : Nat
deriving DecidableEq, Repr

/-- `StringView()`, stringView.hpp:48. -/
def SV.empty : SV := ⟨none, 0⟩

/-- `StringView(cstr, count)`, stringView.hpp:61-67: a null pointer is accepted with the count 0 only. -/
def ofPointer (data : Option (List Byte)) (count : Nat) : Outcome SV :=
  match data with
  | none => if count = 0 then .ok ⟨none, count⟩ else .throws
  | some m => .ok ⟨some m, count⟩

/-- `strlen` (C standard 7.24.6.3): undefined behaviour without a terminating null character. -/
def strlen : List Byte → Outcome Nat
  | [] => .ub
  | c :: m => if c = 0#8 then .ok 0 else (strlen m).bind fun n => .ok (n + 1)

/-- `StringView(char const*)`, stringView.cpp:29-35: the length is narrowed to 16 bits. -/
def ofCString (data : Option (List Byte)) : Outcome SV :=
  match data with
  | none => .ok ⟨none, 0⟩
  | some m => (strlen m).bind fun n => .ok ⟨some m, wrap16 n⟩

/-- `StringView(MemoryView)`, stringView.hpp:86-89. -/
def ofMemory (v : MutView) : SV := ⟨if v.null then none else some v.bytes, wrap16 v.bytes.length⟩

/-- `StringLiteral(char const (&)[N])`, stringView.hpp:458-462; `arr` is the array, `N ≤ 65536` (otherwise the narrowing of
`N - 1` in braces is not accepted by the compiler). -/
def ofArray (arr : List Byte) : SV := ⟨some arr, arr.length - 1⟩

/-- The characters `_data[0]`, ..., `_data[_size - 1]`. -/
def SV.chars (v : SV) : Outcome (List Byte) :=
  if v.size = 0 then .ok []
  else
    match v.data with
    | none => .ub
    | some m => if v.size ≤ m.length then .ok (m.take v.size) else .ub

/-- `for (c : view)`, with `begin` and `end`, stringView.hpp:405-411: `begin` of an empty view is null. The argument is the
number of increments left. -/
def iterate : Nat → List Byte → Outcome (List Byte)
  | 0, _ => .ok []
  | _ + 1, [] => .ub
  | n + 1, c :: m => (iterate n m).bind fun cs => .ok (c :: cs)

def SV.iterate (v : SV) : Outcome (List Byte) :=
  if v.size = 0 then Make.iterate v.size []
  else
    match v.data with
    | none => .ub
    | some m => Make.iterate v.size m

/-- `charAt`, stringView.hpp:262-266. -/
def SV.charAt (v : SV) (i : Nat) : Outcome Byte :=
  if v.size ≤ i then .throws
  else
    match v.data with
    | none => .ub
    | some m =>
      match m[i]? with
      | some c => .ok c
      | none => .ub

/-- `operator[]`, stringView.hpp:276-278: no check. -/
def SV.index (v : SV) (i : Nat) : Outcome Byte :=
  match v.data with
  | none => .ub
  | some m =>
    match m[i]? with
    | some c => .ok c
    | none => .ub

/-- `view()`, stringView.hpp:413-415, with the assertion of `MemoryView(data, size)`, memoryView.hpp:98-103 (`view` is
`noexcept`): the memory that is shown. -/
def SV.memory (v : SV) : Outcome MutView :=
  match v.data with
  | none => if v.size = 0 then .ok ⟨true, []⟩ else .terminate
  | some m => .ok ⟨false, m.take v.size⟩

/-- `operator bool`, stringView.hpp:294-296. -/
def SV.truth (v : SV) : Bool := !(v.size == 0)

/-- `equals`, stringView.cpp:38-52, reading the characters one by one. -/
def equalsLoop (a b : Option (List Byte)) : Nat → Nat → Outcome Bool
  | 0, _ => .ok true
  | n + 1, i =>
    match a.bind (·[i]?), b.bind (·[i]?) with
    | some x, some y => if x ≠ y then .ok false else equalsLoop a b n (i + 1)
    | _, _ => .ub

def SV.equals (a b : SV) : Outcome Bool := if a.size ≠ b.size then .ok false else equalsLoop a.data b.data a.size 0

/-- `operator==(StringView, char const*)` and its mirror image, stringView.hpp:519-537. -/
def SV.equalsCString (a : SV) (b : Option (List Byte)) : Outcome Bool := (ofCString b).bind fun v => a.equals v

end Make

/-- `String::substring(from, len)`, string.hpp:208-218. -/
def Str.substring (s : Str) (from' len : Nat) : List Byte := StringView.substring s.view from' len

/-- `String::operator()(from, to)`, string.hpp:320-321. -/
def Str.call (s : Str) (from' to' : Nat) : List Byte := s.substring from' to'

end Solace
