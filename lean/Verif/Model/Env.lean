import Verif.Model.StringView
/-
`Env`, /repo/src/env.cpp and /repo/include/solace/env.hpp, on Linux. `environ` is a list of C strings without their terminators.

`setenv`, `unsetenv` and `clearenv` are the C library's (glibc); what they do is stated here as an assumption:
 * names that are empty or contain '=' are refused with an error;
 * `setenv` changes the first entry `name=...` (only when `overwrite` is set), or adds an entry at the end; it may also fail for
   lack of memory and then changes nothing;
 * `unsetenv` removes all entries `name=...`;
 * `clearenv` removes all entries and returns 0, or fails with another value.
Names and values are passed to them as pointers, so what counts is the memory up to the next zero byte: `after` below is the
memory that follows a view. A default constructed (null) name is not modelled.
-/
namespace Solace.Env

abbrev Environ := List (List Byte)

/-- The character '='. -/
def eq : Byte := 61#8

/-- A pointer used as a C string. -/
def cstr (view after : List Byte) : Outcome (List Byte) :=
  if 0#8 ∈ view ++ after then .ok ((view ++ after).takeWhile (· != 0#8)) else .ub

namespace Libc

/-- Does the entry define `name`? -/
def defines (name entry : List Byte) : Bool := (name ++ [eq]).isPrefixOf entry

def validName (name : List Byte) : Bool := !name.isEmpty && !name.contains eq

def setenv (memory : Bool) (env : Environ) (name value : List Byte) (overwrite : Bool) : Environ × Except Err Unit :=
  if !validName name then (env, .error .errno)
  else
    match env.findIdx? (defines name) with
    | some i =>
      if !overwrite then (env, .ok ())
      else if !memory then (env, .error .errno)
      else (env.set i (name ++ eq :: value), .ok ())
    | none => if !memory then (env, .error .errno) else (env ++ [name ++ eq :: value], .ok ())

def unsetenv (env : Environ) (name : List Byte) : Environ × Except Err Unit :=
  if !validName name then (env, .error .errno) else (env.filter fun e => !defines name e, .ok ())

/-- The environment and the number returned. -/
def clearenv (works : Bool) (env : Environ) : Environ × Int := if works then ([], 0) else (env, -1)

end Libc

/-- `Env::set`, env.cpp:112-117. -/
def set (memory : Bool) (env : Environ) (name nameAfter value valueAfter : List Byte) (replace : Bool) :
    Outcome (Environ × Except Err Unit) := do
  let n ← cstr name nameAfter
  let v ← if value.isEmpty then pure [] else cstr value valueAfter
  pure (Libc.setenv memory env n v replace)

/-- `Env::unset`, env.cpp:120-124. -/
def unset (env : Environ) (name nameAfter : List Byte) : Outcome (Environ × Except Err Unit) := do
  let n ← if name.isEmpty then pure [] else cstr name nameAfter
  pure (Libc.unsetenv env n)

/-- `Env::clear`, env.cpp:128-133. -/
def clear (works : Bool) (env : Environ) : Environ × Except Err Unit :=
  let r := Libc.clearenv works env
  (r.1, if r.2 ≠ 0 then .ok () else .error .errno)

/-- The loop of `Env::size`, env.cpp:136-146, with its 16-bit counter; `none`: not finished. -/
def sizeLoop (env : Environ) : Nat → Nat → Option Nat
  | 0, _ => none
  | fuel + 1, i => if i < env.length then sizeLoop env fuel (wrap16 (i + 1)) else some i

def size (fuel : Nat) (env : Environ) : Option Nat := sizeLoop env fuel 0

/-- `Env::Var`, env.hpp:44-47. -/
structure Var where
  name : List Byte
  value : List Byte
deriving DecidableEq, Repr

/-- `StringView(char const*)`, /repo/src/stringView.cpp:29-35: the length is narrowed to 16 bits. -/
def viewOf (s : List Byte) : List Byte := s.take (wrap16 s.length)

/-- The callback of `split` in `operator->`, env.cpp:71-79. -/
def assign (v : Var) (call : List Byte × Nat × Nat) : Var :=
  if call.2.1 = 0 then { v with name := call.1 } else if call.2.1 = 1 then { v with value := call.1 } else v

/-- `Iterator::operator->`, env.cpp:65-82. The loops of `split` end within the number of rounds given (C31). -/
def deref (env : Environ) (size i : Nat) : Outcome Var :=
  if i < size then
    match env[i]? with
    | none => .ub
    | some e =>
      match StringView.split3 ((viewOf e).length + 1) (viewOf e) [eq] with
      | none => .ub
      | some calls => .ok (calls.1.foldl assign ⟨[], []⟩)
  else .throws

/-- `for (auto e : *this)` in `Env::get`, env.cpp:92-95; `k` is the distance from `i` to the end. `operator++` cannot raise here
(`i < size`). -/
def getLoop (env : Environ) (name : List Byte) (size : Nat) : Nat → Nat → Outcome (Option (List Byte))
  | 0, _ => .ok none
  | k + 1, i => do
    let v ← deref env size i
    if StringView.equals v.name name then pure (some v.value) else getLoop env name size k (wrap16 (i + 1))

/-- `Env::get`, env.cpp:90-97; `none`: `size` not finished. -/
def get (fuel : Nat) (env : Environ) (name : List Byte) : Option (Outcome (Option (List Byte))) :=
  (size fuel env).map fun n => (getLoop env name n n 0).noexcept

/-- `forEach`, env.hpp:156-184: the variables visited. -/
def visitLoop (env : Environ) (size : Nat) : Nat → Nat → Outcome (List Var)
  | 0, _ => .ok []
  | k + 1, i => do
    let v ← deref env size i
    let vs ← visitLoop env size k (wrap16 (i + 1))
    pure (v :: vs)

def visit (fuel : Nat) (env : Environ) : Option (Outcome (List Var)) :=
  (size fuel env).map fun n => visitLoop env n n 0

end Solace.Env
