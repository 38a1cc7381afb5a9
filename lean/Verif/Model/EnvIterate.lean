import Verif.Model.Env
/-
Iterating over the environment while it is changed: `Env::Iterator` and `Env::forEach` (/repo/include/solace/env.hpp:52-95, 156-194,
/repo/src/env.cpp:55-82) with a callback that may call `set`, `unset` and `clear`.

Besides the entries (Model/Env) the array `environ` has null pointers after them. What the C library does with the array is stated here as an
assumption (glibc): `unsetenv` moves the following pointers down, so that one more null pointer remains at the end for each entry removed;
`setenv` of a new name makes an array with one null pointer at its end; `clearenv` sets `environ` itself to null. Texts of
entries are not freed or overwritten, so views of them stay valid.
-/
namespace Solace.EnvIter

/-- The entries and the number of null pointers known to follow them. -/
structure World where
  entries : Env.Environ
  nulls : Nat
deriving DecidableEq, Repr

/-- `Env::set` on the array. -/
def World.set (w : World) (memory : Bool) (name nameAfter value valueAfter : List Byte) (replace : Bool) :
    Outcome (World × Except Err Unit) := do
  let r ← Env.set memory w.entries name nameAfter value valueAfter replace
  pure (⟨r.1, if r.1.length = w.entries.length then w.nulls else 1⟩, r.2)

/-- `Env::unset` on the array. -/
def World.unset (w : World) (name nameAfter : List Byte) : Outcome (World × Except Err Unit) := do
  let r ← Env.unset w.entries name nameAfter
  pure (⟨r.1, w.nulls + (w.entries.length - r.1.length)⟩, r.2)

/-- `Env::clear` on the array. -/
def World.clear (w : World) (works : Bool) : World × Except Err Unit :=
  let r := Env.clear works w.entries
  (if works then ⟨r.1, 0⟩ else w, r.2)

/-- `_index` and `_size`, env.hpp:91-94. -/
structure Iter where
  index : Nat
  size : Nat
deriving DecidableEq, Repr

/-- `begin()` and `end()`, env.hpp:156-164; `none`: `size` not finished. -/
def iterBegin (fuel : Nat) (w : World) : Option Iter := (Env.size fuel w.entries).map fun n => ⟨0, n⟩
def iterEnd (fuel : Nat) (w : World) : Option Iter := (Env.size fuel w.entries).map fun n => ⟨n, n⟩

/-- `operator!=`, env.hpp:67-69: the sizes are not compared. -/
def Iter.ne (a b : Iter) : Bool := a.index != b.index

/-- `operator++`, env.cpp:55-61. -/
def Iter.next (a : Iter) : Outcome Iter := if a.index < a.size then .ok { a with index := wrap16 (a.index + 1) } else .throws

/-- `operator->`, env.cpp:65-82: a null pointer gives an empty view (/repo/src/stringView.cpp:28-35), which `split` calls back with once. -/
def Iter.deref (w : World) (a : Iter) : Outcome Env.Var :=
  if a.index < a.size then
    if a.index < w.entries.length then Env.deref w.entries a.size a.index
    else if a.index < w.entries.length + w.nulls then .ok ⟨[], []⟩
    else .ub
  else .throws

/-- The loops of `forEach`, env.hpp:167-194, from an iterator to the end. The callback is given the index, the variable and the environment
and changes it. Result: the environment afterwards and the variables visited. The number of rounds is at most 65536 (the fuel). -/
def loop (f : Nat → Env.Var → World → Outcome World) (ends : Iter) : Nat → Iter → World → Outcome (World × List Env.Var)
  | 0, _, _ => .ub
  | fuel + 1, i, w =>
    if i.ne ends then do
      let v ← i.deref w
      let w' ← f i.index v w
      let j ← i.next
      let r ← loop f ends fuel j w'
      pure (r.1, v :: r.2)
    else .ok (w, [])

/-- `forEach`; `none`: `size` not finished. -/
def forEach (fuel : Nat) (f : Nat → Env.Var → World → Outcome World) (w : World) : Option (Outcome (World × List Env.Var)) :=
  match iterBegin fuel w, iterEnd fuel w with
  | some b, some e => some (loop f e (2 ^ 16) b w)
  | _, _ => none

end Solace.EnvIter
