import Verif.Model.Basic
/-
Environment strings `name=value`.
-/
namespace Solace.Env.Spec

/-- What is before the first '='. -/
def nameOf (e : List Byte) : List Byte := e.takeWhile (· != 61#8)

/-- What is after the first '='. -/
def valueOf (e : List Byte) : List Byte := (e.dropWhile (· != 61#8)).drop 1

/-- What `getenv` gives: the value in the first entry with that name. -/
def lookup (env : List (List Byte)) (name : List Byte) : Option (List Byte) :=
  (env.find? fun e => nameOf e == name).map valueOf

end Solace.Env.Spec
