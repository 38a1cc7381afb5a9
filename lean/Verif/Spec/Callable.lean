import Verif.Model.Callable
/-
What a callback can be given, from the C++ standard, for C139: `std::is_invocable` and the callbacks a loop over elements can use.
-/
namespace Solace.Callable.Spec

/-- Objects of the kind can be copied. -/
def Copyable : Kind → Prop
  | .scalar => True
  | .cls copy _ => copy = true

/-- Objects of the kind can be made from expiring ones. -/
def Movable : Kind → Prop
  | .scalar => True
  | .cls _ move => move = true

/-- The parameter is for objects of the type. -/
def Typed (p : Param) (ty : Nat) : Prop := p.ty = none ∨ p.ty = some ty

/-- The parameter takes a named object of the type, that is `const` or not. -/
def TakesNamed (k : Kind) (ty : Nat) (const : Bool) (p : Param) : Prop :=
  Typed p ty ∧
    match p.form with
    | .value => Copyable k
    | .cref => True
    | .ref => const = false ∨ p.ty = none
    | .rref => p.ty = none

/-- The parameter takes an expiring object of the type, that is `const` or not. -/
def TakesExpiring (k : Kind) (ty : Nat) (const : Bool) (p : Param) : Prop :=
  Typed p ty ∧
    match p.form with
    | .value => if const then Copyable k else Movable k
    | .cref => True
    | .ref => const = true ∧ p.ty = none
    | .rref => const = false ∨ p.ty = none

/-- The parameter takes a number counted by a loop, as its own variable or a reference that does not change the loop's. -/
def TakesIndex (p : Param) : Prop :=
  Typed p index ∧
    match p.form with
    | .value => True
    | .cref => True
    | .ref => False
    | .rref => p.ty = none

/-- The callback's operator can be used on the callback as it was given and by its name. -/
def Usable (q : Qual) (lvalue : Bool) : Prop := q = .none ∨ (q = .lvalue ∧ lvalue = true)

/-- The result is a reference. -/
def RefResult (r : Ret) : Prop := r = .lref ∨ r = .rref

/-- The type is one that the call operator's object argument allows. -/
def ObjectOk (q : Qual) (lvalue : Bool) : Prop := q = .none ∨ (q = .lvalue ∧ lvalue = true) ∨ (q = .rvalue ∧ lvalue = false)

/-- `std::is_invocable<F, X>`, [meta.rel] and [declval], for `X` one of `T`, `T&`, `T&&` with a `T` that is `const` or not, and a
callback with one parameter. `std::declval<T>()` is an expiring object. -/
def Invocable1 (k : Kind) (ty : Nat) (const : Bool) (m : Mode) (p : Param) (q : Qual) (lvalue : Bool) : Prop :=
  ObjectOk q lvalue ∧
    match m with
    | .plain => TakesExpiring k ty const p
    | .lref => TakesNamed k ty const p
    | .rref => TakesExpiring k ty const p

/-- A callback with one parameter is rejected without an error elsewhere. -/
def Rejected1 (const : Bool) (p : Param) (r : Ret) (q : Qual) (lvalue : Bool) : Prop :=
  RefResult r ∨ ¬ ObjectOk q lvalue ∨ ¬ Typed p elem ∨ (const = true ∧ p.form = .ref ∧ p.ty ≠ none)

/-- A callback with two parameters is rejected without an error elsewhere. -/
def Rejected2 (k : Kind) (const : Bool) (i p : Param) (r : Ret) (q : Qual) (lvalue : Bool) : Prop :=
  RefResult r ∨ ¬ ObjectOk q lvalue ∨ ¬ Typed i index ∨ i.form = .ref ∨ ¬ Typed p elem ∨ (const = true ∧ ¬ TakesNamed k elem true p)

/-- The callback takes a name and a value that it cannot change. -/
def TakesPair (a b : Param) : Prop :=
  TakesNamed (.cls true true) stringView true a ∧ TakesNamed (.cls true true) stringView true b

/-- The callback takes a number, made for it, and a variable that it cannot change. -/
def TakesNumbered (a b : Param) : Prop :=
  TakesExpiring .scalar index false a ∧ TakesNamed (.cls true true) var true b

end Solace.Callable.Spec
