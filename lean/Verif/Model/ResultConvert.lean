import Verif.Model.Basic
/-
Which constructor of `Result<V, E>` and `Result<void, E>` (/repo/include/solace/result.hpp) a C++ compiler takes for an argument, which
of the two states the new object is in, and with what content.

Simplifications: value and error types are numbered, not references and not `Result`s; what is convertible to what is described by `Lib`,
and no such type is convertible from the wrappers `Ok<T>`, `Err<T>`, from `None` or from a `Result` (class templates with unconstrained
constructors could be). All of them can be moved. Lifetimes are in Model/Result and Model/PayloadThrow.
-/
namespace Solace.ResConv

/-- The types of arguments. -/
inductive Ty where
  /-- a value or error type -/
  | base (k : Nat)
  /-- `types::Ok<T>`, result.hpp:62 -/
  | ok (k : Nat)
  /-- `types::Err<T>`, result.hpp:65 -/
  | err (k : Nat)
  /-- `types::Ok<void>`, result.hpp:55-58 -/
  | okVoid
  /-- `None`, returned by `Ok()`, result.hpp:87-89 -/
  | nothing
  /-- `Result<V, E>` -/
  | res (v e : Nat)
  /-- `Result<void, E>` -/
  | resVoid (e : Nat)
deriving DecidableEq, Repr

/-- Value categories. -/
inductive Cat where
  | lvalue | xvalue | prvalue
deriving DecidableEq, Repr

/-- An expression: what overload resolution looks at. -/
structure Expr where
  ty : Ty
  const : Bool
  cat : Cat
deriving DecidableEq, Repr

/-- Whether a `T&&` binds to the expression of type `T`. -/
def Expr.mv (e : Expr) : Bool := !e.const && e.cat != .lvalue

/-- How a type is converted to a different one. -/
inductive Conv where
  | no
  /-- by an explicit constructor -/
  | explicit (f : Nat → Nat)
  /-- by a standard conversion of a rank (0 promotion, 1 conversion), C++ standard 12.2.4.2.2 -/
  | standard (rank : Nat) (f : Nat → Nat)
  /-- by a converting constructor or conversion function -/
  | user (f : Nat → Nat)

/-- The value and error types. -/
structure Lib where
  conv : Nat → Nat → Conv
  copyable : Nat → Bool

/-- What `T{expr}` does for base types: `none` = it does not compile. -/
def Lib.build (lib : Lib) (k j : Nat) (mv : Bool) (x : Nat) : Option Nat :=
  if j = k then (if mv || lib.copyable k then some x else none)
  else match lib.conv j k with
    | .no => none
    | .explicit f => some (f x)
    | .standard _ f => some (f x)
    | .user f => some (f x)

/-- `std::is_constructible_v<K, J>`; the second type is not a reference: an rvalue. -/
def Lib.constructible (lib : Lib) (k j : Nat) : Bool :=
  if j = k then true
  else match lib.conv j k with
    | .no => false
    | _ => true

/-- The value of an argument: a number, alone or in a wrapper, or the state of a result. -/
inductive Val where
  | num (n : Nat)
  | okay (n : Nat)
  | error (n : Nat)
  | unit
deriving DecidableEq, Repr

/-- The rank of an implicit conversion sequence. -/
inductive Rank where
  | exact
  | standard (n : Nat)
  | user
deriving DecidableEq, Repr

/-- The constructors of `Result<V, E>` with one argument. -/
inductive Ctor where
  /-- `Result(Result const&) = delete`, 218 -/
  | copy
  /-- `Result(Result&&)`, 225-228 -/
  | move
  /-- `template<DV> Result(Result<DV, E>&&)`, 230-236 -/
  | other
  /-- `template<DV> Result(types::Ok<DV>&&)`, 247-252 -/
  | okW
  /-- `template<DE> Result(types::Err<DE>&&)`, 259-264 -/
  | errW
  /-- `template<VW, Tag> Result(types::ValueWrapper<VW, Tag>&&)`, 270-273 -/
  | anyW
  /-- `Result(RefOrRValue<V>)`, that is `V&&` (utils.hpp:110-113), 298-300 -/
  | value
  /-- `Result(RefOrRValue<E>)`, that is `E&&`, 302-304 -/
  | error
deriving DecidableEq, Repr

def Ctor.all : List Ctor := [.copy, .move, .other, .okW, .errW, .anyW, .value, .error]

/-- The implicit conversion sequence from a base type to a parameter `K&&`. A type reference related to `K` binds or is refused (C++
standard 9.4.4/5.4.4); others make a temporary. Conversions by the user are not considered when the constructor itself is the conversion
(12.2.4.2/4): in copy initialisation. -/
def Lib.seq (lib : Lib) (direct : Bool) (k j : Nat) (mv : Bool) : Option Rank :=
  if j = k then (if mv then some .exact else none)
  else match lib.conv j k with
    | .no => none
    | .explicit _ => none
    | .standard n _ => some (.standard n)
    | .user _ => if direct then some .user else none

/-- The sequence for the parameter of each constructor; `none` = not viable. The copy and move constructors after a conversion to
`Result` are left out: the constructor used in the conversion is itself a better candidate. -/
def Ctor.seq (lib : Lib) (v er : Nat) (direct : Bool) (e : Expr) : Ctor → Option Rank
  | .copy => if e.ty = .res v er then some .exact else none
  | .move => if e.ty = .res v er && e.mv then some .exact else none
  | .other =>
    match e.ty with
    | .res dv de => if de = er && e.mv && lib.constructible v dv then some .exact else none
    | _ => none
  | .okW =>
    match e.ty with
    | .ok dv => if e.mv && lib.constructible v dv then some .exact else none
    | _ => none
  | .errW =>
    match e.ty with
    | .err de => if e.mv && lib.constructible er de then some .exact else none
    | _ => none
  | .anyW =>
    match e.ty with
    | .ok _ => if e.mv then some .exact else none
    | .err _ => if e.mv then some .exact else none
    | _ => none
  | .value =>
    match e.ty with
    | .base t => lib.seq direct v t e.mv
    | _ => none
  | .error =>
    match e.ty with
    | .base t => lib.seq direct er t e.mv
    | _ => none

/-- Functions, then templates, then the least specialised template. -/
def Ctor.level : Ctor → Nat
  | .copy | .move | .value | .error => 0
  | .other | .okW | .errW => 1
  | .anyW => 2

/-- Whether one conversion sequence is better (12.2.4.3/2, 3): two conversions by different constructors are not comparable. -/
def Rank.better : Rank → Rank → Bool
  | .exact, .exact => false
  | .exact, _ => true
  | .standard m, .standard n => m < n
  | .standard _, .user => true
  | _, _ => false

/-- Whether the first candidate is better than the second (12.2.4.1/2): its sequence, an rvalue reference before `const&` for rvalues,
functions before templates, the more specialised template. -/
def Ctor.better (e : Expr) (a b : Ctor) (ra rb : Rank) : Bool :=
  if ra.better rb then true
  else if rb.better ra then false
  else if e.cat != .lvalue && a != .copy && b == .copy then true
  else if e.cat != .lvalue && a == .copy && b != .copy then false
  else a.level < b.level

/-- Overload resolution. -/
def choose (lib : Lib) (v er : Nat) (direct : Bool) (e : Expr) : Option Ctor :=
  Ctor.all.find? fun c =>
    match c.seq lib v er direct e with
    | none => false
    | some rc => Ctor.all.all fun d =>
      match d.seq lib v er direct e with
      | none => true
      | some rd => d == c || c.better e d rc rd

/-- The state of a result: `emplaceValue` or `emplaceError`, result.hpp:556-570. -/
abbrev State := Except Nat Nat

/-- What the constructors do with an argument of type `ty`; `none` = the body does not compile. The members are made with `V{...}` or
`E{...}` (`ctor`, utils.hpp:124-127). -/
def Ctor.run (lib : Lib) (v er : Nat) (ty : Ty) (x : Val) : Ctor → Option State
  | .copy => none
  | .move =>
    match x with
    | .okay n => some (.ok n)
    | .error n => some (.error n)
    | _ => none
  | .other =>
    match ty with
    | .res dv _ =>
      match x with
      | .okay n => (lib.build v dv true n).map .ok
      | .error n => some (.error n)
      | _ => none
    | _ => none
  | .okW | .errW | .anyW =>
    match ty with
    | .ok dv =>
      match x with
      | .num n => (lib.build v dv true n).map .ok
      | _ => none
    | .err de =>
      match x with
      | .num n => (lib.build er de true n).map .error
      | _ => none
    | _ => none
  | .value =>
    match ty with
    | .base t =>
      match x with
      | .num n => (lib.build v t true n).map .ok
      | _ => none
    | _ => none
  | .error =>
    match ty with
    | .base t =>
      match x with
      | .num n => (lib.build er t true n).map .error
      | _ => none
    | _ => none

/-- `Result<V, E> r(expr)` (`direct`) or `Result<V, E> r = expr`, `return expr`: the state of the new object; `none` = does not
compile. -/
def make (lib : Lib) (v er : Nat) (direct : Bool) (e : Expr) (x : Val) : Option State :=
  (choose lib v er direct e).bind (Ctor.run lib v er e.ty x)

/-- `Result(types::OkTag, CanBeV&&)` and `Result(types::ErrTag, CanBeE&&)`, 276-286, and with `in_place` and one argument, 289-296: the
argument is forwarded. -/
def makeTagged (lib : Lib) (v er : Nat) (okTag : Bool) (e : Expr) (x : Val) : Option State :=
  match e.ty, x with
  | .base t, .num n => if okTag then (lib.build v t e.mv n).map .ok else (lib.build er t e.mv n).map .error
  | _, _ => none

/-- `r = expr`: the only assignment that is not deleted takes a `Result&&` (238-240) and swaps. An argument of another type is first
converted, by copy initialisation. The results: `r` and, if the argument is a `Result<V, E>` itself, what is left in it. -/
def assign (lib : Lib) (v er : Nat) (old : State) (e : Expr) (x : Val) : Option (State × Option State) :=
  if e.ty = .res v er then
    if e.mv then
      match x with
      | .okay n => some (.ok n, some old)
      | .error n => some (.error n, some old)
      | _ => none
    else none
  else (make lib v er false e x).map fun s => (s, none)

/-- The constructors of `Result<void, E>` with one argument. -/
inductive VoidCtor where
  /-- deleted, 619 -/
  | copy
  /-- `Result(Result&&)`, 672-674 -/
  | move
  /-- `Result(None)`, 626-628 -/
  | nothing
  /-- `Result(types::Ok<void> const&)`, 634-636 -/
  | okC
  /-- `Result(types::Ok<void>&&)`, 642-644 -/
  | okR
  /-- `Result(types::Err<E> const&)`, 650-652 -/
  | errC
  /-- `Result(types::Err<E>&&)`, 658-660 -/
  | errR
  /-- `Result(E&&)`, 667-669 -/
  | error
deriving DecidableEq, Repr

def VoidCtor.all : List VoidCtor := [.copy, .move, .nothing, .okC, .okR, .errC, .errR, .error]

def VoidCtor.seq (lib : Lib) (er : Nat) (direct : Bool) (e : Expr) : VoidCtor → Option Rank
  | .copy => if e.ty = .resVoid er then some .exact else none
  | .move => if e.ty = .resVoid er && e.mv then some .exact else none
  | .nothing => if e.ty = .nothing then some .exact else none
  | .okC => if e.ty = .okVoid then some .exact else none
  | .okR => if e.ty = .okVoid && e.mv then some .exact else none
  | .errC => if e.ty = .err er then some .exact else none
  | .errR => if e.ty = .err er && e.mv then some .exact else none
  | .error =>
    match e.ty with
    | .base t => lib.seq direct er t e.mv
    | _ => none

/-- Whether the parameter is an rvalue reference. -/
def VoidCtor.rref : VoidCtor → Bool
  | .move | .okR | .errR | .error => true
  | _ => false

/-- Overload resolution: no two constructors other than the pairs of reference kinds take the same argument. -/
def chooseVoid (lib : Lib) (er : Nat) (direct : Bool) (e : Expr) : Option VoidCtor :=
  VoidCtor.all.find? fun c =>
    match c.seq lib er direct e with
    | none => false
    | some _ => VoidCtor.all.all fun d =>
      match d.seq lib er direct e with
      | none => true
      | some _ => d == c || (c.rref && !d.rref && e.cat != .lvalue)

/-- What the constructors do; the state of a `Result<void, E>` is an `Optional<E>`. -/
def VoidCtor.run (lib : Lib) (er : Nat) (ty : Ty) (x : Val) : VoidCtor → Option (Option Nat)
  | .copy => none
  | .move =>
    match x with
    | .unit => some none
    | .error n => some (some n)
    | _ => none
  | .nothing | .okC | .okR => some none
  | .errC =>
    match x with
    | .num n => (lib.build er er false n).map some
    | _ => none
  | .errR =>
    match x with
    | .num n => (lib.build er er true n).map some
    | _ => none
  | .error =>
    match ty with
    | .base t =>
      match x with
      | .num n => (lib.build er t true n).map some
      | _ => none
    | _ => none

/-- A new `Result<void, E>`. -/
def makeVoid (lib : Lib) (er : Nat) (direct : Bool) (e : Expr) (x : Val) : Option (Option Nat) :=
  (chooseVoid lib er direct e).bind (VoidCtor.run lib er e.ty x)

end Solace.ResConv
