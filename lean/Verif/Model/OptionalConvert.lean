import Verif.Model.Basic
/-
Which constructor and which assignment operator of `Optional<T>` (/repo/include/solace/optional.hpp) a C++ compiler takes for an
argument, and what it does to the contents. The types are payload types (numbers; 0 is `bool`) and optionals of them, nested to any
depth. Expressions are a type, `const` and a value category.

Simplifications: the members and `noexcept` of the payload types are described by `Lib`; all of them can be moved, conversions between
different payload types read their source through a reference to const, and no payload type but `bool` can be made from an `Optional`
(class templates with unconstrained constructors could). Lifetimes and exceptions are in
Model/OptionalLifetime and Model/PayloadThrow.
-/
namespace Solace.OptConv

/-- A type: a payload type or `Optional<T>`. -/
inductive Ty where
  | base (k : Nat)
  | opt (t : Ty)
deriving DecidableEq, Repr

/-- Value categories. -/
inductive Cat where
  | lvalue | xvalue | prvalue
deriving DecidableEq, Repr

/-- An expression: what overload resolution looks at. -/
structure Expr where
  ty : Ty
  const : Bool
  cat : Cat
deriving DecidableEq, Repr

/-- A value: of a payload type (a number), or of an optional. -/
inductive Val where
  | leaf (n : Nat)
  | none
  | some (v : Val)
deriving DecidableEq, Repr

/-- How a value of payload type `j` is converted to another payload type `k`. -/
inductive Conv where
  | no
  /-- by a standard conversion (arithmetic types, pointers) -/
  | standard (f : Nat → Nat)
  /-- by a constructor or conversion function -/
  | user (f : Nat → Nat)

/-- The payload types. -/
structure Lib where
  /-- has a copy constructor -/
  copyable : Nat → Bool
  /-- what moving leaves -/
  moved : Nat → Nat
  /-- conversion from `j` to `k`, for `j ≠ k` -/
  conv : Nat → Nat → Conv
  /-- `k` is a scalar type (bool, integers, pointers) -/
  scalar : Nat → Bool
  /-- `k` is a class with a default constructor -/
  defaulted : Nat → Bool

/-- The constructors of `Optional<T>` with one argument, optional.hpp:110-137, and the copy constructor, which is declared by the
compiler and defined as deleted because the class declares a move assignment (optional.hpp:179; C++ standard 11.4.5.3/6). A move
constructor is not declared. -/
inductive Ctor where
  /-- `Optional(Optional const&) = delete`, implicit -/
  | deletedCopy
  /-- `template<D> Optional(Optional<D>&)`, 110-116 -/
  | fromLvalue
  /-- `template<D> Optional(Optional<D> const&)`, 118-124 -/
  | fromConst
  /-- `template<D> Optional(Optional<D>&&)`, 126-132 -/
  | fromRvalue
  /-- `template<CanBeT> Optional(CanBeT&&)`, 134-137 -/
  | anything
deriving DecidableEq, Repr

def Ctor.all : List Ctor := [.deletedCopy, .fromLvalue, .fromConst, .fromRvalue, .anything]

/-- Whether the expression is an lvalue. -/
def Expr.isL (e : Expr) : Bool := e.cat == .lvalue

/-- Whether the type is an optional. -/
def Ty.isOpt : Ty → Bool
  | .opt _ => true
  | .base _ => false

/-- Whether arguments can be deduced and the parameter binds to the expression (C++ standard 13.10.3, 9.4.4). For the copy constructor
only direct binding counts: after a conversion it is worse than `anything`, which always binds directly. -/
def Ctor.viable (target : Ty) (e : Expr) : Ctor → Bool
  | .deletedCopy => e.ty = target
  | .fromLvalue => e.ty.isOpt && !e.const && e.isL
  | .fromConst => e.ty.isOpt
  | .fromRvalue => e.ty.isOpt && !e.const && !e.isL
  | .anything => true

/-- Whether the parameter, after deduction, is an rvalue reference. -/
def Ctor.rref (e : Expr) : Ctor → Bool
  | .deletedCopy | .fromLvalue | .fromConst => false
  | .fromRvalue => true
  | .anything => !e.isL

/-- Whether the parameter, after deduction, is a reference to const. -/
def Ctor.cref (e : Expr) : Ctor → Bool
  | .deletedCopy | .fromConst => true
  | .fromLvalue | .fromRvalue => false
  | .anything => e.const

/-- Whether the constructor is a template; `anything` is the least specialised one. -/
def Ctor.level : Ctor → Nat
  | .deletedCopy => 0
  | .fromLvalue | .fromConst | .fromRvalue => 1
  | .anything => 2

/-- Whether the first is better than the second (C++ standard 12.2.4): an rvalue bound to an rvalue reference (12.2.4.3/3.2.3), then
a reference to a less const type (3.2.6), then functions before templates and the more specialised template (12.2.4.1/2.5, 2.6). All
conversions are identities. -/
def Ctor.better (e : Expr) (a b : Ctor) : Bool :=
  if !e.isL && a.rref e != b.rref e then a.rref e
  else if a.rref e == b.rref e && a.cref e != b.cref e then !a.cref e
  else a.level < b.level

/-- Overload resolution: the viable constructor that is better than all other viable ones. -/
def choose (target : Ty) (e : Expr) : Option Ctor :=
  Ctor.all.find? fun c => c.viable target e && Ctor.all.all fun d => d == c || !d.viable target e || c.better e d

/-- What the compiler makes of the initialisation. -/
inductive Plan where
  /-- the object is the argument (guaranteed elision, C++ standard 9.4.1/16.6.1) -/
  | elide
  | copy
  | move
  | convert (f : Nat → Nat)
  /-- `explicit operator bool`, optional.hpp:192-194 -/
  | asBool
  /-- the payload is made from the argument -/
  | wrap (p : Plan)
  /-- the payload, if any, is made from the payload of the argument -/
  | each (p : Plan)

/-- `T{expr}` (direct list initialisation, as in `ctor`, utils.hpp:124-127) for a type `T`; `none` = it does not compile. The bodies of
the constructors are optional.hpp:112-115, 120-123, 128-131, 136 with `construct`, 298-305. -/
def plan (lib : Lib) : Ty → Expr → Option Plan
  | .base k, e =>
    match e.ty with
    | .base j =>
      if j = k then
        if e.cat = .prvalue then some .elide
        else if e.cat = .xvalue && !e.const then some .move
        else if lib.copyable k then some .copy else none
      else
        match lib.conv j k with
        | .no => none
        | .standard f => some (.convert f)
        | .user f => some (.convert f)
    | .opt _ => if k = 0 then some .asBool else none
  | .opt t, e =>
    if e.cat = .prvalue ∧ e.ty = .opt t then some .elide
    else
      match choose (.opt t) e, e.ty with
      | some .fromLvalue, .opt d => (plan lib t ⟨d, false, .lvalue⟩).map .each
      | some .fromConst, .opt d => (plan lib t ⟨d, true, .lvalue⟩).map .each
      | some .fromRvalue, .opt d => (plan lib t ⟨d, false, .xvalue⟩).map .each
      | some .anything, _ => (plan lib t { e with cat := if e.isL then .lvalue else .xvalue }).map .wrap
      | _, _ => none

/-- The new value and what is left of the argument. -/
def Plan.run (lib : Lib) : Plan → Val → Option (Val × Val)
  | .elide, v => some (v, v)
  | .copy, .leaf n => some (.leaf n, .leaf n)
  | .move, .leaf n => some (.leaf n, .leaf (lib.moved n))
  | .convert f, .leaf n => some (.leaf (f n), .leaf n)
  | .asBool, .none => some (.leaf 0, .none)
  | .asBool, .some v => some (.leaf 1, .some v)
  | .wrap p, v => (p.run lib v).map fun r => (.some r.1, r.2)
  | .each _, .none => some (.none, .none)
  | .each p, .some v => (p.run lib v).map fun r => (.some r.1, .some r.2)
  | _, _ => none

/-- `T x{expr}`: `none` = does not compile. -/
def make (lib : Lib) (t : Ty) (e : Expr) (v : Val) : Option (Val × Val) := (plan lib t e).bind fun p => p.run lib v

/-- `Optional<T>{in_place, expr}`, optional.hpp:142-146: the payload is `_payload{fwd<ARGS>(args)...}`. `fwd` makes the argument an
lvalue or an xvalue. -/
def makeInPlace (lib : Lib) (t : Ty) (e : Expr) (v : Val) : Option (Val × Val) :=
  (make lib t { e with cat := if e.isL then .lvalue else .xvalue } v).map fun r => (.some r.1, r.2)

/-! ### Assignment -/

/-- The assignment operators, optional.hpp:172-190, and the copy assignment declared by the compiler as deleted. -/
inductive Assign where
  /-- `operator= (None)`, 172-176 -/
  | reset
  /-- `operator= (Optional<T>&&)`, 179-183 -/
  | move
  /-- `operator= (T&&)`, 185-190 -/
  | value
  | deletedCopy
deriving DecidableEq, Repr

def Assign.all : List Assign := [.reset, .move, .value, .deletedCopy]

/-- The right side: `none`, `{}` or an expression. -/
inductive Rhs where
  | none
  | braces
  | expr (e : Expr)
deriving DecidableEq, Repr

/-- How the right side gets to the parameter: identity, a standard conversion or a user-defined one (C++ standard 12.2.4.2). -/
inductive Seq where
  | exact
  | standard
  /-- `fn` is the conversion function: 0 = a constructor of the optional, 1 = one of its payload; `rref` = the result is bound to an
  rvalue reference -/
  | user (fn : Nat) (rref : Bool)
deriving DecidableEq, Repr

/-- The conversion to the parameter of each operator of `Optional<t>`; `none` = not viable. The constructors of `Optional` are implicit
and take everything, so there always is a conversion to it; but a reference is not bound through a conversion to an lvalue, or a const
object, of the type itself (C++ standard 9.4.4/5.4). `operator bool` is explicit and not considered. `None` has no constructor without
arguments (optional.hpp:44-50), so `{}` is no `None`. -/
def Assign.seq (lib : Lib) (t : Ty) : Rhs → Assign → Option Seq
  | .none, .reset => some .exact
  | .none, .move => some (.user 0 true)
  | .none, .deletedCopy => some (.user 0 false)
  | .none, .value => if t.isOpt then some (.user 1 true) else none
  | .braces, .reset => none
  | .braces, .move => some (.user 0 true)
  | .braces, .deletedCopy => some (.user 0 false)
  | .braces, .value =>
    match t with
    | .opt _ => some (.user 1 true)
    | .base k => if lib.scalar k then some .exact else if lib.defaulted k then some (.user 1 true) else none
  | .expr _, .reset => none
  | .expr e, .move => if e.ty = .opt t then (if !e.const && !e.isL then some .exact else none) else some (.user 0 true)
  | .expr e, .deletedCopy => if e.ty = .opt t then some .exact else some (.user 0 false)
  | .expr e, .value =>
    if e.ty = t then (if !e.const && !e.isL then some .exact else none)
    else
      match t, e.ty with
      | .opt _, _ => some (.user 1 true)
      | .base k, .base j =>
        match lib.conv j k with
        | .no => none
        | .standard _ => some .standard
        | .user _ => some (.user 1 true)
      | .base _, .opt _ => none

/-- Which conversion is better (C++ standard 12.2.4.3): the kinds in order; two user-defined ones only if they use the same function,
by the reference bound. For two identities, the rvalue reference is the better one for an rvalue; this is `move` against
`deletedCopy`. -/
def Assign.better (a b : Assign × Seq) : Bool :=
  match a.2, b.2 with
  | .exact, .exact => a.1 = .move && b.1 = .deletedCopy
  | .exact, _ => true
  | .standard, .exact => false
  | .standard, .standard => false
  | .standard, .user _ _ => true
  | .user f r, .user g s => f = g && r && !s
  | .user _ _, _ => false

/-- Overload resolution; `none` = no operator or an ambiguity. -/
def chooseAssign (lib : Lib) (t : Ty) (r : Rhs) : Option Assign :=
  let viable := Assign.all.filterMap fun a => (a.seq lib t r).map fun s => (a, s)
  (viable.find? fun a => viable.all fun b => b.1 == a.1 || Assign.better a b).map (·.1)

/-- `x = rhs` for an `Optional<t>` with content `old`: the new content of `x` and what is left of the right side; `none` = it does not
compile. `old` only matters for what a swap leaves in the right side. The object assigned is not part of the right side (C57 treats
`opt = mv(*opt)`). -/
def assign (lib : Lib) (t : Ty) (old : Val) (r : Rhs) (v : Val) : Option (Val × Val) :=
  match chooseAssign lib t r, r with
  | some .reset, _ => some (.none, v)
  | some .move, .expr e =>
    if e.ty = .opt t then some (v, old)          -- swap with the argument
    else make lib (.opt t) e v                   -- swap with a temporary made from the argument
  | some .move, _ => some (.none, v)             -- `{}`: swap with an empty temporary
  | some .value, .expr e =>
    if e.ty = t then (make lib t ⟨t, false, .xvalue⟩ v).map fun r => (.some r.1, r.2)
    else                                         -- a temporary `t` is made from the argument and moved
      (make lib t e v).map fun r => (.some r.1, r.2)
  | some .value, .braces => some (.some (.leaf 0), v)
  | _, _ => none

end Solace.OptConv
