/-
`isCallable` (/repo/include/solace/traits/callable.hpp:32-44) and the choice between the overloads of `forEach` it decides:
/repo/include/solace/arrayView.hpp:304-356, array.hpp:240-284, string.hpp:338-348, path.hpp:333-351, env.hpp:166-194.

A callback is an object with one call operator: its parameters (of a named type or `auto`; by value, `const&`, `&` or `&&`), or
a pack of parameters; its result; and the qualifier of the operator. Left out: parameters of other types that an argument
converts to, several call operators in one class, default arguments, `const` objects with operators that are not `const`,
element types that are `volatile`, abstract or cannot be destroyed. A callback with `auto` is taken to have a body that compiles
for whatever is given to it. `isCallable_v` (callable.hpp:47-48) names a type `value` that does not exist and is used nowhere.
-/
namespace Solace.Callable

/-- What is known of an object type: a scalar, or a class that can or cannot be copied or moved. -/
inductive Kind where
  | scalar
  | cls (copy move : Bool)
deriving DecidableEq, Repr

inductive Cat where
  | prvalue | xvalue | lvalue
deriving DecidableEq, Repr

/-- An expression: its type (numbered), whether that is `const`, and its value category. -/
structure Arg where
  ty : Nat
  const : Bool
  cat : Cat
deriving DecidableEq, Repr

/-- How a template argument names a type: `T`, `T&`, `T&&`. -/
inductive Mode where
  | plain | lref | rref
deriving DecidableEq, Repr

/-- `instance<X>()`, utils.hpp:44-49, with `X` one of `T`, `T&`, `T&&` for a `T` that is `const` or not. A call that returns a
scalar by value has no `const` type, [expr.type]/2. -/
def inst (kinds : Nat → Kind) (ty : Nat) (const : Bool) : Mode → Arg
  | .plain => ⟨ty, const && kinds ty != .scalar, .prvalue⟩
  | .lref => ⟨ty, const, .lvalue⟩
  | .rref => ⟨ty, const, .xvalue⟩

inductive Form where
  | value | cref | ref | rref
deriving DecidableEq, Repr

/-- A parameter; no type is `auto`. -/
structure Param where
  ty : Option Nat
  form : Form
deriving DecidableEq, Repr

inductive Params where
  | fixed (ps : List Param)
  | pack (form : Form)
deriving DecidableEq, Repr

inductive Ret where
  | void | value | lref | rref
deriving DecidableEq, Repr

/-- `operator()(…)`, `operator()(…) &`, `operator()(…) &&`. -/
inductive Qual where
  | none | lvalue | rvalue
deriving DecidableEq, Repr

structure Fn where
  params : Params
  ret : Ret
  qual : Qual
deriving DecidableEq, Repr

/-- An object of the same type can be made from the expression: the prvalue is that object, [dcl.init]/17.6.1. -/
def initialises (k : Kind) (a : Arg) : Bool :=
  match a.cat, k with
  | .prvalue, _ => true
  | _, .scalar => true
  | .lvalue, .cls copy _ => copy
  | .xvalue, .cls copy move => if a.const then copy else move

/-- The parameter can be given the argument, [dcl.init.ref]/5, [temp.deduct.call]/3. `auto&` is a reference to a constant when the
argument is constant, `auto&&` is what the argument is. -/
def binds (kinds : Nat → Kind) (p : Param) (a : Arg) : Bool :=
  match p.ty, p.form with
  | some t, .value => t == a.ty && initialises (kinds a.ty) a
  | some t, .cref => t == a.ty
  | some t, .ref => t == a.ty && (a.cat == .lvalue && !a.const)
  | some t, .rref => t == a.ty && (a.cat != .lvalue && !a.const)
  | none, .value => initialises (kinds a.ty) a
  | none, .cref => true
  | none, .ref => a.cat == .lvalue || a.const
  | none, .rref => true

def bindsAll (kinds : Nat → Kind) : List Param → List Arg → Bool
  | [], [] => true
  | p :: ps, a :: as => binds kinds p a && bindsAll kinds ps as
  | _, _ => false

/-- The expression `f(args...)` compiles, with `f` an lvalue or not. -/
def calls (kinds : Nat → Kind) (f : Fn) (lvalue : Bool) (args : List Arg) : Bool :=
  (match f.qual with
    | .none => true
    | .lvalue => lvalue
    | .rvalue => !lvalue) &&
  match f.params with
  | .fixed ps => bindsAll kinds ps args
  | .pack form => args.all fun a => binds kinds ⟨none, form⟩ a

/-- `isCallable<F, Args...>::value`, callable.hpp:35-43, for an `F` that is a reference (`lvalue`) or not: the first `test` is there
when the type of the call has a pointer type to it; there are none to references, [dcl.ref]/5. -/
def isCallable (kinds : Nat → Kind) (f : Fn) (lvalue : Bool) (args : List Arg) : Bool :=
  calls kinds f lvalue args && (match f.ret with
    | .void => true
    | .value => true
    | .lref => false
    | .rref => false)

/-- What a call of `forEach` is for the compiler: a loop that gives the callback the elements themselves (that it can change or
not) or copies of them, or an error: no function enabled, several as good as each other, an error inside the function called. -/
inductive Compiled where
  | elements (changeable : Bool)
  | copies
  | noMatch
  | ambiguous
  | bodyError
deriving DecidableEq, Repr

/-- One overload: its qualifiers, whether `enable_if_t` leaves it, what its body is. -/
structure Overload where
  constMember : Bool
  rvalueMember : Bool
  enabled : Bool
  body : Compiled
deriving Repr

/-- Only one candidate is left, or the call is ambiguous: the parameters `F&&` are the same. -/
def single : List Overload → Compiled
  | [] => .noMatch
  | [o] => o.body
  | _ => .ambiguous

/-- Overload resolution for an object that is `const` or not, an rvalue or not. A member that is not `const` binds the object
better, [over.ics.rank]/3.2.6. -/
def resolve (const rvalue : Bool) (os : List Overload) : Compiled :=
  let viable := os.filter fun o => o.enabled && (o.constMember || !const) && (!o.rvalueMember || rvalue)
  let better := viable.filter fun o => !o.constMember
  if better.isEmpty then single viable else single better

/-- The body of a loop: it compiles or not. -/
def loop (ok : Bool) (c : Compiled) : Compiled := if ok then c else .bodyError

/-- The index and the elements of an array have the types 0 and 1. -/
def index : Nat := 0
def elem : Nat := 1

/-- `ArrayView<T>::forEach`, arrayView.hpp:304-356, for a `T` that is `const` (`c`) or not and a view that is `const` or not. In the
bodies `f`, `x`, `i` and `item` are names, so lvalues; `auto item` is a copy. -/
def viewForEach (kinds : Nat → Kind) (c const : Bool) (f : Fn) (lvalue : Bool) : Compiled :=
  resolve const false
    [ { constMember := false, rvalueMember := false
        enabled := isCallable kinds f lvalue [inst kinds elem c .plain] || isCallable kinds f lvalue [inst kinds elem c .lref]
        body := loop (calls kinds f true [⟨elem, c, .lvalue⟩]) (.elements (!c)) },
      { constMember := true, rvalueMember := false
        enabled := isCallable kinds f lvalue [inst kinds elem true .lref]
        body := loop (calls kinds f true [⟨elem, true, .lvalue⟩]) (.elements false) },
      { constMember := true, rvalueMember := false
        enabled := isCallable kinds f lvalue [inst kinds index false .plain, inst kinds elem true .lref]
        body := loop (initialises (kinds elem) ⟨elem, c, .lvalue⟩ &&
          calls kinds f true [⟨index, false, .lvalue⟩, ⟨elem, false, .lvalue⟩]) .copies },
      { constMember := false, rvalueMember := false
        enabled := isCallable kinds f lvalue [inst kinds index false .plain, inst kinds elem c .plain] ||
          isCallable kinds f lvalue [inst kinds index false .plain, inst kinds elem c .lref]
        body := loop (initialises (kinds elem) ⟨elem, c, .lvalue⟩ &&
          calls kinds f true [⟨index, false, .lvalue⟩, ⟨elem, false, .lvalue⟩]) .copies } ]

/-- An error in a function called from a template's body is an error of that body. -/
def inside : Compiled → Compiled
  | .elements b => .elements b
  | .copies => .copies
  | .noMatch => .bodyError
  | .ambiguous => .bodyError
  | .bodyError => .bodyError

/-- `Array<T>::forEach`, array.hpp:240-284, for an array that is `const` or not: `view().forEach(fwd<F>(f))` gives the view's
`forEach` the callback with the same category, and `view()` (array.hpp:211-224) is an rvalue of `ArrayView<T>` or of
`ArrayView<T const>`. -/
def arrayForEach (kinds : Nat → Kind) (const : Bool) (f : Fn) (lvalue : Bool) : Compiled :=
  resolve const false
    [ { constMember := false, rvalueMember := false
        enabled := isCallable kinds f lvalue [inst kinds elem false .plain] || isCallable kinds f lvalue [inst kinds elem true .lref] ||
          isCallable kinds f lvalue [inst kinds elem false .lref] || isCallable kinds f lvalue [inst kinds elem false .rref]
        body := inside (viewForEach kinds false false f lvalue) },
      { constMember := true, rvalueMember := false
        enabled := isCallable kinds f lvalue [inst kinds elem false .plain] || isCallable kinds f lvalue [inst kinds elem true .lref]
        body := inside (viewForEach kinds true false f lvalue) },
      { constMember := true, rvalueMember := false
        enabled := isCallable kinds f lvalue [inst kinds index false .plain, inst kinds elem true .lref]
        body := inside (viewForEach kinds true false f lvalue) },
      { constMember := false, rvalueMember := false
        enabled := isCallable kinds f lvalue [inst kinds index false .plain, inst kinds elem false .plain] ||
          isCallable kinds f lvalue [inst kinds index false .plain, inst kinds elem false .lref]
        body := inside (viewForEach kinds false false f lvalue) } ]

/-- `String::forEach`, string.hpp:338-348; the elements are `char`, `for (const auto& x : v)`. -/
def stringForEach (kinds : Nat → Kind) (f : Fn) (lvalue : Bool) : Compiled :=
  resolve true false
    [ { constMember := true, rvalueMember := false
        enabled := isCallable kinds f lvalue [inst kinds elem true .lref] || isCallable kinds f lvalue [inst kinds elem false .plain]
        body := loop (calls kinds f true [⟨elem, true, .lvalue⟩]) (.elements false) } ]

/-- The types of `String`, `StringView` and `Env::Var`. There is no conversion between them. -/
def string : Nat := 2
def stringView : Nat := 3
def var : Nat := 4

/-- `Path::forEach`, path.hpp:333-351, for a path that is `const` or not, an rvalue or not: views of the components, or the
components themselves moved to the callback. (With these two the standard wants both or none to have a `&` or `&&`, [over.load]/2.3;
the compilers tell them apart by their results.) -/
def pathForEach (kinds : Nat → Kind) (const rvalue : Bool) (f : Fn) (lvalue : Bool) : Compiled :=
  resolve const rvalue
    [ { constMember := true, rvalueMember := false
        enabled := isCallable kinds f lvalue [inst kinds stringView false .plain]
        body := loop (calls kinds f true [⟨stringView, false, .prvalue⟩]) .copies },
      { constMember := false, rvalueMember := true
        enabled := isCallable kinds f lvalue [inst kinds string false .rref]
        body := loop (calls kinds f true [⟨string, false, .xvalue⟩]) (.elements true) } ]

/-- `Env::forEach`, env.hpp:166-194, always `const`: `auto x` is a variable of the loop, `getIndex()` and `*i` are values. -/
def envForEach (kinds : Nat → Kind) (f : Fn) (lvalue : Bool) : Compiled :=
  resolve true false
    [ { constMember := true, rvalueMember := false
        enabled := isCallable kinds f lvalue [inst kinds var true .plain]
        body := loop (calls kinds f true [⟨var, false, .lvalue⟩]) .copies },
      { constMember := true, rvalueMember := false
        enabled := isCallable kinds f lvalue [inst kinds stringView true .plain, inst kinds stringView true .plain]
        body := loop (calls kinds f true [⟨stringView, false, .lvalue⟩, ⟨stringView, false, .lvalue⟩]) .copies },
      { constMember := true, rvalueMember := false
        enabled := isCallable kinds f lvalue [inst kinds index false .plain, inst kinds var true .plain]
        body := loop (calls kinds f true [⟨index, false, .prvalue⟩, ⟨var, false, .prvalue⟩]) .copies } ]

end Solace.Callable
