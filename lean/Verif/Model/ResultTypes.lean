/-
`then`, `orElse` and `mapError` of `Result<V, E>` and `Result<void, E>` between results of different types:
/repo/include/solace/result.hpp:110-182 (`isResult`, `error_result_wrapper`), 195-310 (constructors), 406-541, 599-682, 745-910.

Compilation is part of the model: a call is resolved among the overloads of the class, the body of the chosen one is checked for the types at
hand, and the values run through the conversions the body makes. `none` is a call the compiler refuses.

Types: integers of any width and class types. A class converts to itself only; integers convert to each other, in braces only where
[dcl.init.list]/7 (C++17) does not call it narrowing. `ctor` (utils.hpp:124-127) and all initialisers concerned use braces. Values are
numbers; the content of an object of a class is a number too. Functions return by value, types without qualifiers, and no nested results.
What the handler does to its argument, and what is left in the object, is `Model/Result.lean` and `Model/ResultVoid.lean` (C56, C113).
-/
namespace Solace.ResTy

/-- The types of values and errors. -/
inductive Base where
  | int (bits : Nat) (signed : Bool)
  | cls (id : Nat)
deriving DecidableEq, Repr

/-- The type a handler returns. `none` in place of a value type is `void`. -/
inductive Ret where
  | void
  | plain (t : Base)
  | res (v : Option Base) (e : Base)
  | ok (v : Option Base)
  | err (e : Base)
deriving DecidableEq, Repr

/-- The type `Result<V, E>`; `val = none` is the specialisation for `void`. -/
structure RTy where
  val : Option Base
  err : Base
deriving DecidableEq, Repr

/-- A result holds a value (`none` for `void`) or an error. -/
inductive St where
  | good (v : Option Int)
  | bad (e : Int)
deriving DecidableEq, Repr

structure Obj where
  ty : RTy
  st : St
deriving DecidableEq, Repr

/-- `static_assert(!is_same<V, E>)`, result.hpp:205-206: whether the class can be instantiated. -/
def instantiable (t : RTy) : Bool := t.val ≠ some t.err

/-- `isResult<OV, OE, R>`, result.hpp:110-173: its `type`, if `value` is true. -/
def isResult (v : Option Base) (e : Base) : Ret → Option RTy
  | .res v' e' => some ⟨v', e'⟩
  | .ok v' => some ⟨v', e⟩
  | .err e' => some ⟨v, e'⟩
  | _ => none

/-- Whether `T{x}` is well-formed for an `x` of type `S`, which is no constant: [dcl.init.list]/7. -/
def bracesOk : (S T : Base) → Bool
  | .int b s, .int b' s' =>
    match s, s' with
    | false, true => b < b'
    | true, false => false
    | _, _ => b ≤ b'
  | .cls i, .cls j => i == j
  | _, _ => false

/-- The value after the conversion: integers are reduced modulo `2^bits`. -/
def convert : (T : Base) → Int → Int
  | .int b true, n => Int.bmod n (2 ^ b)
  | .int b false, n => n % 2 ^ b
  | .cls _, n => n

/-- `T{x}` for optional types: a void value is none. -/
def braces (S T : Base) (n : Int) : Option Int :=
  if bracesOk S T then some (convert T n) else none

/-! ### Overload resolution -/

/-- The ref-qualifier of a member function: `&&`, `&`, `const&`, or none at all. -/
inductive Qual where
  | rref | lref | clref | none
deriving DecidableEq, Repr

/-- The object a member function is called on. -/
inductive Cat where
  | rvalue | lvalue | constLvalue
deriving DecidableEq, Repr

/-- [over.match.funcs]/4-5: whether a function with the qualifier may be called on the object. -/
def Qual.viable : Qual → Cat → Bool
  | .rref, .rvalue => true
  | .lref, .lvalue => true
  | .clref, _ => true
  | .none, .rvalue => true
  | .none, .lvalue => true
  | _, _ => false

/-- [over.ics.rank]/3: the binding of the object to the first is better than to the second. -/
def Qual.better : Qual → Qual → Cat → Bool
  | .rref, .clref, .rvalue => true
  | .lref, .clref, .lvalue => true
  | .none, .clref, .lvalue => true
  | _, _, _ => false

/-- The function bodies. -/
inductive Body where
  | thenResult | thenValue | thenVoid
  | orElseResult | orElseValue | orElseVoid
  | mapErrorWrap | mapErrorResult
deriving DecidableEq, Repr

/-- An overload: its qualifier, the handlers it is enabled for, its body. -/
structure Overload where
  qual : Qual
  enabled : Ret → Bool
  body : Body

/-- The overload called: the viable one that is better than every other; `none` if there is no such. -/
def resolve (l : List Overload) (c : Cat) (r : Ret) : Option Overload :=
  match l.filter fun o => o.qual.viable c && o.enabled r with
  | [] => none
  | o :: rest => pick o rest
where
  /-- The best so far against the others. -/
  pick (o : Overload) : List Overload → Option Overload
    | [] => some o
    | p :: rest =>
      if o.qual.better p.qual c then pick o rest else if p.qual.better o.qual c then pick p rest else none

def result (t : RTy) (r : Ret) : Bool := (isResult t.val t.err r).isSome

inductive Kind where
  | andThen | orElse | mapError
deriving DecidableEq, Repr

/-- The overloads of a combinator in a class, in the order of the source: result.hpp:414-477, 482-504, 512-543 for a value,
762-839, 844-877, 886-910 for `void`. -/
def overloads (t : RTy) : Kind → List Overload
  | .andThen =>
    if t.val.isSome then
      [⟨.rref, result t, .thenResult⟩, ⟨.lref, result t, .thenResult⟩, ⟨.clref, result t, .thenResult⟩,
       ⟨.none, fun r => r ≠ .void && !result t r, .thenValue⟩, ⟨.none, fun r => r = .void, .thenVoid⟩]
    else
      [⟨.rref, result t, .thenResult⟩, ⟨.clref, result t, .thenResult⟩,
       ⟨.rref, fun r => r ≠ .void && !result t r, .thenValue⟩, ⟨.clref, fun r => r ≠ .void && !result t r, .thenValue⟩,
       ⟨.rref, fun r => r = .void, .thenVoid⟩, ⟨.clref, fun r => r = .void, .thenVoid⟩]
  | .orElse =>
    if t.val.isSome then [⟨.none, result t, .orElseResult⟩, ⟨.none, fun r => !result t r, .orElseValue⟩]
    else [⟨.none, result t, .orElseResult⟩, ⟨.none, fun r => r ≠ .void && !result t r, .orElseValue⟩,
          ⟨.none, fun r => r = .void, .orElseVoid⟩]
  | .mapError =>
    if t.val.isSome then
      [⟨.rref, fun _ => true, .mapErrorWrap⟩, ⟨.lref, fun _ => true, .mapErrorWrap⟩, ⟨.clref, fun _ => true, .mapErrorWrap⟩]
    else [⟨.none, fun r => !result t r, .mapErrorWrap⟩, ⟨.none, result t, .mapErrorResult⟩]

/-! ### Bodies -/

/-- The type a body returns; `none` where the class has no such type. `error_result_wrapper`, result.hpp:176-183; for a handler of
`Result<V, E>::mapError` returning an `Ok` the new error would be that `Ok`: not modelled, taken as refused. -/
def bodyType (t : RTy) (r : Ret) : Body → Option RTy
  | .thenResult | .orElseResult | .mapErrorResult => isResult t.val t.err r
  | .thenValue | .orElseValue =>
    match r with
    | .plain b => some ⟨some b, t.err⟩
    | .void => some ⟨none, t.err⟩
    | _ => none
  | .thenVoid | .orElseVoid => some ⟨none, t.err⟩
  | .mapErrorWrap =>
    match r with
    | .plain b => some ⟨t.val, b⟩
    | .res _ e => some ⟨t.val, e⟩
    | .err e => some ⟨t.val, e⟩
    | _ => none

/-- `R{errTag, e}` or `return Err(e)` for an error `e` of type `E` and the type `R` returned, result.hpp:258-264, 286-289, 627-640, 667-673.
`Result<V, E>` uses the first, `Result<void, E>` the second (771, 783, 797, 809, 824, 838): a `Result<void, F>` is made from `Err<F>` only. -/
def passError (t u : RTy) (n : Int) : Option Int :=
  if t.val.isNone && u.val.isNone then if t.err = u.err then some n else none else braces t.err u.err n

/-- The value passed on: `R{okTag, moveResult()}` (488, 500, 517, 528, 539) in `Result<V, E>` — `Result<void, F>` has no such constructor — and
`return none` (849, 860, 871, 892, 906) in `Result<void, E>`, which makes a `Result<void, F>` only. -/
def passValue (t u : RTy) (v : Option Int) : Option (Option Int) :=
  match t.val, u.val, v with
  | some s, some d, some n => (braces s d n).map some
  | none, none, none => some none
  | _, _, _ => none

/-- `R{okTag, moveResult()}` or `return none` is well-formed. -/
def passValueOk (t u : RTy) : Bool :=
  match t.val, u.val with
  | some s, some d => bracesOk s d
  | none, none => true
  | _, _ => false

def passErrorOk (t u : RTy) : Bool :=
  if t.val.isNone && u.val.isNone then t.err = u.err else bracesOk t.err u.err

/-- Whether the return statement with the handler's answer is well-formed: what the handler returns is of the type returned, or an `Ok` or
`Err` for it (246-264, 600-640), except in `Result<V, E>::mapError` (520, 531, 542), where `e{f(…)}` needs a plain error, and in
`orElse` of a void handler (503), where `f(…)` would be an argument. -/
def answerOk (r : Ret) : Body → Bool
  | .thenResult | .orElseResult | .mapErrorResult | .thenVoid | .orElseVoid => true
  | .thenValue | .orElseValue => r ≠ .void
  | .mapErrorWrap =>
    match r with
    | .plain _ => true
    | _ => false

/-- Whether the body calls the handler for values, or for errors. -/
def Body.onValues : Body → Bool
  | .thenResult | .thenValue | .thenVoid => true
  | _ => false

/-- The type a call has, if it compiles. -/
def typeOf (k : Kind) (c : Cat) (r : Ret) (t : RTy) : Option RTy :=
  match resolve (overloads t k) c r with
  | none => none
  | some o =>
    match bodyType t r o.body with
    | none => none
    | some u =>
      if instantiable u && answerOk r o.body && (if o.body.onValues then passErrorOk t u else passValueOk t u) then some u else none

/-- A stage of a chain: the combinator, how the object is referred to, the type the handler returns and its answer to the value
(`some v`, `then`) or to the error. The answer of a `mapError` handler returning a plain `e` is `bad e`. -/
structure Stage where
  kind : Kind
  cat : Cat
  ret : Ret
  onGood : Option Int → St
  onBad : Int → St

/-- A call: its result, `none` if it does not compile. -/
def apply (s : Stage) (o : Obj) : Option Obj :=
  match typeOf s.kind s.cat s.ret o.ty with
  | none => none
  | some u =>
    match s.kind, o.st with
    | .andThen, .good v => some ⟨u, s.onGood v⟩
    | .andThen, .bad e => (passError o.ty u e).map fun e' => ⟨u, .bad e'⟩
    | _, .good v => (passValue o.ty u v).map fun v' => ⟨u, .good v'⟩
    | _, .bad e => some ⟨u, s.onBad e⟩

/-- A chain of calls, `none` if one of them does not compile. -/
def chain : List Stage → Obj → Option Obj
  | [], o => some o
  | s :: rest, o => (apply s o).bind (chain rest)

end Solace.ResTy
