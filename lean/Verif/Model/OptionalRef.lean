import Verif.Model.OptionalConvert
/-
`Optional<X&>` and `Optional<X const&>` (/repo/include/solace/optional.hpp), as used by `findErrorDomain` (src/errorDomain.cpp:56-65): the
payload is a `std::reference_wrapper` (optional.hpp:293-295), that is, a pointer to an object. Programs with objects of a class `X`,
optionals that hold an `X` and optionals that refer to one.

Simplifications: `X` is a class that can be copied and has value `Nat`, without const members (so that a reference to a payload refers
to the payload made next in the same optional, C++17 6.8/8). All objects exist at the start. A statement that makes an optional makes a
new variable in place of the old one of that number. `std::reference_wrapper` behaves as the C++ standard says (22.10.6).
-/
namespace Solace.OptRef
open OptConv (Ty Cat Expr Ctor choose)

/-! ### What compiles -/

/-- The types of the statements. -/
inductive Kind where
  /-- `X` -/
  | obj
  /-- `std::reference_wrapper<X>` (`std::ref(x)`) -/
  | wrapper
  /-- `Optional<X>` -/
  | val
  /-- `Optional<X&>` -/
  | ref
  /-- `Optional<X const&>` -/
  | cref
deriving DecidableEq, Repr

/-- The types as they are seen by overload resolution: which of them are optionals, and which are the same. -/
def Kind.ty : Kind → Ty
  | .obj => .base 1
  | .wrapper => .base 2
  | .val => .opt (.base 1)
  | .ref => .opt (.base 3)
  | .cref => .opt (.base 4)

/-- What an optional of this type stores (optional.hpp:292-295): `reference_wrapper<decay_t<T>>` for references, also to const. -/
def Kind.stored : Kind → Kind
  | .val => .obj
  | .ref | .cref => .wrapper
  | k => k

/-- `reference_wrapper<X>{expr}`: from an `X` that is neither const nor a temporary, or from another wrapper. -/
def wrapperFrom (k : Kind) (const : Bool) (cat : Cat) : Bool :=
  match k with
  | .obj => !const && cat == .lvalue
  | .wrapper => true
  | _ => false

/-- Whether `Optional<X&> r{expr}` (or `Optional<X const&>`) compiles; the constructors are chosen as in Model/OptionalConvert. -/
def compiles (target : Kind) (k : Kind) (const : Bool) (cat : Cat) : Bool :=
  if cat = .prvalue ∧ k = target then true
  else
    match choose target.ty ⟨k.ty, const, cat⟩ with
    | some .fromLvalue => wrapperFrom k.stored false .lvalue
    | some .fromConst => wrapperFrom k.stored true .lvalue
    | some .fromRvalue => wrapperFrom k.stored false .xvalue
    | some .anything => wrapperFrom k const (if cat = .lvalue then .lvalue else .xvalue)
    | _ => false

/-- The assignments `r = expr` for an `Optional<X&>`, optional.hpp:172-190 with `T = X&`. -/
inductive Rhs where
  | none
  | expr (k : Kind) (const : Bool) (cat : Cat)
deriving DecidableEq, Repr

/-- Whether `r = expr` compiles. `operator= (T&&)` has a parameter of type `X&`; its body makes the wrapper from `mv(rhs)`, an rvalue,
for which the constructor of `reference_wrapper` is deleted. For a `reference_wrapper` and for an `Optional<X>` there are two conversions or
one: to `X&` by the wrapper's conversion function, and to the optional. -/
def assignCompiles : Rhs → Bool
  | .none => true
  | .expr .ref const cat => !const && cat != .lvalue            -- `operator= (Optional<T>&&)`; the deleted copy assignment otherwise
  | .expr .obj const cat =>
    if !const && cat == .lvalue then wrapperFrom .obj false .xvalue   -- `operator= (T&&)` binds; its body does not compile
    else compiles .ref .obj const cat                           -- by a temporary optional
  | .expr .wrapper _ _ => false                                 -- ambiguous
  | .expr .val const cat => compiles .ref .val const cat        -- by a temporary optional
  | .expr .cref const cat => compiles .ref .cref const cat

/-! ### What is run -/

/-- Where an object of class `X` lives: a variable, or the payload of an optional. -/
inductive Place where
  | obj (a : Nat)
  | payload (i : Nat)
deriving DecidableEq, Repr

/-- Variables: objects (`none` = ended), optionals that hold an `X`, optionals that refer to one. -/
structure World where
  objs : Nat → Option Nat
  vals : Nat → Option Nat
  refs : Nat → Option Place

def upd (f : Nat → α) (i : Nat) (x : α) : Nat → α := fun j => if j = i then x else f j

/-- The value at a place. -/
def World.at? (w : World) : Place → Option Nat
  | .obj a => w.objs a
  | .payload i => w.vals i

/-- Writing a value to a place. -/
def World.put (w : World) (p : Place) (v : Nat) : World :=
  match p with
  | .obj a => { w with objs := upd w.objs a (some v) }
  | .payload i => { w with vals := upd w.vals i (some v) }

inductive Stmt where
  /-- `x_a = v` -/
  | setObj (a v : Nat)
  /-- reading `x_a` -/
  | readObj (a : Nat)
  /-- `Optional<X> o_i{x_a}`, optional.hpp:134-137 -/
  | valOf (i a : Nat)
  /-- `x_a` goes out of scope -/
  | endObj (a : Nat)
  /-- `o_i = X{v}`, optional.hpp:185-190 -/
  | setVal (i v : Nat)
  /-- `o_i = none`, optional.hpp:172-176 -/
  | resetVal (i : Nat)
  /-- `o_i.swap(o_j)`, optional.hpp:149-169 -/
  | swapVal (i j : Nat)
  /-- `Optional<X&> r{x_a}`, optional.hpp:134-137 -/
  | bindObj (r a : Nat)
  /-- `Optional<X&> r{o_i}`, optional.hpp:110-116 -/
  | bindVal (r i : Nat)
  /-- `Optional<X&> r{s}` from an lvalue or an rvalue, optional.hpp:110-132 -/
  | copyRef (r s : Nat)
  /-- `r = mv(s)`, optional.hpp:179-183 -/
  | moveRef (r s : Nat)
  /-- `r = none` -/
  | resetRef (r : Nat)
  /-- `Optional<X> o_i{r}` for an optional `r` of a reference, optional.hpp:110-116 -/
  | toVal (i r : Nat)
  /-- `*r = v`, optional.hpp:200, 211-217 -/
  | write (r v : Nat)
  /-- `r.get()`, optional.hpp:203-217 -/
  | read (r : Nat)
  /-- `r.orElse(x_a)`, optional.hpp:228-234 -/
  | orElse (r a : Nat)
  /-- `r == s`, optional.hpp:351-360 -/
  | equal (r s : Nat)
deriving Repr

/-- What is read: a value, or whether two are equal. -/
inductive Seen where
  | value (v : Nat)
  | truth (b : Bool)
  | nothing
deriving DecidableEq, Repr

/-- Reading through a reference; the object must be alive. -/
def load (w : World) (p : Place) : Outcome Nat :=
  match w.at? p with
  | some v => .ok v
  | none => .ub

def step (w : World) : Stmt → Outcome (World × Seen)
  | .setObj a v =>
    match w.objs a with
    | some _ => .ok ({ w with objs := upd w.objs a (some v) }, .nothing)
    | none => .ub
  | .readObj a => do
    let v ← load w (.obj a)
    pure (w, .value v)
  | .valOf i a => do
    let v ← load w (.obj a)
    pure ({ w with vals := upd w.vals i (some v) }, .nothing)
  | .endObj a => .ok ({ w with objs := upd w.objs a none }, .nothing)
  | .setVal i v => .ok ({ w with vals := upd w.vals i (some v) }, .nothing)
  | .resetVal i => .ok ({ w with vals := upd w.vals i none }, .nothing)
  | .swapVal i j => .ok ({ w with vals := upd (upd w.vals i (w.vals j)) j (w.vals i) }, .nothing)
  | .bindObj r a =>
    match w.objs a with
    | some _ => .ok ({ w with refs := upd w.refs r (some (.obj a)) }, .nothing)
    | none => .ub
  | .bindVal r i => .ok ({ w with refs := upd w.refs r ((w.vals i).map fun _ => .payload i) }, .nothing)
  | .copyRef r s => .ok ({ w with refs := upd w.refs r (w.refs s) }, .nothing)
  | .moveRef r s => .ok ({ w with refs := upd (upd w.refs r (w.refs s)) s (w.refs r) }, .nothing)
  | .resetRef r => .ok ({ w with refs := upd w.refs r none }, .nothing)
  | .toVal i r =>
    match w.refs r with
    | none => .ok ({ w with vals := upd w.vals i none }, .nothing)
    | some p => do
      if p = .payload i then .ub   -- the old variable is gone
      let v ← load w p
      pure ({ w with vals := upd w.vals i (some v) }, .nothing)
  | .write r v =>
    match w.refs r with
    | none => .terminate          -- `operator*` is noexcept and `get` raises
    | some p => do
      let _ ← load w p
      pure (w.put p v, .nothing)
  | .read r =>
    match w.refs r with
    | none => .throws
    | some p => do
      let v ← load w p
      pure (w, .value v)
  | .orElse r a => do
    let v ← load w ((w.refs r).getD (.obj a))
    pure (w, .value v)
  | .equal r s =>
    if r = s then .ok (w, .truth true)
    else
      match w.refs r, w.refs s with
      | some p, some q => (do
        let u ← load w p
        let v ← load w q
        pure (w, Seen.truth (u == v))).noexcept
      | none, none => .ok (w, .truth true)
      | _, _ => .ok (w, .truth false)

/-- A program: what is seen, in order. -/
def run (w : World) : List Stmt → Outcome (World × List Seen)
  | [] => .ok (w, [])
  | s :: ss => do
    let (w', o) ← step w s
    let (w'', os) ← run w' ss
    pure (w'', o :: os)

end Solace.OptRef
