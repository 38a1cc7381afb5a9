/-
The type functions and casts of /repo/include/solace/utils.hpp:36-113: `RemoveConst`, `Decay`, `mv`, `fwd`, `RefOrRValue`.

C++ types are terms. `base` stands for every arithmetic, class, enumeration, `void` and member pointer type (numbered),
`func` for a function type. An array has the qualifiers of its elements (C++17 [basic.type.qualifier]/5), so only `base` and
`ptr` carry qualifiers. References are on the outside only: there is no reference to a reference, no array of references.
Which partial specialisation a type selects follows [temp.class.spec.match]: among those that match, the one that is more
specialised than all others; when there is none the program is ill-formed.
-/
namespace Solace.Ty

/-- A type that is no reference. -/
inductive Core where
  | base (id : Nat) (c v : Bool)
  | ptr (t : Core) (c v : Bool)
  | func (id : Nat)
  | arr (t : Core) (bound : Option Nat)
deriving DecidableEq, Repr

inductive Ty where
  | plain (t : Core)
  | lref (t : Core)
  | rref (t : Core)
deriving DecidableEq, Repr

def Core.isConst : Core → Bool
  | .base _ c _ => c
  | .ptr _ c _ => c
  | .func _ => false
  | .arr t _ => t.isConst

def Core.isVolatile : Core → Bool
  | .base _ _ v => v
  | .ptr _ _ v => v
  | .func _ => false
  | .arr t _ => t.isVolatile

/-- The type with `const` set to a given value: `const T`, or `T` where `const T` is matched. -/
def Core.setConst (k : Bool) : Core → Core
  | .base i _ v => .base i k v
  | .ptr t _ v => .ptr t k v
  | .func i => .func i
  | .arr t b => .arr (t.setConst k) b

def Core.setVolatile (k : Bool) : Core → Core
  | .base i c _ => .base i c k
  | .ptr t c _ => .ptr t c k
  | .func i => .func i
  | .arr t b => .arr (t.setVolatile k) b

/-- The patterns of the primary template and of the partial specialisations of `Decay_`, utils.hpp:55-63. -/
inductive Pat where
  | any          -- T
  | lref         -- T&
  | rref         -- T&&
  | arr          -- T[]
  | constArr     -- const T[]
  | arrN         -- T[s]
  | constArrN    -- const T[s]
  | const        -- const T
  | volatile     -- volatile T
deriving DecidableEq, Repr

/-- The patterns in the order of the source. -/
def Pat.all : List Pat := [.any, .lref, .rref, .arr, .constArr, .arrN, .constArrN, .const, .volatile]

/-- Matching: the type `T` stands for. A reference or function is never `const` or `volatile`. -/
def Pat.bind : Pat → Ty → Option Ty
  | .any, t => some t
  | .lref, .lref t => some (.plain t)
  | .rref, .rref t => some (.plain t)
  | .arr, .plain (.arr t none) => some (.plain t)
  | .constArr, .plain (.arr t none) => if t.isConst then some (.plain (t.setConst false)) else none
  | .arrN, .plain (.arr t (some _)) => some (.plain t)
  | .constArrN, .plain (.arr t (some _)) => if t.isConst then some (.plain (t.setConst false)) else none
  | .const, .plain t => if t.isConst then some (.plain (t.setConst false)) else none
  | .volatile, .plain t => if t.isVolatile then some (.plain (t.setVolatile false)) else none
  | _, _ => none

def Pat.matches (p : Pat) (t : Ty) : Bool := (p.bind t).isSome

/-- The pattern with a made-up type for `T` and a made-up bound for `s`, as partial ordering uses it. -/
def Pat.sample : Pat → Ty
  | .any => .plain (.base 0 false false)
  | .lref => .lref (.base 0 false false)
  | .rref => .rref (.base 0 false false)
  | .arr => .plain (.arr (.base 0 false false) none)
  | .constArr => .plain (.arr (.base 0 true false) none)
  | .arrN => .plain (.arr (.base 0 false false) (some 0))
  | .constArrN => .plain (.arr (.base 0 true false) (some 0))
  | .const => .plain (.base 0 true false)
  | .volatile => .plain (.base 0 false true)

/-- `p` is more specialised than `q`: `q` matches all that `p` does and not conversely. -/
def Pat.above (p q : Pat) : Bool := q.matches p.sample && !p.matches q.sample

/-- The specialisation chosen for a type; `none` is an ambiguity. -/
def select (t : Ty) : Option Pat :=
  Pat.all.find? fun p => p.matches t && Pat.all.all fun q => p == q || !q.matches t || p.above q

inductive Found where
  | type (t : Ty)
  | illFormed
deriving DecidableEq, Repr

/-- The type whose `Decay_` a specialisation refers to, utils.hpp:56-63, from the type `T` stands for. `T*` of a reference does
not occur, elements of arrays are no references. -/
def Pat.next : Pat → Ty → Ty
  | .arr, .plain t => .plain (.ptr t false false)
  | .arrN, .plain t => .plain (.ptr t false false)
  | .constArr, .plain t => .plain (.ptr (t.setConst true) false false)
  | .constArrN, .plain t => .plain (.ptr (t.setConst true) false false)
  | _, t => t

/-- `Decay_<T>::Type`, utils.hpp:55-64, with at most `fuel` instantiations (`none`: more were needed). -/
def decayIn : Nat → Ty → Option Found
  | 0, _ => none
  | fuel + 1, t =>
    match select t with
    | none => some .illFormed
    | some .any => some (.type t)
    | some p =>
      match p.bind t with
      | none => some .illFormed
      | some b => decayIn fuel (p.next b)

/-- `RemoveConst`, utils.hpp:50-52. -/
def removeConst : Ty → Ty
  | .plain t => if t.isConst then .plain (t.setConst false) else .plain t
  | t => t

/-- Reference collapsing, [dcl.ref]/6: `T&&` and `T&`. -/
def Ty.addRref : Ty → Ty
  | .plain t => .rref t
  | .lref t => .lref t
  | .rref t => .rref t

def Ty.addLref : Ty → Ty
  | .plain t => .lref t
  | .lref t => .lref t
  | .rref t => .lref t

/-- `RefOrRValue`, utils.hpp:108-111. -/
def refOrRValue : Ty → Ty
  | .plain t => .rref t
  | .lref t => .lref t
  | .rref t => .rref t

/-- The type a forwarding reference `T&&` deduces for `T` from an argument of type `t`, [temp.deduct.call]/3. -/
def deduced (lvalue : Bool) (t : Core) : Ty := if lvalue then .lref t else .plain t

/-- What a cast of an expression that denotes an object gives: a reference to that object with a type, a reference to a
temporary that ends with the cast's full-expression, or no program. -/
inductive Cast where
  | same (t : Ty)
  | temporary (t : Core)
  | illFormed
deriving DecidableEq, Repr

/-- `static_cast<D&&>(t)` for the lvalue `t` of type `x`, [expr.static.cast]/3-4 and [dcl.init.ref]/5: the same type with the same
or more qualifiers binds to the object, the same type with fewer is ill-formed, and an array converts to a temporary pointer
to its first element. Conversions between other types do not occur here and count as ill-formed. -/
def castRref (d x : Core) : Cast :=
  if (d.setConst false).setVolatile false = (x.setConst false).setVolatile false then
    if (d.isConst || !x.isConst) && (d.isVolatile || !x.isVolatile) then .same (.rref d) else .illFormed
  else
    match x with
    | .arr e _ => if d = .ptr e false false then .temporary d else .illFormed
    | _ => .illFormed

/-- `mv(t)`, utils.hpp:70-74, for an argument of type `x`; inside the function `t` is an lvalue of type `x`. -/
def mv (fuel : Nat) (lvalue : Bool) (x : Core) : Option Cast :=
  match decayIn fuel (deduced lvalue x) with
  | none => none
  | some .illFormed => some .illFormed
  | some (.type (.plain d)) => some (castRref d x)
  | some (.type _) => some .illFormed

/-- `fwd<T>(t)`, utils.hpp:77-81, for an expression `t` that is an lvalue or not, of type `x`: the parameter is `T&`, the result
`static_cast<T&&>`. An lvalue reference binds to an rvalue only when it is to a constant and not volatile,
[dcl.init.ref]/5.1-5.2; `x` is the type `T` refers to. -/
def fwd (t : Ty) (lvalue : Bool) (x : Core) : Cast :=
  match t.addLref with
  | .lref p =>
    if p = x then
      if lvalue || (p.isConst && !p.isVolatile) then .same t.addRref else .illFormed
    else .illFormed
  | _ => .illFormed

end Solace.Ty
