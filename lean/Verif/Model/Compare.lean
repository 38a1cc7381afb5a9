import Verif.Model.Optional
import Verif.Model.StringView
import Verif.Model.ErrorDomain
import Verif.Model.Uuid
import Verif.Model.Version
import Verif.Model.Path
/-
Comparing values of types that are made from each other: `Array<Optional<String>>`, `Optional<Result<Version, Error>>`, ...
The operators of a container are templates that call the operators of its element type, so `==` of such a type is the
composition of the operators of its parts.

A value is what the objects show: a container is the list of its elements (C81, C125), a string of any kind its characters
(C86, C87). Some operators first ask whether both operands are the same object, or begin at the same address. The answers are
given by `Ids`, which is asked with the place in the two values, so that equal values in different places may have different
answers. The comparisons of the caller's types are functions without effects; those that throw are in Model/Callbacks.
-/
namespace Solace.Cmp

/-- The types that can be compared with `==`. `own`: a type of the caller or of the language, with its `==` and `!=`. `string`
stands for `String`, `StringView` and `StringLiteral`. -/
inductive Ty : Type 1 where
  | own (α : Type) (eq ne : α → α → Bool)
  | unit
  | string
  | memory
  | error
  | uuid
  | version
  | path
  | digest
  | optional (t : Ty)
  | array (t : Ty)
  | vector (t : Ty)
  | view (t : Ty)
  | result (v e : Ty)
  | voidResult (e : Ty)

/-- The values of a type. -/
def Ty.Val : Ty → Type
  | .own α _ _ => α
  | .unit => Unit
  | .string => List Byte
  | .memory => List Byte
  | .error => ErrorValue
  | .uuid => {bytes : List Byte // bytes.length = 16}
  | .version => Version
  | .path => Path
  | .digest => List Byte
  | .optional t => Option t.Val
  | .array t => List t.Val
  | .vector t => List t.Val
  | .view t => List t.Val
  | .result v e => v.Val ⊕ e.Val
  | .voidResult e => Option e.Val

/-- The answers to `&a == &b` and to the comparison of the addresses of the first elements, for the operands at a place. -/
structure Ids where
  object : List Nat → (t : Ty) → t.Val → t.Val → Bool
  memory : List Nat → (t : Ty) → List t.Val → List t.Val → Bool

/-- The loop of `ArrayView::equals`, arrayView.hpp:110-122, from position `i`. -/
def loop {α : Type} (eq : Nat → α → α → Bool) : Nat → List α → List α → Bool
  | i, a :: as, b :: bs => if !eq i a b then false else loop eq (i + 1) as bs
  | _, _, _ => true

/-- `ArrayView::equals`, arrayView.hpp:102-123, and `==`, 125-136. -/
def viewEquals {α : Type} (eq : Nat → α → α → Bool) (object memory : Bool) (a b : List α) : Bool :=
  if a.length ≠ b.length then false
  else if object || memory then true
  else loop eq 0 a b

/-- `MemoryView::equals`, src/memoryView.cpp:80-91; `memcmp` by its contract. -/
def memoryEquals (object memory : Bool) (a b : List Byte) : Bool :=
  if a.length ≠ b.length then false
  else if object || memory then true
  else Uuid.memcmp a b == 0

/-- `operator==`. `String`, `StringView`, `StringLiteral`: string.hpp:362-385, stringView.hpp:477-511. `MemoryView`,
`MutableMemoryView`: memoryView.hpp:287-290, mutableMemoryView.hpp:244-258. `Error`: error.hpp:66-69. `UUID`: uuid.hpp:171-173.
`Version`: version.hpp:186-188. `Path`: path.hpp:385-388, src/path.cpp:341-344. `MessageDigest`: hashing/messageDigest.hpp:133-136, of the arrays.
`Unit`: unit.hpp:43. `Optional`: optional.hpp:351-360. `Array`: array.hpp:108-111, 318-321. `Vector`: vector.hpp:114-117,
307-310. `ArrayView`: arrayView.hpp:125-136. `Result`: result.hpp:950-961. The content of an optional or of a
result is at place 0. -/
def eq (ids : Ids) : (t : Ty) → List Nat → t.Val → t.Val → Bool
  | .own _ e _, _, a, b => e a b
  | .unit, _, _, _ => true
  | .string, _, a, b => StringView.equals a b
  | .memory, p, a, b => memoryEquals (ids.object p .memory a b) (ids.memory p (.own Byte (· == ·) (· != ·)) a b) a b
  | .error, _, a, b => ErrorValue.equals a b
  | .uuid, _, a, b => Uuid.equals a.1 b.1
  | .version, _, a, b => Version.equals a b
  | .path, _, a, b => Path.equals a b
  | .digest, p, a, b =>
    ids.object p .digest a b ||
      viewEquals (fun _ (x y : Byte) => x == y) false (ids.memory p (.own Byte (· == ·) (· != ·)) a b) a b
  | .optional t, p, a, b => Opt.eq (T := t.Val) (fun x y => eq ids t (0 :: p) x y) (ids.object p (.optional t) a b) a b
  | .array t, p, a, b =>
    ids.object p (.array t) a b ||
      viewEquals (α := t.Val) (fun i x y => eq ids t (i :: p) x y) false (ids.memory p t a b) a b
  | .vector t, p, a, b =>
    ids.object p (.vector t) a b ||
      viewEquals (α := t.Val) (fun i x y => eq ids t (i :: p) x y) false (ids.memory p t a b) a b
  | .view t, p, a, b =>
    viewEquals (α := t.Val) (fun i x y => eq ids t (i :: p) x y) (ids.object p (.view t) a b) (ids.memory p t a b) a b
  | .result v e, p, a, b =>
    match a, b with
    | .inl x, .inl y => eq ids v (0 :: p) x y
    | .inr x, .inr y => eq ids e (0 :: p) x y
    | _, _ => false
  | .voidResult e, p, a, b =>
    match a, b with
    | none, none => true
    | some x, some y => eq ids e (0 :: p) x y
    | _, _ => false

/-- Whether there is an `operator!=` for the type: `Error`, `MessageDigest` and `Result` have none, and that of an `Optional`
uses the one of its content. -/
def hasNe : Ty → Bool
  | .error => false
  | .digest => false
  | .result _ _ => false
  | .voidResult _ => false
  | .optional t => hasNe t
  | _ => true

/-- `operator!=`, for a type that has one (`hasNe`; the value for others means nothing). string.hpp:398-411,
stringView.hpp:482-516, memoryView.hpp:292-295, mutableMemoryView.hpp:249-262, uuid.hpp:175-177, version.hpp:180-183,
path.hpp:390-393, unit.hpp:44, optional.hpp:362-371, array.hpp:323-326, vector.hpp:311-314, arrayView.hpp:129-141. -/
def ne (ids : Ids) : (t : Ty) → List Nat → t.Val → t.Val → Bool
  | .own _ _ n, _, a, b => n a b
  | .unit, _, _, _ => false
  | .optional t, p, a, b => Opt.ne (T := t.Val) (fun x y => ne ids t (0 :: p) x y) (ids.object p (.optional t) a b) a b
  | .error, _, _, _ => false
  | .digest, _, _, _ => false
  | .result _ _, _, _, _ => false
  | .voidResult _, _, _, _ => false
  | .string, p, a, b => !eq ids .string p a b
  | .memory, p, a, b => !eq ids .memory p a b
  | .uuid, p, a, b => !eq ids .uuid p a b
  | .version, p, a, b => !eq ids .version p a b
  | .path, p, a, b => !eq ids .path p a b
  | .array t, p, a, b => !eq ids (.array t) p a b
  | .vector t, p, a, b => !eq ids (.vector t) p a b
  | .view t, p, a, b => !eq ids (.view t) p a b

/-- `Optional<T> == T`, optional.hpp:374-375, and `T == Optional<T>`, 377-378: the content is the left operand in both. -/
def optionalEqValue (ids : Ids) (t : Ty) (p : List Nat) (a : Option t.Val) (v : t.Val) : Bool :=
  Opt.eqValue (fun x y => eq ids t (0 :: p) x y) a v

/-- `Optional<T> != T`, optional.hpp:380-381, and `T != Optional<T>`, 383-384. -/
def optionalNeValue (ids : Ids) (t : Ty) (p : List Nat) (a : Option t.Val) (v : t.Val) : Bool :=
  Opt.neValue (fun x y => ne ids t (0 :: p) x y) a v

/-- `Optional<T> == None` on both sides, optional.hpp:339-343, and `!=`, 345-349. -/
def optionalEqNone {t : Ty} (a : Option t.Val) : Bool := a.isNone
def optionalNeNone {t : Ty} (a : Option t.Val) : Bool := a.isSome

/-- `Vector<T> == ArrayView<T>`, vector.hpp:317-318, 327-330: `v.view().equals(other)`. The view of the vector is a temporary,
so it is not the same object as the other. -/
def vectorEqView (ids : Ids) (t : Ty) (p : List Nat) (v other : List t.Val) : Bool :=
  viewEquals (fun i x y => eq ids t (i :: p) x y) false (ids.memory p t v other) v other

/-- `ArrayView<T> == Vector<T>`, vector.hpp:319-320: the elements of the vector are the left operands. -/
def viewEqVector (ids : Ids) (t : Ty) (p : List Nat) (other v : List t.Val) : Bool := vectorEqView ids t p v other

/-- `!=` of these, vector.hpp:322-325, 332-335. -/
def vectorNeView (ids : Ids) (t : Ty) (p : List Nat) (v other : List t.Val) : Bool := !vectorEqView ids t p v other
def viewNeVector (ids : Ids) (t : Ty) (p : List Nat) (other v : List t.Val) : Bool := !vectorEqView ids t p v other

/-- `Array::equals(initializer_list)`, array.hpp:113-130, also of a digest, hashing/messageDigest.hpp:138-146. -/
def arrayEqList (ids : Ids) (t : Ty) (p : List Nat) (a list : List t.Val) : Bool :=
  if a.length ≠ list.length then false else loop (fun i x y => eq ids t (i :: p) x y) 0 a list

/-- `Result == Ok(v)` and `Ok(v) == Result`, result.hpp:930-938, and `v == Result`, 963-967: the content is the left operand. -/
def resultEqOk (ids : Ids) (v e : Ty) (p : List Nat) (r : v.Val ⊕ e.Val) (x : v.Val) : Bool :=
  match r with
  | .inl y => eq ids v (0 :: p) y x
  | .inr _ => false

/-- `Result == Err(e)` and `Err(e) == Result`, result.hpp:940-948. -/
def resultEqErr (ids : Ids) (v e : Ty) (p : List Nat) (r : v.Val ⊕ e.Val) (x : e.Val) : Bool :=
  match r with
  | .inl _ => false
  | .inr y => eq ids e (0 :: p) y x

/-- `v != Result`, result.hpp:969-973. -/
def resultNeOk (ids : Ids) (v e : Ty) (p : List Nat) (r : v.Val ⊕ e.Val) (x : v.Val) : Bool :=
  match r with
  | .inl y => ne ids v (0 :: p) y x
  | .inr _ => true

/-- The loop of `ArrayView::indexOf`, arrayView.hpp:260-264. -/
def indexOfLoop (ids : Ids) (t : Ty) (p : List Nat) (value : t.Val) : List t.Val → Nat → Option Nat
  | [], _ => none
  | c :: cs, i => if eq ids t (i :: p) value c then some i else indexOfLoop ids t p value cs (i + 1)

/-- `ArrayView::indexOf` and `contains`, arrayView.hpp:254-268, through which arrays and vectors search. -/
def indexOf (ids : Ids) (t : Ty) (p : List Nat) (a : List t.Val) (value : t.Val) : Option Nat := indexOfLoop ids t p value a 0
def contains (ids : Ids) (t : Ty) (p : List Nat) (a : List t.Val) (value : t.Val) : Bool := (indexOf ids t p a value).isSome

end Solace.Cmp
