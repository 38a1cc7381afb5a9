import Verif.Model.Basic
/-
Results of references, `Result<X&, E>` (/repo/include/solace/result.hpp), as `Vector::emplace_back` (vector.hpp:210-228) and `Dictionary::put`
(dictionary.hpp:145-177) return them: the value is a `std::reference_wrapper` (result.hpp:589-591), that is, a pointer to an object.
Programs with objects of a class `X`, vectors of `X`, dictionaries, and results that refer to objects or elements.

Simplifications: `X`, the keys and `E` are classes whose value is a number, copied and moved without exceptions and without a trace; `E` has
no destructor to speak of. Requests for memory are granted (C132 has the others) and sizes in bytes fit in 64 bits (C81). All variables exist
at the start: objects with value 0, vectors default constructed, results holding error 0; a statement that makes a variable destroys the one
of that number first. A dictionary is given by the numbers of its two vectors `_lookup` and `_values` (dictionary.hpp:213-214). An exception
is caught where it is raised.
-/
namespace Solace.ResRef

/-- Where an `X` lives: a variable, or place `k` of the memory `b` of a vector. -/
inductive Place where
  | obj (a : Nat)
  | slot (b k : Nat)
deriving DecidableEq, Repr

/-- `Vector<X>`, vector.hpp:292-294. -/
structure Vec where
  buf : Option Nat
  cap : Nat
deriving DecidableEq, Repr

/-- Objects (`none`: ended), memory (`none`: given back or not yet asked for; otherwise the elements that live there), vectors, results. -/
structure World where
  objs : Nat → Option Nat
  bufs : Nat → Option (List Nat)
  vecs : Nat → Vec
  ress : Nat → Except Nat Place
  next : Nat

def upd (f : Nat → α) (i : Nat) (x : α) : Nat → α := fun j => if j = i then x else f j

def init : World := ⟨fun _ => some 0, fun _ => none, fun _ => ⟨none, 0⟩, fun _ => .error 0, 0⟩

def World.valueAt (w : World) : Place → Option Nat
  | .obj a => w.objs a
  | .slot b k => (w.bufs b).bind fun es => es[k]?

def World.assign (w : World) (p : Place) (v : Nat) : World :=
  match p with
  | .obj a => { w with objs := upd w.objs a (some v) }
  | .slot b k => { w with bufs := upd w.bufs b ((w.bufs b).map fun es => es.set k v) }

inductive Stmt where
  /-- `x_a = v` -/
  | setObj (a v : Nat)
  /-- reading `x_a` -/
  | readObj (a : Nat)
  /-- the end of the scope of `x_a` -/
  | endObj (a : Nat)
  /-- `Result<X&, E> r{okTag, x_a}` and `Result<X&, E> r{x_a}`, result.hpp:270-273, 298-300 -/
  | bind (r a : Nat)
  /-- `Result<X&, E> r{errTag, e}`, result.hpp:276-279 -/
  | fail (r e : Nat)
  /-- `Result<X&, E> r{mv(s)}`, result.hpp:217-221 -/
  | moveNew (r s : Nat)
  /-- `r = mv(s)` and `r.swap(s)`, result.hpp:231-233, 308-332 -/
  | swap (r s : Nat)
  /-- reading `r.unwrap()`, `*r` or `r.moveResult()`, result.hpp:346-381 -/
  | read (r : Nat)
  /-- `*r = v` -/
  | write (r v : Nat)
  /-- `r.getError()`, result.hpp:391-405 -/
  | error (r : Nat)
  /-- `t` from `r.then([](X& x) -> Result<X&, E> { x = v; return x; })`, result.hpp:413-446 -/
  | thenSet (t r v : Nat)
  /-- `t` from `r.mapError([](E e) { return e + k; })`, result.hpp:510-545 -/
  | mapError (t r k : Nat)
  /-- `t` from `r.orElse([&](E) -> Result<X&, E> { return x_a; })`, result.hpp:480-490 -/
  | orElse (t r a : Nat)
  /-- `makeVector<X>(cap)`, vector.hpp:380-392 -/
  | vec (i cap : Nat)
  /-- the result of `i.emplace_back(v)`, vector.hpp:210-228 -/
  | push (r i v : Nat)
  /-- vector.hpp:243-252 -/
  | pop (i : Nat)
  /-- vector.hpp:259-264 -/
  | clear (i : Nat)
  /-- `i.view()[k]`, raising outside -/
  | readAt (i k : Nat)
  | setAt (i k v : Nat)
  /-- `Vector<X> i{mv(j)}`, vector.hpp:76-79 -/
  | moveVec (i j : Nat)
  /-- `i = mv(j)` and `i.swap(j)`, vector.hpp:89-104 -/
  | swapVec (i j : Nat)
  /-- the end of the scope of vector `i` -/
  | dropVec (i : Nat)
  /-- the result of `d.put(key, v)` for the dictionary with keys `ki` and values `vi`, dictionary.hpp:145-177 -/
  | put (r ki vi key v : Nat)
  /-- reading `*d.find(key)`, dictionary.hpp:179-206 -/
  | lookup (ki vi key : Nat)
deriving DecidableEq, Repr

inductive Seen where
  | nothing
  | value (v : Nat)
  | error (e : Nat)
  /-- an exception -/
  | raised
deriving DecidableEq, Repr

/-- The elements of a vector. -/
def World.elems (w : World) (i : Nat) : List Nat := ((w.vecs i).buf.bind w.bufs).getD []

/-- A vector with other elements. -/
def World.setElems (w : World) (i : Nat) (es : List Nat) : World :=
  match (w.vecs i).buf with
  | some b => { w with bufs := upd w.bufs b (some es) }
  | none => w

/-- `~Vector`: the elements and the memory; in place of the variable a default constructed one. -/
def World.drop (w : World) (i : Nat) : World :=
  match (w.vecs i).buf with
  | some b => { w with bufs := upd w.bufs b none, vecs := upd w.vecs i ⟨none, 0⟩ }
  | none => { w with vecs := upd w.vecs i ⟨none, 0⟩ }

/-- `BasicError::Overflow` -/
def overflow : Nat := 1

/-- `emplace_back`, vector.hpp:210-228: the place of the new element, or the error. A vector without memory has no capacity. -/
def World.emplace (w : World) (i v : Nat) : World × Except Nat Place :=
  match (w.vecs i).buf with
  | none => (w, .error overflow)
  | some b =>
    if (w.vecs i).cap ≤ (w.elems i).length then (w, .error overflow)
    else (w.setElems i (w.elems i ++ [v]), .ok (.slot b (w.elems i).length))

def step (w : World) : Stmt → Outcome (World × Seen)
  | .setObj a v =>
    match w.objs a with
    | some _ => .ok (w.assign (.obj a) v, .nothing)
    | none => .ub
  | .readObj a =>
    match w.objs a with
    | some v => .ok (w, .value v)
    | none => .ub
  | .endObj a => .ok ({ w with objs := upd w.objs a none }, .nothing)
  | .bind r a =>
    match w.objs a with
    | some _ => .ok ({ w with ress := upd w.ress r (.ok (.obj a)) }, .nothing)
    | none => .ub
  | .fail r e => .ok ({ w with ress := upd w.ress r (.error e) }, .nothing)
  | .moveNew r s => if r = s then .ub else .ok ({ w with ress := upd w.ress r (w.ress s) }, .nothing)
  | .swap r s => .ok ({ w with ress := upd (upd w.ress r (w.ress s)) s (w.ress r) }, .nothing)
  | .read r =>
    match w.ress r with
    | .error _ => .ok (w, .raised)
    | .ok p =>
      match w.valueAt p with
      | some v => .ok (w, .value v)
      | none => .ub
  | .write r v =>
    match w.ress r with
    | .error _ => .ok (w, .raised)
    | .ok p =>
      match w.valueAt p with
      | some _ => .ok (w.assign p v, .nothing)
      | none => .ub
  | .error r =>
    match w.ress r with
    | .error e => .ok (w, .error e)
    | .ok _ => .ok (w, .raised)
  | .thenSet t r v =>
    match w.ress r with
    | .error e => .ok ({ w with ress := upd w.ress t (.error e) }, .nothing)
    | .ok p =>
      match w.valueAt p with
      | some _ => .ok ({ w.assign p v with ress := upd w.ress t (.ok p) }, .nothing)
      | none => .ub
  | .mapError t r k =>
    match w.ress r with
    | .error e => .ok ({ w with ress := upd w.ress t (.error (e + k)) }, .nothing)
    | .ok p => .ok ({ w with ress := upd w.ress t (.ok p) }, .nothing)
  | .orElse t r a =>
    match w.ress r with
    | .ok p => .ok ({ w with ress := upd w.ress t (.ok p) }, .nothing)
    | .error _ =>
      match w.objs a with
      | some _ => .ok ({ w with ress := upd w.ress t (.ok (.obj a)) }, .nothing)
      | none => .ub
  | .vec i cap =>
    .ok ({ w.drop i with bufs := upd (w.drop i).bufs w.next (some []), vecs := upd (w.drop i).vecs i ⟨some w.next, cap⟩, next := w.next + 1 }, .nothing)
  | .push r i v => .ok ({ (w.emplace i v).1 with ress := upd w.ress r (w.emplace i v).2 }, .nothing)
  | .pop i => .ok (w.setElems i (w.elems i).dropLast, .nothing)
  | .clear i => .ok (w.setElems i [], .nothing)
  | .readAt i k =>
    match (w.elems i)[k]? with
    | some v => .ok (w, .value v)
    | none => .ok (w, .raised)
  | .setAt i k v =>
    match (w.elems i)[k]? with
    | some _ => .ok (w.setElems i ((w.elems i).set k v), .nothing)
    | none => .ok (w, .raised)
  | .moveVec i j =>
    if i = j then .ub
    else .ok ({ w.drop i with vecs := upd (upd w.vecs i (w.vecs j)) j ⟨none, 0⟩ }, .nothing)
  | .swapVec i j => .ok ({ w with vecs := upd (upd w.vecs i (w.vecs j)) j (w.vecs i) }, .nothing)
  | .dropVec i => .ok (w.drop i, .nothing)
  | .put r ki vi key v =>
    if ki = vi then .ub
    else
      match w.emplace vi v with
      | (w1, .error e) => .ok ({ w1 with ress := upd w.ress r (.error e) }, .nothing)
      | (w1, .ok p) =>
        match w1.emplace ki key with
        | (w2, .ok _) => .ok ({ w2 with ress := upd w.ress r (.ok p) }, .nothing)
        | (w2, .error e) => .ok ({ w2.setElems vi (w2.elems vi).dropLast with ress := upd w.ress r (.error e) }, .nothing)
  | .lookup ki vi key =>
    if (w.elems ki).contains key then
      match (w.elems vi)[(w.elems ki).idxOf key]? with
      | some v => .ok (w, .value v)
      | none => .ub
    else .ok (w, .raised)

/-- A program: its statements in turn, and what they show. -/
def run (w : World) : List Stmt → Outcome (World × List Seen)
  | [] => .ok (w, [])
  | s :: ss =>
    match step w s with
    | .ok (w1, o) =>
      match run w1 ss with
      | .ok (w2, os) => .ok (w2, o :: os)
      | .throws => .throws
      | .terminate => .terminate
      | .ub => .ub
    | .throws => .throws
    | .terminate => .terminate
    | .ub => .ub

end Solace.ResRef
