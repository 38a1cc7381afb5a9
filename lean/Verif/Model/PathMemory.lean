import Verif.Model.PathMore
/-
The memory of paths (/repo/include/solace/path.hpp, /repo/src/path.cpp): which blocks the path functions ask for, hand on and
give back, when the memory manager may refuse any request at any time.

A path is an `Array<String>`: one block for the array and one block for each string (none for strings that are default
constructed or moved from). The destructors that run at the end of each scope and when an exception leaves it are written out.
Giving back a block that is not given out is undefined behaviour (`Outcome.ub`). Characters and elements are kept in the
objects and not in the blocks: a `String` never changes its characters (C86), and elements stay where they are (C44).
The values computed are those of `Verif.Model.Path`, where a refusal depends only on the size of the request.
-/
namespace Solace.PathMem

/-- The memory manager as seen by its users: how many requests there were, how many of them were refused, how many blocks
were given out, and the blocks that are given out and not given back. -/
structure Heap where
  asked : Nat
  refused : Nat
  next : Nat
  live : List Nat
deriving DecidableEq, Repr

/-- What the manager answers to the request with this number for so many bytes. -/
abbrev Policy := Nat → Nat → Except Err MutView

/-- `getSystemHeapMemoryManager().allocate(n)`, src/memoryManager.cpp:97-114. -/
def allocate (g : Policy) (h : Heap) (n : Nat) : Heap × Except Err (Nat × MutView) :=
  match g h.asked n with
  | .error e => ({ h with asked := h.asked + 1, refused := h.refused + 1 }, .error e)
  | .ok v => ({ h with asked := h.asked + 1, next := h.next + 1, live := h.next :: h.live }, .ok (h.next, v))

/-- `~MemoryResource` with a disposer, memoryResource.hpp:57-61, src/memoryManager.cpp:83-94. -/
def free (h : Heap) (b : Nat) : Outcome Heap :=
  if b ∈ h.live then .ok { h with live := h.live.erase b } else .ub

/-- A `MemoryResource`: with a block, or default constructed or moved from. -/
def freeOpt (h : Heap) : Option Nat → Outcome Heap
  | none => .ok h
  | some b => free h b

/-! ### Strings -/

structure SObj where
  block : Option Nat
  text : List Byte
deriving DecidableEq, Repr

/-- `String{}`, string.hpp:50; also what a move leaves behind, string.hpp:55-60. -/
def SObj.empty : SObj := ⟨none, []⟩

/-- `makeString(StringView)`, src/string.cpp:29-43: when writing fails `maybeBuffer` gives the block back. -/
def newStr (g : Policy) (h : Heap) (s : List Byte) : Outcome (Heap × Except Err SObj) :=
  match allocate g h s.length with
  | (h1, .error e) => .ok (h1, .error e)
  | (h1, .ok (b, v)) =>
    match v.write s with
    | (_, .error e) => do
      let h2 ← free h1 b
      pure (h2, .error e)
    | (v', .ok _) => .ok (h1, .ok ⟨some b, MemoryView.slice v'.bytes 0 s.length⟩)

/-- `~String`. -/
def dropStr (h : Heap) (o : SObj) : Outcome Heap := freeOpt h o.block

/-- The destructors of several strings, in this order. -/
def dropStrs (h : Heap) : List SObj → Outcome Heap
  | [] => .ok h
  | o :: os => do
    let h1 ← dropStr h o
    dropStrs h1 os

/-! ### Vectors of strings -/

/-- `_buffer` (block and capacity) and the elements of a `Vector<String>`, vector.hpp:292-294. -/
structure VObj where
  block : Option Nat
  cap : Nat
  elems : List SObj
deriving DecidableEq, Repr

/-- `Vector()`, vector.hpp:70. -/
def VObj.none : VObj := ⟨.none, 0, []⟩

/-- `makeVector<String>(n)`, vector.hpp:374-397: a string object takes 32 bytes; the capacity is computed from the size of the
block, vector.hpp:137-139. -/
def newVec (g : Policy) (h : Heap) (n : Nat) : Heap × Except Err VObj :=
  match allocate g h (wrap64 (n * 32)) with
  | (h1, .error e) => (h1, .error e)
  | (h1, .ok (b, _)) => (h1, .ok ⟨some b, wrap64 (n * 32) / 32, []⟩)

/-- `emplace_back(mv(o))`, vector.hpp:210-228: the vector, and what is left in `o`. -/
def pushBack (v : VObj) (o : SObj) : VObj × SObj :=
  if v.cap ≤ v.elems.length then (v, o) else ({ v with elems := v.elems ++ [o] }, .empty)

/-- `pop_back()`, vector.hpp:244-253. -/
def popBack (h : Heap) (v : VObj) : Outcome (Heap × VObj) :=
  match v.elems.getLast? with
  | none => .ok (h, v)
  | some o => do
    let h1 ← dropStr h o
    pure (h1, { v with elems := v.elems.dropLast })

/-- `~Vector`, vector.hpp:67, 277-284: the elements, then `_buffer`. -/
def dropVec (h : Heap) (v : VObj) : Outcome Heap := do
  let h1 ← dropStrs h v.elems
  freeOpt h1 v.block

/-! ### Paths -/

/-- `_components` of a path: `_buffer` (block, and whether its size is 0) and the elements. -/
structure PObj where
  block : Option Nat
  noBuffer : Bool
  elems : List SObj
deriving DecidableEq, Repr

/-- `Path()`, path.hpp:138; also what a move leaves behind, array.hpp:72-77. -/
def PObj.none : PObj := ⟨.none, true, []⟩

/-- `Path{vector.toArray()}`, vector.hpp:271-273: the vector is left without buffer and elements. -/
def ofVec (v : VObj) : PObj := ⟨v.block, v.cap == 0, v.elems⟩

/-- The components, as in `Verif.Model.Path`. -/
def PObj.view (p : PObj) : Path := ⟨p.noBuffer, p.elems.map SObj.text⟩

/-- `~Path`, array.hpp:64, 288-293. -/
def dropPath (h : Heap) (p : PObj) : Outcome Heap := do
  let h1 ← dropStrs h p.elems
  freeOpt h1 p.block

/-- `makePath(StringView)`, src/path.cpp:42-55, with `makeArrayOf`, array.hpp:466-483. The moved-from strings of the results
have no block. -/
def single (g : Policy) (h : Heap) (s : List Byte) : Outcome (Heap × Except Err PObj) := do
  let (h1, r) ← newStr g h s
  match r with
  | .error e => pure (h1, .error e)
  | .ok o =>
    match allocate g h1 32 with
    | (h2, .error e) => do
      let h3 ← dropStr h2 o
      pure (h3, .error e)
    | (h2, .ok (b, _)) => pure (h2, .ok ⟨some b, false, [o]⟩)

/-- `Path::Root`, src/path.cpp:32-39. -/
def root (g : Policy) (h : Heap) : Outcome (Heap × PObj) := do
  let (h1, r) ← single g h []
  match r with
  | .ok p => pure (h1, p)
  | .error _ => pure (h1, .none)

/-- The callback of `parse`: `maybeError` and `nonEmptyComponents`. -/
structure Parse where
  err : Option Err
  vec : VObj
deriving DecidableEq, Repr

/-- src/path.cpp:66-73: the assignment swaps (vector.hpp:81-85, 100-106), so the old vector ends with `maybeComponents`. -/
def prepare (g : Policy) (h : Heap) (a : Parse) (count : Nat) : Outcome (Heap × Parse) :=
  if a.vec.cap = 0 ∧ count ≠ 0 then
    match newVec g h count with
    | (h1, .ok v) => do
      let h2 ← dropVec h1 a.vec
      pure (h2, { a with vec := v })
    | (h1, .error e) => .ok (h1, { a with err := some e })
  else .ok (h, a)

/-- src/path.cpp:75-84: what `emplace_back` leaves ends with `r`. -/
def add (g : Policy) (h : Heap) (a : Parse) (c : List Byte) (i count : Nat) : Outcome (Heap × Parse) :=
  if i + 1 = count ∧ c = [] then .ok (h, a)
  else do
    let (h1, r) ← newStr g h c
    match r with
    | .ok o => do
      let h2 ← dropStr h1 (pushBack a.vec o).2
      pure (h2, { a with vec := (pushBack a.vec o).1 })
    | .error e => pure (h1, { a with err := some e })

/-- The callback, src/path.cpp:62-84. -/
def onPiece (g : Policy) (h : Heap) (a : Parse) (c : List Byte) (i count : Nat) : Outcome (Heap × Parse) :=
  if a.err.isSome then .ok (h, a)
  else do
    let (h1, a1) ← prepare g h a count
    add g h1 a1 c i count

def onPieces (g : Policy) (h : Heap) (a : Parse) : List (List Byte × Nat × Nat) → Outcome (Heap × Parse)
  | [] => .ok (h, a)
  | c :: cs => do
    let (h1, a1) ← onPiece g h a c.1 c.2.1 c.2.2
    onPieces g h1 a1 cs

/-- src/path.cpp:86-94. -/
def finish (h : Heap) (a : Parse) : Outcome (Heap × Except Err PObj) :=
  match a.err with
  | some e => do
    let h1 ← dropVec h a.vec
    pure (h1, .error e)
  | .none =>
    if a.vec.elems = [] then do
      let h1 ← dropStr h (pushBack a.vec .empty).2
      pure (h1, .ok (ofVec (pushBack a.vec .empty).1))
    else .ok (h, .ok (ofVec a.vec))

/-- `Path::parse`, src/path.cpp:58-95; `none`: splitting does not return within the fuel. -/
def parse (g : Policy) (h : Heap) (fuel : Nat) (s d : List Byte) : Option (Outcome (Heap × Except Err PObj)) :=
  match StringView.split3 fuel s d with
  | none => none
  | some (calls, _) => some (do
    let (h1, a) ← onPieces g h ⟨none, .none⟩ calls
    finish h1 a)

/-- Append the copy of a component; a failed copy is left out (src/path.cpp:265-268, 295-298, 331-334). -/
def copyTo (g : Policy) (h : Heap) (v : VObj) (c : List Byte) : Outcome (Heap × VObj) := do
  let (h1, r) ← newStr g h c
  match r with
  | .ok o => do
    let h2 ← dropStr h1 (pushBack v o).2
    pure (h2, (pushBack v o).1)
  | .error _ => pure (h1, v)

def copyAll (g : Policy) (h : Heap) (v : VObj) : List (List Byte) → Outcome (Heap × VObj)
  | [] => .ok (h, v)
  | c :: cs => do
    let (h1, v1) ← copyTo g h v c
    copyAll g h1 v1 cs

/-- The loop of `normalize`, src/path.cpp:259-270. -/
def normalizeLoop (g : Policy) (h : Heap) (v : VObj) : List (List Byte) → Outcome (Heap × VObj)
  | [] => .ok (h, v)
  | c :: cs =>
    if StringView.equals c Path.selfRef then normalizeLoop g h v cs
    else if StringView.equals c Path.parentRef && decide (0 < v.elems.length) then do
      let (h1, v1) ← popBack h v
      normalizeLoop g h1 v1 cs
    else do
      let (h1, v1) ← copyTo g h v c
      normalizeLoop g h1 v1 cs

/-- `Path::normalize`, src/path.cpp:250-273. -/
def normalize (g : Policy) (h : Heap) (p : PObj) : Outcome (Heap × PObj) :=
  match newVec g h p.elems.length with
  | (h1, .error _) => .ok (h1, .none)
  | (h1, .ok v) => do
    let (h2, v1) ← normalizeLoop g h1 v (p.elems.map SObj.text)
    pure (h2, ofVec v1)

/-- `CopyConstructArray_` for strings, array_utils.hpp:102-122, with `ctor(String&, String const&)`, string.hpp:467-470: when a
copy fails `unwrap` throws, and the guard destroys the elements made so far, last first. `none`: thrown. -/
def copyArray (g : Policy) (h : Heap) (done : List SObj) : List (List Byte) → Outcome (Heap × Option (List SObj))
  | [] => .ok (h, some done)
  | c :: cs => do
    let (h1, r) ← newStr g h c
    match r with
    | .ok o => copyArray g h1 (done ++ [o]) cs
    | .error _ => do
      let h2 ← dropStrs h1 done.reverse
      pure (h2, none)

/-- `makeArray<String>(array)`, array.hpp:389-404, 448-463, as used in src/path.cpp:279-282. -/
def copyPath (g : Policy) (h : Heap) (p : PObj) : Outcome (Heap × Option PObj) :=
  match allocate g h (wrap64 (p.elems.length * 32)) with
  | (h1, .error _) => .ok (h1, some .none)
  | (h1, .ok (b, _)) => do
    let (h2, r) ← copyArray g h1 [] (p.elems.map SObj.text)
    match r with
    | some os => pure (h2, some ⟨some b, wrap64 (p.elems.length * 32) == 0, os⟩)
    | none => do
      let h3 ← free h2 b
      pure (h3, none)

/-- `Path::getParent`, src/path.cpp:276-302; `none`: an exception is thrown. -/
def getParent (g : Policy) (h : Heap) (p : PObj) : Outcome (Heap × Option PObj) :=
  if p.elems.length < 2 then copyPath g h p
  else
    match newVec g h (p.elems.length - 1) with
    | (h1, .error _) => .ok (h1, some .none)
    | (h1, .ok v) => do
      let (h2, v1) ← copyAll g h1 v ((p.elems.map SObj.text).take (p.elems.length - 1))
      pure (h2, some (ofVec v1))

/-- `Path::subpath`, src/path.cpp:321-338: `noexcept`, `unwrap` of a failed allocation throws. -/
def subpath (g : Policy) (h : Heap) (p : PObj) (from' to' : Nat) : Outcome (Heap × PObj) :=
  let n := p.elems.length
  let f := min from' n
  let t := max f (min to' n)
  match newVec g h (t - f) with
  | (_, .error _) => .terminate
  | (h1, .ok v) => do
    let (h2, v1) ← copyAll g h1 v (((p.elems.map SObj.text).drop f).take (t - f))
    pure (h2, ofVec v1)

/-- `makeStringJoin(by, list)`, src/string.cpp:184-216. -/
def newJoin (g : Policy) (h : Heap) (d : List Byte) (cs : List (List Byte)) : Outcome (Heap × Except Err SObj) :=
  match allocate g h (Str.joinLength d cs) with
  | (h1, .error e) => .ok (h1, .error e)
  | (h1, .ok (b, v)) =>
    match Str.writeJoin (.ofBuffer v.bytes) d cs with
    | (_, .error e) => do
      let h2 ← free h1 b
      pure (h2, .error e)
    | (w, .ok _) => .ok (h1, .ok ⟨some b, MemoryView.slice w.data 0 (Str.joinLength d cs)⟩)

/-- `Path::toString(delim)`, src/path.cpp:347-361. -/
def toString (g : Policy) (h : Heap) (p : PObj) (d : List Byte) : Outcome (Heap × SObj) := do
  let abs ← p.view.isAbsolute
  let (h1, r) ← if abs && p.elems.length == 1 then newStr g h d else newJoin g h d (p.elems.map SObj.text)
  match r with
  | .ok o => pure (h1, o)
  | .error _ => pure (h1, .empty)

/-! ### Joining -/

/-- An argument of `makePath(args...)`: a string that is copied, a path variable that is copied, a path variable that is an
rvalue. (An rvalue string makes `makePath` recurse for ever, C90.) -/
inductive Arg where
  | str (s : List Byte)
  | copy (i : Nat)
  | move (i : Nat)
deriving DecidableEq, Repr

/-- The paths that are alive. -/
abbrev Vars := List (Option PObj)

def getVar (vs : Vars) (i : Nat) : Option PObj := (vs[i]?).join

/-- `countPathComponents`, path.hpp:433-447; `none`: there is no such path. -/
def countArgs (vs : Vars) : List Arg → Option Nat
  | [] => some 0
  | a :: as =>
    match countArgs vs as with
    | none => none
    | some n =>
      match a with
      | .str _ => some (1 + n)
      | .copy i => (getVar vs i).map fun p => p.elems.length + n
      | .move i => (getVar vs i).map fun p => p.elems.length + n

/-- `joinComponents(base, Path const&)` and, with one text, `joinComponents(base, StringView)`, path.hpp:450-457, 481-491: what
`emplace_back` leaves ends with `maybeDup`. -/
def joinCopies (g : Policy) (h : Heap) (v : VObj) : List (List Byte) → Outcome (Heap × VObj × Option Err)
  | [] => .ok (h, v, none)
  | c :: cs => do
    let (h1, r) ← newStr g h c
    match r with
    | .error e => pure (h1, v, some e)
    | .ok o => do
      let h2 ← dropStr h1 (pushBack v o).2
      joinCopies g h2 (pushBack v o).1 cs

/-- `joinComponents(base, Path&&)`, path.hpp:473-479, with `forEach(f) &&`, 343-351: the components that stay in the path. -/
def joinMoved (v : VObj) : List SObj → VObj × List SObj
  | [] => (v, [])
  | o :: os =>
    let r := joinMoved (pushBack v o).1 os
    (r.1, (pushBack v o).2 :: r.2)

/-- `joinComponents(base, args...)`, path.hpp:494-530. -/
def joinArgs (g : Policy) (h : Heap) (v : VObj) (vs : Vars) : List Arg → Outcome (Heap × VObj × Vars × Option Err)
  | [] => .ok (h, v, vs, none)
  | .str s :: as => do
    let (h1, v1, e) ← joinCopies g h v [s]
    if e.isSome then pure (h1, v1, vs, e) else joinArgs g h1 v1 vs as
  | .copy i :: as =>
    match getVar vs i with
    | none => .ok (h, v, vs, none)
    | some p => do
      let (h1, v1, e) ← joinCopies g h v (p.elems.map SObj.text)
      if e.isSome then pure (h1, v1, vs, e) else joinArgs g h1 v1 vs as
  | .move i :: as =>
    match getVar vs i with
    | none => .ok (h, v, vs, none)
    | some p =>
      joinArgs g h (joinMoved v p.elems).1 (vs.set i (some { p with elems := (joinMoved v p.elems).2 })) as

/-- `makePath(args...)`, path.hpp:536-550: the new path or the error, and what the arguments hold afterwards. -/
def join (g : Policy) (h : Heap) (vs : Vars) (args : List Arg) (count : Nat) : Outcome (Heap × Vars × Except Err PObj) :=
  match newVec g h (wrap64 count) with
  | (h1, .error e) => .ok (h1, vs, .error e)
  | (h1, .ok v) => do
    let (h2, v1, vs1, e) ← joinArgs g h1 v vs args
    match e with
    | some e => do
      let h3 ← dropVec h2 v1
      pure (h3, vs1, .error e)
    | none => pure (h2, vs1, .ok (ofVec v1))

/-! ### Programs -/

structure Prog where
  heap : Heap
  vars : Vars
deriving DecidableEq, Repr

inductive Op where
  | parse (fuel : Nat) (s d : List Byte)
  | single (s : List Byte)
  | root
  | normalize (i : Nat)
  | getParent (i : Nat)
  | subpath (i from' to' : Nat)
  | join (args : List Arg)
  | print (i : Nat) (d : List Byte)
  | moveCtor (i : Nat)
  | swap (i j : Nat)
  | destroy (i : Nat)

/-- A result is put into a new variable; an error is not. -/
def keep (vs : Vars) (r : Heap × Except Err PObj) : Prog :=
  match r.2 with
  | .ok p => ⟨r.1, vs ++ [some p]⟩
  | .error _ => ⟨r.1, vs⟩

def keepThrown (vs : Vars) (r : Heap × Option PObj) : Prog :=
  match r.2 with
  | some p => ⟨r.1, vs ++ [some p]⟩
  | none => ⟨r.1, vs⟩

/-- One statement of a program. Exceptions are caught around it. Statements that name a path that does not exist or has been
destroyed are no C++ programs; the state is left unchanged for them, and also while a `parse` has not returned. Move
assignment is `swap` (path.hpp:157-159). -/
def step (g : Policy) (p : Prog) : Op → Outcome Prog
  | .parse fuel s d =>
    match parse g p.heap fuel s d with
    | none => .ok p
    | some m => m >>= fun r => pure (keep p.vars r)
  | .single s => single g p.heap s >>= fun r => pure (keep p.vars r)
  | .root => root g p.heap >>= fun r => pure ⟨r.1, p.vars ++ [some r.2]⟩
  | .normalize i =>
    match getVar p.vars i with
    | none => .ok p
    | some q => normalize g p.heap q >>= fun r => pure ⟨r.1, p.vars ++ [some r.2]⟩
  | .getParent i =>
    match getVar p.vars i with
    | none => .ok p
    | some q => getParent g p.heap q >>= fun r => pure (keepThrown p.vars r)
  | .subpath i a b =>
    match getVar p.vars i with
    | none => .ok p
    | some q => subpath g p.heap q a b >>= fun r => pure ⟨r.1, p.vars ++ [some r.2]⟩
  | .join args =>
    match countArgs p.vars args with
    | none => .ok p
    | some n => join g p.heap p.vars args n >>= fun r => pure (keep r.2.1 (r.1, r.2.2))
  | .print i d =>
    match getVar p.vars i with
    | none => .ok p
    | some q => toString g p.heap q d >>= fun r => dropStr r.1 r.2 >>= fun h => pure { p with heap := h }
  | .moveCtor i =>
    match getVar p.vars i with
    | none => .ok p
    | some q => .ok { p with vars := p.vars.set i (some .none) ++ [some q] }
  | .swap i j =>
    match getVar p.vars i, getVar p.vars j with
    | some a, some b => .ok { p with vars := (p.vars.set i (some b)).set j (some a) }
    | _, _ => .ok p
  | .destroy i =>
    match getVar p.vars i with
    | none => .ok p
    | some q => dropPath p.heap q >>= fun h => pure ⟨h, p.vars.set i none⟩

def run (g : Policy) (p : Prog) : List Op → Outcome Prog
  | [] => .ok p
  | o :: os => step g p o >>= fun q => run g q os

def init : Prog := ⟨⟨0, 0, 0, []⟩, []⟩

end Solace.PathMem
