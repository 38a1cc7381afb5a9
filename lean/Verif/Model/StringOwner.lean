import Verif.Model.String
/-
Model of `String` variables as owners of memory (/repo/include/solace/string.hpp, /repo/include/solace/memoryResource.hpp):
a world of blocks from the memory manager and of string variables that are made, moved, swapped and destroyed.

Blocks are never written after a string was made of them (`String` has no function that changes its characters). An
operation that names a variable that does not exist or is already destroyed is not a C++ program; the model leaves the
world unchanged for it.
-/
namespace Solace.Owner

/-- Where `_data` of the `MemoryResource` of a string points to: nowhere, to the characters of a literal (which live for
ever), or to a block. -/
inductive Loc where
  | null
  | lit (bytes : List Byte)
  | heap (id : Nat)
deriving DecidableEq, Repr

/-- `_buffer` (location, and whether there is a disposer) and `_size` of a `String`, string.hpp:350-352,
memoryResource.hpp:105-107. -/
structure Obj where
  loc : Loc
  disposer : Bool
  size : Nat
deriving DecidableEq, Repr

structure Block where
  bytes : List Byte
  alive : Bool
deriving DecidableEq, Repr

/-- `log`: the blocks given back, in order. -/
structure World where
  heap : List Block
  vars : List (Option Obj)
  log : List Nat
deriving DecidableEq, Repr

def World.init : World := ⟨[], [], []⟩

/-- `view()`, string.hpp:328-330: reading a block that was given back is undefined behaviour. -/
def text (w : World) (o : Obj) : Outcome (List Byte) :=
  match o.loc with
  | .null => .ok (MemoryView.slice [] 0 o.size)
  | .lit b => .ok (MemoryView.slice b 0 o.size)
  | .heap id =>
    match w.heap[id]? with
    | some ⟨b, true⟩ => .ok (MemoryView.slice b 0 o.size)
    | _ => .ub

/-- `length()`, string.hpp:104-106. -/
def length (o : Obj) : Nat := o.size

/-- `makeString(StringView)`, src/string.cpp:29-43, in a new variable; `mem` is what the manager returns for the request. When
the characters cannot be written the block is given back by the destructor of `maybeBuffer`. -/
def make (w : World) (s : List Byte) (mem : Except Err MutView) : World :=
  match mem with
  | .error _ => w
  | .ok v =>
    match v.write s with
    | (v', .error _) =>
      if v.null then w
      else { w with heap := w.heap ++ [⟨v'.bytes, false⟩], log := w.log ++ [w.heap.length] }
    | (v', .ok _) =>
      { w with heap := w.heap ++ [⟨v'.bytes, true⟩], vars := w.vars ++ [some ⟨.heap w.heap.length, true, s.length⟩] }

/-- `makeString(StringLiteral)`, src/string.cpp:46-49: no disposer. -/
def literal (w : World) (s : List Byte) : World := { w with vars := w.vars ++ [some ⟨.lit s, false, s.length⟩] }

/-- `String()`, string.hpp:50. -/
def empty (w : World) : World := { w with vars := w.vars ++ [some ⟨.null, false, 0⟩] }

/-- `String(MemoryResource&&, stringLen)` and `makeString(MemoryResource&&, size)`, string.hpp:69-72, 478-481, for a resource
that owns a block with these bytes. -/
def adopt (w : World) (bytes : List Byte) (n : Nat) : World :=
  { w with heap := w.heap ++ [⟨bytes, true⟩], vars := w.vars ++ [some ⟨.heap w.heap.length, true, n⟩] }

/-- `makeString(String const&)`, string.hpp:463-465, also `ctor(String&, String const&)` (467-470) when memory suffices. -/
def copy (w : World) (v : Nat) (mem : Except Err MutView) : World :=
  match w.vars[v]? with
  | some (some o) =>
    match text w o with
    | .ok s => make w s mem
    | _ => w
  | _ => w

/-- `String(String&&)`, string.hpp:55-60, with memoryResource.hpp:70-74 and memoryView.hpp:109-113; also
`ctor(String&, String&&)`, string.hpp:472-475. -/
def moveCtor (w : World) (v : Nat) : World :=
  match w.vars[v]? with
  | some (some o) => { w with vars := w.vars.set v (some ⟨.null, false, 0⟩) ++ [some o] }
  | _ => w

/-- `swap` and move assignment, string.hpp:78-88, 424-426. -/
def swap (w : World) (v u : Nat) : World :=
  match w.vars[v]?, w.vars[u]? with
  | some (some a), some (some b) => { w with vars := (w.vars.set v (some b)).set u (some a) }
  | _, _ => w

/-- `~MemoryResource`, memoryResource.hpp:57-61: the disposer gives the block back. -/
def destroy (w : World) (v : Nat) : World :=
  match w.vars[v]? with
  | some (some o) =>
    match o.disposer, o.loc with
    | true, .heap id =>
      { heap := w.heap.modify id fun b => { b with alive := false }, vars := w.vars.set v none, log := w.log ++ [id] }
    | _, _ => { w with vars := w.vars.set v none }
  | _ => w

inductive Op where
  | make (s : List Byte) (mem : Except Err MutView)
  | literal (s : List Byte)
  | empty
  | adopt (bytes : List Byte) (n : Nat)
  | copy (v : Nat) (mem : Except Err MutView)
  | moveCtor (v : Nat)
  | swap (v u : Nat)
  | destroy (v : Nat)

def step (w : World) : Op → World
  | .make s mem => make w s mem
  | .literal s => literal w s
  | .empty => empty w
  | .adopt b n => adopt w b n
  | .copy v mem => copy w v mem
  | .moveCtor v => moveCtor w v
  | .swap v u => swap w v u
  | .destroy v => destroy w v

def runFrom (w : World) (ops : List Op) : World := ops.foldl step w

def run (ops : List Op) : World := runFrom World.init ops

end Solace.Owner
