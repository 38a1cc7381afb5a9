import Verif.Model.Exception
/-
Who owns the text of an exception: `ErrorString` (/repo/include/solace/details/string_utils.hpp:35-73,
/repo/src/errorString.cpp:34-49) as the member of `Exception` (/repo/include/solace/exception.hpp:43-79). The text itself is
in Model/Exception.

The memory is a list of blocks from `calloc`: `some bytes`, or `none` once `free` was called. Variables are `ErrorString`s or
exceptions (whose defaulted move constructor and destructor are those of the member); `none` for destroyed ones. An operation
on a variable that does not exist is not a program and changes nothing.
-/
namespace Solace.ExnOwner

/-- `_size` and `_message`, string_utils.hpp:68-72. -/
structure Obj where
  size : Nat
  block : Option Nat
deriving DecidableEq, Repr

structure World where
  blocks : List (Option (List Byte))
  objs : List (Option Obj)
deriving DecidableEq, Repr

/-- Change a variable if it exists. -/
def upd (objs : List (Option Obj)) (v : Nat) (f : Obj → Obj) : List (Option Obj) := objs.modify v (·.map f)

/-- A variable made from the result of a constructor in Model/Exception: the memory is its own. -/
def make (w : World) (s : Exn.ErrorString) : World :=
  match s.message with
  | none => { w with objs := w.objs ++ [some ⟨s.size, none⟩] }
  | some b => ⟨w.blocks ++ [some b], w.objs ++ [some ⟨s.size, some w.blocks.length⟩]⟩

/-- `ErrorString(ErrorString&&)`, string_utils.hpp:44-47, and `Exception(Exception&&)`, exception.hpp:49: the size of the
source stays. -/
def move (w : World) (v : Nat) : World :=
  match w.objs[v]? with
  | some (some o) => { w with objs := upd w.objs v ({ · with block := none }) ++ [some o] }
  | _ => w

/-- `operator=(ErrorString&&)`, string_utils.hpp:49-54: two exchanges, one after the other. -/
def assign (w : World) (v u : Nat) : World :=
  match w.objs[v]?, w.objs[u]? with
  | some (some _), some (some b) =>
    let s1 := upd (upd w.objs u ({ · with size := 0 })) v ({ · with size := b.size })
    { w with objs := upd (upd s1 u ({ · with block := none })) v ({ · with block := b.block }) }
  | _, _ => w

/-- `~ErrorString`, errorString.cpp:34-39; freeing memory that is not allocated is undefined. -/
def destroy (w : World) (v : Nat) : Outcome World :=
  match w.objs[v]? with
  | some (some o) =>
    match o.block with
    | none => .ok { w with objs := w.objs.set v none }
    | some b =>
      match w.blocks[b]? with
      | some (some _) => .ok ⟨w.blocks.set b none, w.objs.set v none⟩
      | _ => .ub
  | _ => .ok w

/-- A `StringWriter` (string_utils.hpp:77-123) that goes out of scope without `build`: it has no destructor. -/
def drop (w : World) (bytes : List Byte) : World := { w with blocks := w.blocks ++ [some bytes] }

/-- `view()`, string_utils.hpp:66, `getMessage()`, `toString()`, exception.hpp:51-61, and what is read through it. -/
def view (w : World) (v : Nat) : Outcome (List Byte) :=
  match w.objs[v]? with
  | some (some o) =>
    match o.block with
    | none => if o.size = 0 then .ok [] else .ub
    | some b =>
      match w.blocks[b]? with
      | some (some bytes) => if o.size ≤ bytes.length then .ok (bytes.take o.size) else .ub
      | _ => .ub
  | _ => .ub

/-- `what()`, string_utils.hpp:65 and /repo/src/exception.cpp:170-172: the null pointer (`none`) or a text read up to the first zero. -/
def what (w : World) (v : Nat) : Outcome (Option (List Byte)) :=
  match w.objs[v]? with
  | some (some o) =>
    match o.block with
    | none => .ok none
    | some b =>
      match w.blocks[b]? with
      | some (some bytes) => if 0#8 ∈ bytes then .ok (some (bytes.takeWhile (· ≠ 0#8))) else .ub
      | _ => .ub
  | _ => .ub

inductive Op where
  | make (s : Exn.ErrorString)
  | move (v : Nat)
  | assign (v u : Nat)
  | destroy (v : Nat)
  | drop (bytes : List Byte)
deriving DecidableEq, Repr

def step (w : World) : Op → Outcome World
  | .make s => .ok (make w s)
  | .move v => .ok (move w v)
  | .assign v u => .ok (assign w v u)
  | .destroy v => destroy w v
  | .drop b => .ok (drop w b)

def run (w : World) : List Op → Outcome World
  | [] => .ok w
  | op :: ops => step w op >>= fun w' => run w' ops

def World.init : World := ⟨[], []⟩

end Solace.ExnOwner
