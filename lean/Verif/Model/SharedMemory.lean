import Verif.Model.MemoryAccess
/-
Programs that work on parts of one memory block through several mutable views, in any order (/repo/include/solace/mutableMemoryView.hpp,
/repo/src/mutableMemoryView.cpp). A part is a view; each action uses one of the views, by slicing it as the code does.
-/
namespace Solace.Shared

/-- What is done through one view. -/
inductive Act where
  /-- `view.fill(value, from, to)` -/
  | fill (value : Byte) (from_ to : Nat)
  /-- `view.slice(from, to).write(source)`, the source being memory outside of the block -/
  | put (from_ to : Nat) (source : List Byte)
  /-- `view.slice(from, to).write(view.slice(from', to'))` -/
  | copy (from_ to from' to' : Nat)
  /-- `view.slice(from, to).construct<T>(…)`, with the bytes of the new object -/
  | construct (from_ to : Nat) (object : List Byte)
  /-- `view.dataAs<T>(offset)` -/
  | look (size offset : Nat)
deriving DecidableEq, Repr

/-- What the program gets to know. -/
inductive Seen where
  | nothing
  | done (r : Except Err Unit)
  | made (r : Outcome Unit)
  | bytes (r : Outcome (List Byte))
deriving DecidableEq, Repr

/-- `write(source)` from memory outside of the block, mutableMemoryView.cpp:39-59. -/
def put (w : Window) (m source : List Byte) : List Byte × Except Err Unit :=
  if source.length > w.size then (m, .error .dom) else (ByteWriter.overwrite m w.off source, .ok ())

/-- One action through the view `w`. -/
def step (w : Window) (m : List Byte) : Act → List Byte × Seen
  | .fill value f t => (w.fillRange m value f t, .nothing)
  | .put f t source => let r := put (w.slice f t) m source; (r.1, .done r.2)
  | .copy f t f' t' => let r := (w.slice f t).write m (w.slice f' t'); (r.1, .done r.2)
  | .construct f t object =>
    match (w.slice f t).construct object.length m object with
    | .ok m' => (m', .made (.ok ()))
    | .throws => (m, .made .throws)
    | .terminate => (m, .made .terminate)
    | .ub => (m, .made .ub)
  | .look size offset => (m, .bytes (w.dataAsAt size m offset))

/-- A program: which view, which action. Views that do not exist do nothing. -/
def run (ws : List Window) : List (Nat × Act) → List Byte → List Byte × List (Nat × Seen)
  | [], m => (m, [])
  | (i, a) :: rest, m =>
    match ws[i]? with
    | none => run ws rest m
    | some w =>
      let r := step w m a
      let tail := run ws rest r.1
      (tail.1, (i, r.2) :: tail.2)

/-- A program that has a whole block for itself. -/
def alone (size : Nat) : List Act → List Byte → List Byte × List Seen
  | [], m => (m, [])
  | a :: rest, m =>
    let r := step ⟨0, size⟩ m a
    let tail := alone size rest r.1
    (tail.1, r.2 :: tail.2)

end Solace.Shared
