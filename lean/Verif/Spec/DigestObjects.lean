import Verif.Model.DigestObjects
import Verif.Spec.HashProgram
import Verif.Spec.PathMemory
/-
The same programs with messages instead of hash objects and byte strings instead of digest objects.
-/
namespace Solace.Hash.Digests
open PathMem (Policy)
open Prog (Msg)

/-- The messages, how often memory was asked for, the digests by their bytes, and what was seen. -/
structure SWorld where
  msgs : List Msg
  asked : Nat
  digests : List (Option (List Byte))
  seen : List Seen

def SWorld.start : SWorld := ⟨[], 0, [], []⟩

/-- Whether the request with this number for so many bytes is granted. -/
def granted (g : Policy) (k n : Nat) : Bool := (g k n).toBool

/-- A new digest, if there is memory. -/
def added (g : Policy) (k : Nat) (ds : List (Option (List Byte))) (bytes : List Byte) : List (Option (List Byte)) :=
  if granted g k bytes.length then ds ++ [some bytes] else ds

def value (ds : List (Option (List Byte))) (i : Nat) : Option (List Byte) := (ds[i]?).join

/-- A digest that finds no memory has nevertheless padded the message. -/
def specStep (g : Policy) (w : SWorld) : Op → SWorld
  | .hash (.digest x) =>
    match w.msgs[x]? with
    | some m =>
      { w with
        msgs := w.msgs.set x m.padded
        asked := w.asked + 1
        digests := added g w.asked w.digests m.published }
    | none => w
  | .hash op => { w with msgs := (Prog.specStep ⟨w.msgs, []⟩ op).msgs }
  | .make bytes => { w with asked := w.asked + 1, digests := added g w.asked w.digests bytes }
  | .move i =>
    match value w.digests i with
    | some d => { w with digests := w.digests.set i (some []) ++ [some d] }
    | none => w
  | .assign i j =>
    match value w.digests i, value w.digests j with
    | some a, some b => { w with digests := (w.digests.set i (some b)).set j (some a) }
    | _, _ => w
  | .destroy i =>
    match value w.digests i with
    | some _ => { w with digests := w.digests.set i none }
    | none => w
  | .same i j =>
    match value w.digests i, value w.digests j with
    | some a, some b => { w with seen := w.seen ++ [.truth (decide (a = b))] }
    | _, _ => w
  | .sameList i list =>
    match value w.digests i with
    | some a => { w with seen := w.seen ++ [.truth (decide (a = list))] }
    | none => w
  | .index i k =>
    match value w.digests i with
    | some a => { w with seen := w.seen ++ [.byte a[k]?] }
    | none => w
  | .bits i =>
    match value w.digests i with
    | some a => { w with seen := w.seen ++ [.number (8 * a.length % 2 ^ 64)] }
    | none => w

def specRun (g : Policy) (w : SWorld) (ops : List Op) : SWorld := ops.foldl (specStep g) w

/-- The limits on the pieces of a message, as in C128. -/
def Within (h : Host) (g : Policy) (w : SWorld) : List Op → Prop
  | [] => True
  | op :: rest =>
    (match op with
      | .hash (.update x addr b) => ∀ m, w.msgs[x]? = some m → m.Takes h addr b
      | _ => True) ∧ Within h g (specStep g w op) rest

/-- The blocks of the digests alive. -/
def blocksOf (ds : List (Option DObj)) : List Nat := ds.flatMap fun o => (o.map fun d => d.block.toList).getD []

end Solace.Hash.Digests
