import Verif.Model.Containers
/-
Programs over plain lists: what arrays and vectors stand for. A variable is a list of elements and the number of elements it
has room for.
-/
namespace Solace.Containers

structure Box (α : Type) where
  vector : Bool
  items : List α
  room : Nat
deriving DecidableEq, Repr

abbrev Lists (α : Type) := List (Option (Box α))

variable {α : Type}

/-- Elementwise equality. -/
def listEq (eq : α → α → Bool) : List α → List α → Bool
  | [], [] => true
  | x :: xs, y :: ys => eq x y && listEq eq xs ys
  | _, _ => false

/-- A new variable, if there is memory. -/
def fresh (s : Lists α) (memory : Bool) (b : Box α) : Lists α × Obs α := if memory then (s ++ [some b], .done) else (s, .nomem)

def specStep (eq : α → α → Bool) (s : Lists α) : Op α → Lists α × Obs α
  | .newEmpty vector => (s ++ [some ⟨vector, [], 0⟩], .done)
  | .newVector n memory => fresh s memory ⟨true, [], n⟩
  | .newArray n x memory => fresh s memory ⟨false, List.replicate n x, n⟩
  | .newOf vector xs memory => fresh s memory ⟨vector, xs, xs.length⟩
  | .copyOf a memory =>
    match get s a with
    | some b => fresh s memory ⟨b.vector, b.items, b.items.length⟩
    | none => (s, .skipped)
  | .moveFrom a =>
    match get s a with
    | some b => (put s a ⟨b.vector, [], 0⟩ ++ [some b], .done)
    | none => (s, .skipped)
  | .moveAssign a b | .swap a b =>
    match get s a, get s b with
    | some c, some d => if c.vector = d.vector then (put (put s a d) b c, .done) else (s, .skipped)
    | _, _ => (s, .skipped)
  | .toArray a =>
    match get s a with
    | some b => if b.vector then (put s a ⟨true, [], 0⟩ ++ [some ⟨false, b.items, b.room⟩], .done) else (s, .skipped)
    | none => (s, .skipped)
  | .assignNull a =>
    match get s a with
    | some b => (put s a ⟨b.vector, [], b.room⟩, .done)
    | none => (s, .skipped)
  | .emplaceBack a x =>
    match get s a with
    | some b =>
      if b.vector then
        if b.items.length < b.room then
          match x with
          | some x => (put s a ⟨true, b.items ++ [x], b.room⟩, .done)
          | none => (s, .exception)
        else (s, .overflow)
      else (s, .skipped)
    | none => (s, .skipped)
  | .popBack a =>
    match get s a with
    | some b => if b.vector then (put s a ⟨true, b.items.dropLast, b.room⟩, .done) else (s, .skipped)
    | none => (s, .skipped)
  | .clear a =>
    match get s a with
    | some b => if b.vector then (put s a ⟨true, [], b.room⟩, .done) else (s, .skipped)
    | none => (s, .skipped)
  | .set a i x =>
    match get s a with
    | some b =>
      if b.vector then (s, .skipped)
      else if i < b.items.length then
        match x with
        | some x => (put s a ⟨false, b.items.set i x, b.room⟩, .done)
        | none => (s, .exception)
      else (s, .exception)
    | none => (s, .skipped)
  | .forEach a g =>
    match get s a with
    | some b => if b.vector then (s, .skipped) else (put s a ⟨false, b.items.map g, b.room⟩, .done)
    | none => (s, .skipped)
  | .index a i =>
    match get s a with
    | some b => (s, match b.items[i]? with | some x => .element x | none => .exception)
    | none => (s, .skipped)
  | .size a =>
    match get s a with
    | some b => (s, .number b.items.length)
    | none => (s, .skipped)
  | .empty a =>
    match get s a with
    | some b => (s, .flag (if b.vector then b.items.isEmpty else b.room == 0))
    | none => (s, .skipped)
  | .capacity a =>
    match get s a with
    | some b => if b.vector then (s, .number b.room) else (s, .skipped)
    | none => (s, .skipped)
  | .iterate a =>
    match get s a with
    | some b => (s, .elements b.items)
    | none => (s, .skipped)
  | .indexOf a x =>
    match get s a with
    | some b => (s, .position (b.items.findIdx? (eq x)))
    | none => (s, .skipped)
  | .contains a x =>
    match get s a with
    | some b => (s, .flag (b.items.any (eq x)))
    | none => (s, .skipped)
  | .equal a b =>
    match get s a, get s b with
    | some c, some d => (s, .flag (a == b || listEq eq c.items d.items))
    | _, _ => (s, .skipped)
  | .equalList a xs =>
    match get s a with
    | some b => if b.vector then (s, .skipped) else (s, .flag (listEq eq b.items xs))
    | none => (s, .skipped)
  | .destroy a =>
    match get s a with
    | some _ => (s.set a none, .done)
    | none => (s, .skipped)

def specRun (eq : α → α → Bool) : Lists α → List (Op α) → Lists α × List (Obs α)
  | s, [] => (s, [])
  | s, op :: ops =>
    let r := specStep eq s op
    let t := specRun eq r.1 ops
    (t.1, r.2 :: t.2)

/-- The sizes asked for fit into 64 bits, and `nullptr` is not assigned to an array with elements. -/
def Allowed (sz : Nat) (s : Lists α) : Op α → Prop
  | .newVector n _ | .newArray n _ _ => n * sz < 2 ^ 64
  | .newOf _ xs _ => xs.length * sz < 2 ^ 64
  | .assignNull a => ∀ b, get s a = some b → b.vector = false → b.items = []
  | _ => True

def AllowedAll (sz : Nat) (eq : α → α → Bool) : Lists α → List (Op α) → Prop
  | _, [] => True
  | s, op :: ops => Allowed sz s op ∧ AllowedAll sz eq (specStep eq s op).1 ops

/-- The elements of all variables, in order. -/
def everything (s : Lists α) : List α := s.flatMap fun v => match v with | some b => b.items | none => []

end Solace.Containers
