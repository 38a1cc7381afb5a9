import Verif.Model.StringMemory
/- What it means that a function asks the memory manager for these blocks and no others. -/
namespace Solace.Requests
open PathMem

/-- The requests for blocks of these sizes are granted, counted from request number `k`. -/
def Grants (g : Policy) (k : Nat) (sizes : List Nat) : Prop :=
  ∀ i n : Nat, sizes[i]? = some n → ∃ v, g (k + i) n = .ok v ∧ v.null = false ∧ v.bytes.length = n

/-- Two managers answer these requests in the same way. Nothing is said about any other request. -/
def Agree (g g' : Policy) (k : Nat) (sizes : List Nat) : Prop :=
  ∀ i n : Nat, sizes[i]? = some n → g' (k + i) n = g (k + i) n

/-- When they are granted, the function makes exactly these requests in this order and returns with `Q`: it makes so many requests, nothing
is refused, and what it does depends on the answers to these requests only. -/
def Asks {α : Type} (h : Heap) (f : Policy → Heap → Outcome (Heap × α)) (sizes : List Nat) (Q : Heap → α → Prop) : Prop :=
  ∀ g, Grants g h.asked sizes →
    (∃ h' a, f g h = .ok (h', a) ∧ h'.asked = h.asked + sizes.length ∧ h'.refused = h.refused ∧ Q h' a) ∧
    ∀ g', Agree g g' h.asked sizes → f g' h = f g h

/-- A function that returns makes this many requests at most, whatever the manager answers. -/
def AsksAtMost {α : Type} (f : Policy → Heap → Outcome (Heap × α)) (k : Nat) : Prop :=
  ∀ g h h' a, f g h = .ok (h', a) → h.asked ≤ h'.asked ∧ h'.asked ≤ h.asked + k

/-- The components of a path text: a last piece that is empty is none. -/
def components (pieces : List (List Byte)) : List (List Byte) :=
  if pieces.getLast? = some [] then pieces.dropLast else pieces

/-- The components `normalize` copies, when so many components are there already: neither those that are "." nor a ".." that takes away
a component. -/
def copied : Nat → List (List Byte) → List (List Byte)
  | _, [] => []
  | depth, c :: cs =>
    if c = [0x2E#8] then copied depth cs
    else if c = [0x2E#8, 0x2E#8] ∧ 0 < depth then copied (depth - 1) cs
    else c :: copied (depth + 1) cs

/-- The components `normalize` is left with: a ".." takes away the component before it, if there is one. -/
def normalized : List (List Byte) → List (List Byte) → List (List Byte)
  | acc, [] => acc
  | acc, c :: cs =>
    if c = [0x2E#8] then normalized acc cs
    else if c = [0x2E#8, 0x2E#8] ∧ acc ≠ [] then normalized acc.dropLast cs
    else normalized (acc ++ [c]) cs

/-- The components joining copies: those of strings and of paths that are not rvalues. A path that was moved has only empty components
left. -/
def joinCopied (vs : PathMem.Vars) : List Arg → List (List Byte)
  | [] => []
  | .str s :: as => s :: joinCopied vs as
  | .copy i :: as => (match getVar vs i with | none => [] | some p => p.elems.map SObj.text) ++ joinCopied vs as
  | .move i :: as => joinCopied (match getVar vs i with | none => vs | some p => vs.set i (some { p with elems := p.elems.map fun _ => .empty })) as

/-- The sizes of the blocks of an array of strings with these components: 32 bytes for each string object, and the characters of each. -/
def blocksOf (cs : List (List Byte)) : List Nat := 32 * cs.length :: cs.map List.length

end Solace.Requests
