import Verif.Spec.NestedMemory
/- What it means that views of strings and references to elements stay valid. -/
namespace Solace.Nested
open PathMem

mutual
/-- The strings with memory in an object, at any depth: the block, and the characters in it. -/
def Val.strings : Val → List (Nat × List Byte)
  | .str o => (o.block.map fun b => (b, o.text)).toList
  | .vec _ _ es => stringsAll es
  | .arr _ es => stringsAll es
  | .dict _ _ ks _ _ vs => stringsAll ks ++ stringsAll vs
def stringsAll : List Val → List (Nat × List Byte)
  | [] => []
  | v :: vs => v.strings ++ stringsAll vs
end

mutual
/-- The sequences of elements with memory in an object, at any depth: the block, and the elements in it. -/
def Val.arrays : Val → List (Nat × List Val)
  | .str _ => []
  | .vec b _ es => (b.map fun b => (b, es)).toList ++ arraysAll es
  | .arr b es => (b.map fun b => (b, es)).toList ++ arraysAll es
  | .dict kb _ ks vb _ vs =>
    (kb.map fun b => (b, ks)).toList ++ arraysAll ks ++ ((vb.map fun b => (b, vs)).toList ++ arraysAll vs)
def arraysAll : List Val → List (Nat × List Val)
  | [] => []
  | v :: vs => v.arrays ++ arraysAll vs
end

/-- Somewhere in the variables is a string whose characters `t` are in block `b`: what a `StringView` of it refers to. -/
def Shows (vs : Vars) (b : Nat) (t : List Byte) : Prop := ∃ v, some v ∈ vs ∧ (b, t) ∈ v.strings

/-- Somewhere in the variables is a container whose elements `es` are in block `b`: what references to elements and iterators refer to. -/
def Holds (vs : Vars) (b : Nat) (es : List Val) : Prop := ∃ v, some v ∈ vs ∧ (b, es) ∈ v.arrays

/-- The statements that destroy something when they succeed. -/
def Op.destroys : Op → Bool
  | .pop _ | .clear _ | .null _ | .destroy _ => true
  | _ => false

/-- The statements that put another object in the place of an element. -/
def Op.exchanges : Op → Bool
  | .take _ _ | .store _ _ _ | .fetch _ _ | .change _ _ _ => true
  | _ => false

end Solace.Nested
