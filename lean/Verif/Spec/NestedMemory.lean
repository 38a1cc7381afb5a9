import Verif.Model.NestedMemory
import Verif.Spec.PathMemory
/- What it means that containers of owning objects lose no block of memory and give none back twice. -/
namespace Solace.Nested
open PathMem

mutual
/-- The blocks an object has to give back. -/
def Val.blocks : Val → List Nat
  | .str o => o.blocks
  | .vec b _ es => b.toList ++ blocksAll es
  | .arr b es => b.toList ++ blocksAll es
  | .dict kb _ ks vb _ vs => kb.toList ++ blocksAll ks ++ (vb.toList ++ blocksAll vs)
def blocksAll : List Val → List Nat
  | [] => []
  | v :: vs => v.blocks ++ blocksAll vs
end

/-- The blocks of all variables alive, with those of their elements, and of their elements, and so on. -/
def allBlocks (vs : Vars) : List Nat := vs.flatMap fun o => (o.map Val.blocks).getD []

/-- The blocks given out are exactly those of the variables. -/
def Inv (p : Prog) : Prop := Owns p.heap (allBlocks p.vars)

/-- The statements that are undefined whatever the memory manager grants: elements whose sizes add up to more than the address space, and a key
whose position is past the end of the values (a dictionary made from vectors of different lengths). The first is undefined only
if the request, whose size has wrapped, is granted. -/
def Bad (granted : Nat → Prop) (vs : Vars) : Op → Prop
  | .vectorOf sz is => (moveAll vs is).isSome ∧ granted (wrap64 (is.length * sz)) ∧ wrap64 (is.length * sz) / sz < is.length
  | .arrayOf sz is => (moveAll vs is).isSome ∧ granted (wrap64 (is.length * sz)) ∧ wrap64 (is.length * sz) / sz < is.length
  | .fetch i key => ∃ kb kc ks vb vc xs n, get vs i = some (.dict kb kc ks vb vc xs) ∧ position key ks = some n ∧ xs.length ≤ n
  | .change i key j => (get vs j).isSome ∧
      ∃ kb kc ks vb vc xs n, get vs i = some (.dict kb kc ks vb vc xs) ∧ position key ks = some n ∧ xs.length ≤ n
  | _ => False

/-- `nullptr` is assigned to an array whose elements own memory: the elements are destroyed, but they stay in the array. -/
def Doubled (vs : Vars) : Op → Prop
  | .null i => ∃ b es, get vs i = some (.arr b es) ∧ blocksAll es ≠ []
  | _ => False

end Solace.Nested
