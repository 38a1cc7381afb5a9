import Verif.Model.PathMemory
/- What it means that no block of memory is lost or given back twice. -/
namespace Solace.PathMem

/-! ### The blocks an object has to give back -/

def SObj.blocks (o : SObj) : List Nat := o.block.toList

def strBlocks (os : List SObj) : List Nat := os.flatMap SObj.blocks

def VObj.blocks (v : VObj) : List Nat := v.block.toList ++ strBlocks v.elems

def PObj.blocks (p : PObj) : List Nat := p.block.toList ++ strBlocks p.elems

/-- The blocks given out are exactly these, each given out once. -/
structure Owns (h : Heap) (bs : List Nat) : Prop where
  count : ∀ b, h.live.count b = bs.count b
  nodup : h.live.Nodup
  fresh : ∀ b ∈ h.live, b < h.next

/-- A granted request gives a view of the size asked for that is not null. -/
def Fair (g : Policy) : Prop := ∀ (k n : Nat) (v : MutView), g k n = .ok v → v.null = false ∧ v.bytes.length = n

/-- What a function that makes a string or a path guarantees: on success the blocks of what it made are added and nothing was
refused, on failure none is added and, if granted memory is good, a request was refused. -/
def Made {α : Type} (g : Policy) (h : Heap) (rest : List Nat) (blocks : α → List Nat) (good : α → Prop)
    (h' : Heap) : Except Err α → Prop
  | .ok a => Owns h' (blocks a ++ rest) ∧ h'.refused = h.refused ∧ (Fair g → good a)
  | .error _ => Owns h' rest ∧ h.refused ≤ h'.refused ∧ (Fair g → h.refused < h'.refused)

/-- The blocks of all paths alive. -/
def varBlocks (vs : Vars) : List Nat := vs.flatMap fun o => (o.map PObj.blocks).getD []

/-- What joining is meant to give: the components of the arguments one after the other, where a path that was moved by an
earlier argument has only empty components left. -/
def expected (vs : Vars) : List Arg → List (List Byte)
  | [] => []
  | .str s :: as => s :: expected vs as
  | .copy i :: as =>
    match getVar vs i with
    | none => []
    | some p => p.elems.map SObj.text ++ expected vs as
  | .move i :: as =>
    match getVar vs i with
    | none => []
    | some p => p.elems.map SObj.text ++ expected (vs.set i (some { p with elems := p.elems.map fun _ => .empty })) as

end Solace.PathMem
