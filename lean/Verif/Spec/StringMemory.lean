import Verif.Model.StringMemory
import Verif.Spec.PathMemory
/- What it means that strings, versions and builders lose no block of memory and give none back twice. -/
namespace Solace.StrMem
open PathMem

/-- The blocks a value has to give back. -/
def Val.blocks : Val → List Nat
  | .str o => o.blocks
  | .ver _ _ _ pre build => pre.blocks ++ build.blocks
  | .bld b _ => b.toList

/-- The blocks of all variables alive. -/
def allBlocks (vs : Vars) : List Nat := vs.flatMap fun o => (o.map Val.blocks).getD []

/-- The blocks given out are exactly those of the variables. -/
def Inv (p : Prog) : Prop := Owns p.heap (allBlocks p.vars)

/-- What a function that makes a string guarantees: a string with one more block and the text that is wanted, or the error that is wanted and
no more blocks. -/
def Exact (h : Heap) (rest : List Nat) (h' : Heap) (r : Except Err SObj) (want : Except Err Str) : Prop :=
  (match r with
    | .ok o => Owns h' (o.blocks ++ rest) ∧ h'.refused = h.refused
    | .error _ => Owns h' rest) ∧
  r.map SObj.text = want.map Str.view

/-- The statements that are undefined whatever the memory manager does: a replacement whose length overflows, a version that is read past the
end of its memory. -/
def Bad (vs : Vars) : Op → Prop
  | .replace fuel s what by' => ∃ t w d n, s.view vs = some t ∧ what.view vs = some w ∧ by'.view vs = some d ∧
      StringView.split3Count t w fuel 0 0 = some n ∧ 2 ^ 31 ≤ t.length + d.length * n
  | .parse s after => ∃ t, s.view vs = some t ∧ Version.numbers t (t ++ after) = .ub
  | _ => False

end Solace.StrMem
