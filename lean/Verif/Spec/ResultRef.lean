import Verif.Model.ResultRef
/-
What a reference in a result depends on: which statements end an object, which give it another value, and which make a result refer to
something else.
-/
namespace Solace.ResRef

/-- The vector with number `i` has its elements in memory `b`. -/
def World.Holds (w : World) (i b : Nat) : Prop := (w.vecs i).buf = some b

instance (w : World) (i b : Nat) : Decidable (w.Holds i b) := by unfold World.Holds; infer_instance

/-- The statements that end the object at a place: the end of its scope; for elements, removing the last element when it is the one, removing
all, and the end of the vector that has them then. -/
def Ends (w : World) (p : Place) : Stmt → Prop
  | .endObj a => p = .obj a
  | .pop i => ∃ b k, p = .slot b k ∧ w.Holds i b ∧ (w.elems i).length = k + 1
  | .clear i | .dropVec i | .vec i _ | .moveVec i _ => ∃ b k, p = .slot b k ∧ w.Holds i b
  | _ => False

/-- The value a statement gives to the object at a place, if it does: by its name, through a result that refers to it, or by its index. -/
def written (w : World) (p : Place) : Stmt → Option Nat
  | .setObj a v => if p = .obj a then some v else none
  | .write r v | .thenSet _ r v =>
    match w.ress r with
    | .ok q => if q = p then some v else none
    | .error _ => none
  | .setAt i k v =>
    match p with
    | .slot b k' => if w.Holds i b ∧ k' = k then some v else none
    | .obj _ => none
  | _ => none

/-- The results a statement makes or changes. -/
def targets : Stmt → List Nat
  | .bind r _ | .fail r _ | .moveNew r _ | .thenSet r _ _ | .mapError r _ _ | .orElse r _ _ | .push r _ _ | .put r _ _ _ _ => [r]
  | .swap r s => [r, s]
  | _ => []

/-- A program runs and leaves the object at `p`, with value `v` at the start, and the result `r` in place; `v'` is the value given to the
object last. -/
def Follows (p : Place) (r : Nat) : World → List Stmt → Nat → Nat → Prop
  | _, [], v, v' => v = v'
  | w, s :: ss, v, v' =>
    ¬ Ends w p s ∧ r ∉ targets s ∧ ∃ w' o, step w s = .ok (w', o) ∧ Follows p r w' ss ((written w p s).getD v) v'

/-- The states programs reach: no two vectors have the same memory, and no more elements than room. -/
structure Sane (w : World) : Prop where
  alone : ∀ i j b, w.Holds i b → w.Holds j b → i = j
  there : ∀ i b, w.Holds i b → b < w.next ∧ ∃ es, w.bufs b = some es ∧ es.length ≤ (w.vecs i).cap
  later : ∀ b, w.next ≤ b → w.bufs b = none

end Solace.ResRef
