import Verif.Model.Loops
import Verif.Spec.NestedViews
/- What a loop asks of its body. -/
namespace Solace.Nested
open PathMem

/-- The statement destroys none of the first `n` elements in block `b`, and does not give the block back: what it removes, if anything, are elements
behind them, or objects that do not contain the block. (A call of `put` without room destroys the key given to it, and if it finds no room for the key
also the value.) -/
def Spares (vs : Vars) (b n : Nat) : Op → Prop
  | .pop i => ∀ c m es, get vs i = some (.vec c m es) → (c = some b → n < es.length) ∧ ∀ x, es.getLast? = some x → b ∉ x.blocks
  | .clear i => ∀ v, get vs i = some v → b ∉ v.blocks
  | .null i => ∀ v, get vs i = some v → b ∉ v.blocks
  | .destroy i => ∀ v, get vs i = some v → b ∉ v.blocks
  | .put i j k => ∀ kb kc ks vb vc xs, get vs i = some (.dict kb kc ks vb vc xs) → vc ≤ xs.length ∨ kc ≤ ks.length →
      ∀ v, get vs j = some v ∨ get vs k = some v → b ∉ v.blocks
  | _ => True

/-- Everything done in loops spares the elements they go through; and no array that owns memory is assigned `nullptr` (see C132). -/
def Careful (log : List Event) : Prop :=
  ∀ e ∈ log, (∀ a ∈ e.active, Spares e.state.vars a.1 a.2 e.op) ∧ ¬ Doubled e.state.vars e.op

/-- No statement puts another object in the place of an element. -/
def Plain (log : List Event) : Prop := ∀ e ∈ log, e.op.exchanges = false

/-- The body once for each of these elements, in order: what a loop is meant to be. -/
def unrolled (body : Nat → Val → Stmt) : Nat → List Val → Stmt
  | _, [] => .skip
  | k, x :: es => .seq (body k x) (unrolled body (k + 1) es)

/-- The same for the entries of a dictionary. -/
def unrolled2 (body : Nat → Val → Val → Stmt) : Nat → List Val → List Val → Stmt
  | k, x :: ks, y :: vs => .seq (body k x y) (unrolled2 body (k + 1) ks vs)
  | _, _, _ => .skip

end Solace.Nested
