import Verif.Model.LiteralWorld

/-
What `StringLiteral` promises, and the statements that break the promise.
-/
namespace Solace.Literal

/-- The view refers to nothing or to a literal in the source. -/
def Lasting (w : World) (v : View) : Prop :=
  ∀ i off, v.data = some (i, off) → ∃ a, w.arrs[i]? = some a ∧ a.storage = .literal

/-- The promise of the type: every variable of type `StringLiteral` refers to a literal. -/
def Promise (w : World) : Prop := ∀ u ∈ w.vars, u.literal = true → Lasting w u.view

/-- The statements that break it: a `StringLiteral` made of an array that is no literal, and exchanging a `StringLiteral` with a
`StringView` of such an array. -/
def Breaks (w : World) : Op → Prop
  | .literal i => ∃ a, w.arrs[i]? = some a ∧ a.live = true ∧ a.storage ≠ .literal
  | .swap x y => ∃ u v, w.vars[x]? = some u ∧ w.vars[y]? = some v ∧
      ((u.literal = true ∧ v.literal = false ∧ ¬Lasting w v.view) ∨ (u.literal = false ∧ v.literal = true ∧ ¬Lasting w u.view))
  | _ => False

/-- No statement of the program breaks the promise. -/
def Clean (w : World) : List Op → Prop
  | [] => True
  | op :: rest => ¬Breaks w op ∧ Clean (step w op) rest

end Solace.Literal
