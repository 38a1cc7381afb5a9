import Verif.Model.Basic
/-
What it means to call a function of the caller on a list of arguments: in order, once each, until one call does not return.
-/
namespace Solace.Calls.Spec
variable {σ α β : Type}

/-- The state afterwards and how it ended. -/
def visit (f : σ → α → σ × Outcome Unit) : σ → List α → σ × Outcome Unit
  | s, [] => (s, .ok ())
  | s, x :: xs => if (f s x).2 = .ok () then visit f (f s x).1 xs else f s x

/-- The same for references: what was left in the elements visited, the rest as it was. -/
def visitRef (f : σ → α → (σ × α) × Outcome Unit) : σ → List α → (σ × List α) × Outcome Unit
  | s, [] => ((s, []), .ok ())
  | s, x :: xs =>
    if (f s x).2 = .ok () then
      (((visitRef f (f s x).1.1 xs).1.1, (f s x).1.2 :: (visitRef f (f s x).1.1 xs).1.2), (visitRef f (f s x).1.1 xs).2)
    else (((f s x).1.1, (f s x).1.2 :: xs), (f s x).2)

/-- The elements are replaced by the answers for their indices, from `i` on, up to the first call that does not return. -/
def replace (f : σ → Nat → σ × Outcome α) : σ → Nat → List α → (σ × List α) × Outcome Unit
  | s, _, [] => ((s, []), .ok ())
  | s, i, x :: xs =>
    match f s i with
    | (s', .ok y) => (((replace f s' (i + 1) xs).1.1, y :: (replace f s' (i + 1) xs).1.2), (replace f s' (i + 1) xs).2)
    | (s', .throws) => ((s', x :: xs), .throws)
    | (s', .terminate) => ((s', x :: xs), .terminate)
    | (s', .ub) => ((s', x :: xs), .ub)

/-- The first argument that is answered with `true`, if all calls before return `false`. -/
def first (f : σ → α → σ × Outcome Bool) : σ → List α → σ × Outcome (Option Nat)
  | s, [] => (s, .ok none)
  | s, x :: xs =>
    match f s x with
    | (s', .ok true) => (s', .ok (some 0))
    | (s', .ok false) => ((first f s' xs).1, (first f s' xs).2 >>= fun r => pure (r.map (· + 1)))
    | (s', .throws) => (s', .throws)
    | (s', .terminate) => (s', .terminate)
    | (s', .ub) => (s', .ub)

/-- The function, writing down its arguments. -/
def logged (f : σ → α → σ × Outcome Unit) (s : List α × σ) (x : α) : (List α × σ) × Outcome Unit :=
  ((s.1 ++ [x], (f s.2 x).1), (f s.2 x).2)

end Solace.Calls.Spec
