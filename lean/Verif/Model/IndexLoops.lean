import Verif.Model.NestedMemory
/-
Loops by index over vectors and arrays whose bodies change the very containers: `for (k = 0; k < v.size(); ++k) { ... v[k] ... }`, and
`while (!v.empty()) v.pop_back()`. The containers, the memory and the single statements are those of `Verif.Model.NestedMemory`.

Unlike a range `for` (`Verif.Model.Loops`), such a loop asks for the size again in every round, and for the element by its index. Sizes are below
2^64, so the index does not wrap.
-/
namespace Solace.Nested
open PathMem

/-- A body: the statements it consists of in round `k`, which may depend on everything. -/
abbrev Body := Nat → Prog → List Op

/-- `for (; k < i.size(); ++k) { auto& x = i[k]; body }`: `size()`, vector.hpp:130 and array.hpp:144-146; `[]`, vector.hpp:234-236 and
array.hpp:148-154 with arrayView.hpp:166-177, which throws out of range. The elements that the rounds were given, and the end; a loop over a variable
that is no longer there is undefined. `none`: the loop does not end within the fuel. -/
def indexLoop (g : Policy) (i : Nat) (body : Body) : Nat → Nat → Prog → Option (List Val × Outcome Prog)
  | 0, _, _ => none
  | fuel + 1, k, p =>
    match (get p.vars i).bind Val.elems with
    | none => some ([], .ub)
    | some es =>
      if k < es.length then
        match es[k]? with
        | none => some ([], .throws)
        | some x =>
          match run g p (body k p) with
          | .ok q =>
            match indexLoop g i body fuel (k + 1) q with
            | none => none
            | some r => some (x :: r.1, r.2)
          | .throws => some ([x], .throws)
          | .terminate => some ([x], .terminate)
          | .ub => some ([x], .ub)
      else some ([], .ok p)

/-- `while (!i.empty()) i.pop_back()` for a vector: `empty()`, vector.hpp:124. -/
def drain (g : Policy) (i : Nat) : Nat → Prog → Option (Outcome Prog)
  | 0, _ => none
  | fuel + 1, p =>
    match (get p.vars i).bind Val.elems with
    | none => some .ub
    | some es =>
      if es.length = 0 then some (.ok p)
      else
        match step g p (.pop i) with
        | .ok r => drain g i fuel r.1
        | .throws => some .throws
        | .terminate => some .terminate
        | .ub => some .ub

end Solace.Nested
