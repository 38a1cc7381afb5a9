import Verif.Model.ResultTypes

/-
What chains of results of different types should do, without overloads, constructors or conversions.
-/
namespace Solace.ResTy

/-- The numbers of a type. -/
def InRange : Base → Int → Prop
  | .int b true, n => -(2 ^ (b - 1)) ≤ n ∧ n < 2 ^ (b - 1)
  | .int b false, n => 0 ≤ n ∧ n < 2 ^ b
  | .cls _, _ => True

/-- Integer types have at least one bit. -/
def Base.Proper : Base → Prop
  | .int b _ => 0 < b
  | .cls _ => True

/-- All values of `S` are values of `T`: the same class, or integers with a wider range. -/
def Keeps : Base → Base → Prop
  | .int b s, .int b' s' => ∀ n, InRange (.int b s) n → InRange (.int b' s') n
  | .cls i, .cls j => i = j
  | _, _ => False

/-- The state fits the type. -/
def Fits (t : RTy) : St → Prop
  | .good none => t.val = none
  | .good (some n) => ∃ b, t.val = some b ∧ InRange b n
  | .bad e => InRange t.err e

def RTy.Proper (t : RTy) : Prop := (∀ b, t.val = some b → b.Proper) ∧ t.err.Proper

def Ret.Proper : Ret → Prop
  | .void => True
  | .plain t => t.Proper
  | .res v e => (∀ b, v = some b → b.Proper) ∧ e.Proper
  | .ok v => ∀ b, v = some b → b.Proper
  | .err e => e.Proper

/-- A handler returning an `Ok`, an `Err` or a `Result`. -/
def Ret.ResultLike : Ret → Prop
  | .res _ _ | .ok _ | .err _ => True
  | _ => False

/-- The type after a stage: a result stays what it is, `Ok` and `Err` fill in what they do not say from the type before, a plain answer is
a value — an error for `mapError` — and no answer is `void`. -/
def typeAfter (k : Kind) (t : RTy) : Ret → RTy
  | .void => ⟨none, t.err⟩
  | .plain b => match k with
    | .mapError => ⟨t.val, b⟩
    | _ => ⟨some b, t.err⟩
  | .res v e => ⟨v, e⟩
  | .ok v => ⟨v, t.err⟩
  | .err e => ⟨t.val, e⟩

/-- The two tracks: `then` answers values, the others answer errors, what is not answered passes. -/
def ride : List Stage → St → St
  | [], s => s
  | g :: rest, s =>
    ride rest (match g.kind, s with
      | .andThen, .good v => g.onGood v
      | .andThen, .bad e => .bad e
      | _, .good v => .good v
      | _, .bad e => g.onBad e)

/-- The handler gives what its type says: answers fit the type after the stage. -/
def Honest (g : Stage) : Prop :=
  ∀ t : RTy, (g.kind = .andThen → ∀ v, Fits (typeAfter g.kind t g.ret) (g.onGood v)) ∧
    (g.kind ≠ .andThen → ∀ e, Fits (typeAfter g.kind t g.ret) (g.onBad e))

/-- The types of a chain, from the kinds and the types handlers return. -/
def typesAfter : List Stage → RTy → RTy
  | [], t => t
  | g :: rest, t => typesAfter rest (typeAfter g.kind t g.ret)

end Solace.ResTy
