import Verif.Model.Compare
/-
When two values of a type are equal: their parts are. Nothing here speaks of objects, addresses, or the order in which parts
are looked at.
-/
namespace Solace.Cmp

/-- As many elements, related place by place. -/
def Elementwise {α : Type} (R : α → α → Prop) (a b : List α) : Prop :=
  a.length = b.length ∧ ∀ (i : Nat) (x y : α), a[i]? = some x → b[i]? = some y → R x y

/-- Both empty, or both with related content. -/
def Optionwise {α : Type} (R : α → α → Prop) (a b : Option α) : Prop :=
  (a = none ↔ b = none) ∧ ∀ x y, a = some x → b = some y → R x y

/-- Equal values. Of a version the build label does not count, of an error the tag. For a type of the caller the caller
decides. -/
def Equal : (t : Ty) → t.Val → t.Val → Prop
  | .own _ e _, a, b => e a b = true
  | .unit, _, _ => True
  | .string, a, b => (a : List Byte) = b
  | .memory, a, b => (a : List Byte) = b
  | .error, a, b => ErrorValue.domain a = ErrorValue.domain b ∧ ErrorValue.code a = ErrorValue.code b
  | .uuid, a, b => a.1 = b.1
  | .version, a, b =>
    (Version.major a, Version.minor a, Version.patch a, Version.preRelease a) =
      (Version.major b, Version.minor b, Version.patch b, Version.preRelease b)
  | .path, a, b => Path.comps a = Path.comps b
  | .digest, a, b => (a : List Byte) = b
  | .optional t, a, b => Optionwise (α := t.Val) (fun x y => Equal t x y) a b
  | .array t, a, b => Elementwise (α := t.Val) (fun x y => Equal t x y) a b
  | .vector t, a, b => Elementwise (α := t.Val) (fun x y => Equal t x y) a b
  | .view t, a, b => Elementwise (α := t.Val) (fun x y => Equal t x y) a b
  | .result v e, a, b =>
    (∃ x y, a = .inl x ∧ b = .inl y ∧ Equal v x y) ∨ (∃ x y, a = .inr x ∧ b = .inr y ∧ Equal e x y)
  | .voidResult e, a, b => Optionwise (α := e.Val) (fun x y => Equal e x y) a b

/-- What is required of the `==` of the caller's types in a type. -/
def Own (P : (α : Type) → (α → α → Bool) → (α → α → Bool) → Prop) : Ty → Prop
  | .own α e n => P α e n
  | .optional t => Own P t
  | .array t => Own P t
  | .vector t => Own P t
  | .view t => Own P t
  | .result v e => Own P v ∧ Own P e
  | .voidResult e => Own P e
  | _ => True

/-- A value equals itself. -/
def Reflexive (t : Ty) : Prop := Own (fun _ e _ => ∀ a, e a a = true) t

/-- `==` of the caller's types is an equivalence. -/
def Equivalent (t : Ty) : Prop :=
  Own (fun _ e _ => (∀ a, e a a = true) ∧ (∀ a b, e a b = true → e b a = true) ∧
    ∀ a b c, e a b = true → e b c = true → e a c = true) t

/-- `!=` of the caller's types is the opposite of their `==`. -/
def Opposite (t : Ty) : Prop := Own (fun _ e n => ∀ a b, n a b = !e a b) t

/-- `==` of the caller's types tells all values apart. -/
def Exact (t : Ty) : Prop := Own (fun _ e _ => ∀ a b, e a b = true ↔ a = b) t

/-- No errors, versions or paths in the type: everything in a value counts. -/
def Plain : Ty → Prop
  | .error => False
  | .version => False
  | .path => False
  | .optional t => Plain t
  | .array t => Plain t
  | .vector t => Plain t
  | .view t => Plain t
  | .result v e => Plain v ∧ Plain e
  | .voidResult e => Plain e
  | _ => True

/-- The same object has the same value, and as many elements from the same address are the same. -/
structure Ids.Real (ids : Ids) : Prop where
  object : ∀ p t a b, ids.object p t a b = true → a = b
  memory : ∀ p t (as bs : List t.Val), ids.memory p t as bs = true → as.length = bs.length → as = bs

end Solace.Cmp
