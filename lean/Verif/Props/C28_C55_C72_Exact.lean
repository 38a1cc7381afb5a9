import Verif.Props.C21_C28_StringView
import Verif.Props.C55_C56_OptionalResult
/-! C28, C55, C72: exactly when they hold. -/
namespace Solace

namespace StringView

/-- **C28, exactly**: the three-argument variant returns exactly for a non-empty delimiter or an empty string; the other variants
always do. -/
theorem C28_iff (s d : List Byte) (hs : s.length < 2 ^ 16) :
    ((∃ fuel, (split3 fuel s d).isSome) ↔ (d ≠ [] ∨ s = [])) ∧ ∃ fuel, (split1 fuel s d).isSome := by
  refine ⟨⟨?_, fun h => ⟨s.length + 1, (C28_terminates_partial s d hs _ (Nat.lt_succ_self _)).2 h⟩⟩,
    ⟨s.length + 1, (C28_terminates_partial s d hs _ (Nat.lt_succ_self _)).1⟩⟩
  rintro ⟨fuel, h⟩
  refine Classical.byContradiction fun hn => ?_
  have h1 : d = [] := Classical.byContradiction fun e => hn (.inl e)
  have h2 : s ≠ [] := fun e => hn (.inr e)
  subst h1
  rw [C28_empty_delimiter_diverges s h2 hs fuel] at h
  cases h

/-- **C72, exactly**, `startsWith(char)`: a null view starts with the zero character only; any other view is taken to start with
the byte at its address, also when the view is empty, and there is none exactly if no memory follows an empty view. -/
theorem C72_startsWith_char_exact (null : Bool) (s after : List Byte) (c : Byte) :
    startsWithChar null s after c =
      if null then .ok (c == 0#8)
      else if s ≠ [] then .ok (s.head? == some c)
      else if after ≠ [] then .ok (after.head? == some c) else .ub := by
  cases null with
  | true => simp [startsWithChar]
  | false =>
    cases s with
    | cons x s => simp [startsWithChar]
    | nil => cases after <;> simp [startsWithChar]

/-- **C72, exactly**: the answer for a view is that of its first character, and defined, exactly if the view is not an empty one
over existing memory (or the memory behind it happens to hold the same answer). -/
theorem C72_iff (s : List Byte) (c : Byte) :
    (∀ after, startsWithChar false s after c = .ok (s.head? == some c)) ↔ s ≠ [] := by
  refine ⟨fun h e => ?_, fun h after => ?_⟩
  · have := h []
    rw [C72_startsWith_char_exact, e] at this
    simp at this
  · rw [C72_startsWith_char_exact]
    simp [h]

example : (∃ fuel, (split3 fuel [0x61#8] [0x2C#8]).isSome) := ((C28_iff [0x61#8] [0x2C#8] (by decide)).1).mpr (.inl (by decide))

end StringView

namespace Opt
variable {T U W : Type}

/-- **C55, exactly**, `map` with a function that returns an `Optional`: the result is that of `flatMap`, wrapped once more; it is
never an engaged `Optional` holding an empty one. -/
theorem C55_map_optional (f : T → Option U) (o : Option T) :
    map ofOptional f o = map ofValue some (flatMap f o) ∧ map ofOptional f o ≠ some none := by
  cases o with
  | none => exact ⟨rfl, by simp [map]⟩
  | some x =>
    simp only [map, flatMap, ofOptional, ofValue]
    cases f x <;> simp

/-- **C55, exactly**, the functor law for a function that returns an `Optional`: it holds with every second function exactly if
the first never returns an empty one. -/
theorem C55_functor_iff (f : T → Option U) :
    (∀ (g : Option U → Bool) (o : Option T), map ofValue g (map ofOptional f o) = map ofValue (g ∘ f) o) ↔ ∀ x, f x ≠ none := by
  constructor
  · intro h x hx
    have := h Option.isNone (some x)
    simp [map, ofOptional, ofValue, hx] at this
  · intro h g o
    cases o with
    | none => rfl
    | some x =>
      simp only [map, ofOptional, ofValue, Function.comp]
      cases hx : f x with
      | none => exact absurd hx (h x)
      | some y => rfl

example : ∃ f : Nat → Option Nat, ∀ x, f x ≠ none := ⟨some, by simp⟩

end Opt
end Solace
