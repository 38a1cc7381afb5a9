import Verif.Props.C69_ArrayView
/-! C69: equality and slices for all elements and indices. -/
namespace Solace.ArrayView

theorem take_drop_clamped (mem : List Byte) (F T : Nat) :
    (mem.drop (min F mem.length)).take (min mem.length (max T (min F mem.length)) - min F mem.length) =
      (mem.take T).drop F := by
  rw [List.drop_take]
  by_cases hF : F ≤ mem.length
  · rw [Nat.min_eq_left hF]
    by_cases hT : T ≤ mem.length
    · congr 1
      omega
    · rw [List.take_of_length_le (by rw [List.length_drop]; omega), List.take_of_length_le (by rw [List.length_drop]; omega)]
  · rw [List.drop_eq_nil_of_le (by omega), List.drop_eq_nil_of_le (by omega), List.take_nil, List.take_nil]

/-- **C69, exactly, slices**: for all indices, of both kinds of array views: the bytes from `from * sizeof(T)` on and before
`to * sizeof(T)`, both modulo 2^64, as far as the view has them. -/
theorem C69_slice_exact (sz : Nat) (v : ArrayView) (f t : Nat) :
    (slice sz v f t).mem = (v.mem.take (t * sz % 2 ^ 64)).drop (f * sz % 2 ^ 64) ∧
    (sliceMut sz v f t).mem = (v.mem.take (t * sz % 2 ^ 64)).drop (f * sz % 2 ^ 64) := by
  constructor
  · rw [slice, MemoryView.slice, wrap64_def, wrap64_def]
    exact take_drop_clamped _ _ _
  · rw [sliceMut, MutableMemoryView.slice, wrap64_def, wrap64_def]
    by_cases h : f * sz % 2 ^ 64 = t * sz % 2 ^ 64
    · rw [if_pos h, h]
      simp
    · rw [if_neg h]
      simp only [Nat.min_comm (max (t * sz % 2 ^ 64) (min (f * sz % 2 ^ 64) v.mem.length))]
      exact take_drop_clamped _ _ _

/-- **C69, exactly, equality**: the sizes are the same, and the views start at the same address or the elements are equal one
by one. -/
theorem C69_equals_exact (sz : Nat) (eq : List Byte → List Byte → Bool) (a b : ArrayView) :
    equals sz eq a b = true ↔
      size sz a = size sz b ∧
        (a.address = b.address ∨ ∀ i < size sz a, eq (element sz a.mem i) (element sz b.mem i) = true) := by
  by_cases hadr : a.address = b.address
  · rw [equals]
    by_cases hs : size sz a = size sz b
    · rw [if_neg (by simpa using hs), if_pos hadr]
      exact ⟨fun _ => ⟨hs, .inl hadr⟩, fun _ => rfl⟩
    · rw [if_pos hs]
      exact ⟨fun h => (by cases h), fun h => absurd h.1 hs⟩
  · rw [C69_equals_partial sz eq a b (fun h => absurd h hadr) (.inr hadr)]
    exact ⟨fun h => ⟨h.1, .inr h.2⟩, fun ⟨h1, h2⟩ => ⟨h1, h2.resolve_left hadr⟩⟩

/-- **C69, exactly when**: equality is that of the elements unless the views have the same address and size and an element that
is not equal to itself. (Views at the same address see the same memory.) -/
theorem C69_equals_iff (sz : Nat) (eq : List Byte → List Byte → Bool) (a b : ArrayView)
    (hmem : a.address = b.address → ∀ i < size sz a, i < size sz b → element sz a.mem i = element sz b.mem i) :
    (equals sz eq a b = true ↔
        size sz a = size sz b ∧ ∀ i < size sz a, eq (element sz a.mem i) (element sz b.mem i) = true) ↔
      ¬(a.address = b.address ∧ size sz a = size sz b ∧
        ∃ i < size sz a, eq (element sz a.mem i) (element sz a.mem i) = false) := by
  rw [C69_equals_exact]
  constructor
  · rintro h ⟨h1, h2, i, hi, h3⟩
    have := (h.1 ⟨h2, .inl h1⟩).2 i hi
    rw [← hmem h1 i hi (by omega), h3] at this
    cases this
  · intro h
    refine ⟨fun ⟨h1, h2⟩ => ⟨h1, fun i hi => ?_⟩, fun ⟨h1, h2⟩ => ⟨h1, .inr h2⟩⟩
    rcases h2 with h2 | h2
    · rw [← hmem h2 i hi (by omega)]
      cases hc : eq (element sz a.mem i) (element sz a.mem i) with
      | true => rfl
      | false => exact absurd ⟨h2, h1, i, hi, hc⟩ h
    · exact h2 i hi

example : (slice 2 ⟨0, [1#8, 2#8, 3#8, 4#8, 5#8]⟩ (2 ^ 63 + 1) 9).mem = [3#8, 4#8, 5#8] := by
  rw [(C69_slice_exact _ _ _ _).1]
  decide
example : equals 1 (fun x y => x == y && x != [9#8]) ⟨0, [9#8]⟩ ⟨0, [9#8]⟩ = true := by decide

end Solace.ArrayView
