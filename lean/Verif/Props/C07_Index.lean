import Verif.Lemmas.MemoryView
/-! C07, `operator[]` on views and on slices of views. -/
namespace Solace

/-- **C07**: `operator[]` on a slice gives the byte of the view at the shifted index when that lies in the slice, and throws for every
other index (it does not end the program and reads nothing). -/
theorem C07_index (v : List Byte) (f t i : Nat) :
    (∀ b, MemoryView.at (MemoryView.slice v f t) i = .ok b ↔ f + i < t ∧ v[f + i]? = some b) ∧
    (¬(f + i < t ∧ f + i < v.length) → MemoryView.at (MemoryView.slice v f t) i = .throws) := by
  have e : (MemoryView.slice v f t)[i]? = if f + i < t then v[f + i]? else none := by
    rw [slice_eq, List.getElem?_take, List.getElem?_drop]
    by_cases h : f + i < t
    · rw [if_pos h, if_pos (by omega)]
    · rw [if_neg h, if_neg (by omega)]
  rw [MemoryView.at, e]
  refine ⟨fun b => ?_, fun h => ?_⟩
  · by_cases h : f + i < t
    · rw [if_pos h]
      cases hv : v[f + i]? with
      | none => simp
      | some c => simp [h]
    · rw [if_neg h]
      simp [h]
  · by_cases h1 : f + i < t
    · rw [if_pos h1, List.getElem?_eq_none (by omega)]
    · rw [if_neg h1]

/-- **C07**: `operator[]` on a whole view. -/
theorem C07_index_whole (v : List Byte) (i : Nat) :
    (∀ b, MemoryView.at v i = .ok b ↔ v[i]? = some b) ∧ (v.length ≤ i → MemoryView.at v i = .throws) := by
  have h := C07_index v 0 v.length i
  have e : MemoryView.slice v 0 v.length = v := by rw [slice_eq]; simp
  rw [e, Nat.zero_add] at h
  refine ⟨fun b => (h.1 b).trans ⟨fun k => k.2, fun k => ⟨?_, k⟩⟩, fun k => h.2 (by omega)⟩
  exact (List.getElem?_eq_some_iff.mp k).1

example : MemoryView.at (MemoryView.slice [1#8, 2#8, 3#8, 4#8] 1 3) 1 = .ok 3#8 ∧
    MemoryView.at (MemoryView.slice [1#8, 2#8, 3#8, 4#8] 1 3) 2 = .throws := by decide

end Solace
