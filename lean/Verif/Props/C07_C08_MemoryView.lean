import Verif.Lemmas.MemoryView
/-
C07 (slicing is clamped and composes) and C08 (view copies touch exactly the intended range).
-/
namespace Solace

/-- **C07, content**: element `i` of the slice is element `from + i` of the view, and the slice has exactly
`min(to, size) - min(from, size)` elements (none when `to ≤ from`). -/
theorem C07_slice_clamped (v : List Byte) (f t : Nat) :
    (MemoryView.slice v f t).length = min t v.length - min f v.length ∧
    ∀ i, i < (MemoryView.slice v f t).length →
      f + i < v.length ∧ f + i < t ∧ (MemoryView.slice v f t)[i]? = v[f + i]? := by
  constructor
  · rw [slice_length]; omega
  · intro i hi
    rw [slice_length] at hi
    refine ⟨by omega, by omega, ?_⟩
    rw [slice_eq, List.getElem?_take_of_lt (by omega), List.getElem?_drop]

/-- **C07, composition**: slicing a slice is one slice with added offsets, clamped to the outer slice. -/
theorem C07_slice_slice (v : List Byte) (a b c d : Nat) :
    MemoryView.slice (MemoryView.slice v a b) c d = MemoryView.slice v (a + c) (min (a + d) b) := by
  simp only [slice_eq]
  rw [List.drop_take, List.drop_drop, List.take_take]
  congr 1
  omega

/-- **C07 for mutable views**: the aliasing slice designates the same range (or is empty). -/
theorem C07_mutable_slice (v : List Byte) (f t : Nat) :
    (v.drop (MutableMemoryView.slice v.length f t).1).take (MutableMemoryView.slice v.length f t).2
      = MemoryView.slice v f t ∧
    (MutableMemoryView.slice v.length f t).1 + (MutableMemoryView.slice v.length f t).2 ≤ v.length := by
  unfold MutableMemoryView.slice
  split
  · subst_vars
    constructor
    · simp [slice_eq]
    · simp
  · simp only
    constructor
    · unfold MemoryView.slice
      simp only
      rw [Nat.min_comm v.length]
    · omega

example : MemoryView.slice [1, 2, 3, 4, 5] 1 4 = [2, 3, 4] ∧ MemoryView.slice [1, 2, 3] 2 (2 ^ 64 - 1) = [3] := by
  decide +kernel

/-- **C08, write**: on success the destination is the source followed by its own untouched rest; on failure nothing
changes; it succeeds exactly when the destination is not null and the source fits. -/
theorem C08_write (v : MutView) (src : List Byte) :
    ((∃ e, (v.write src).2 = .error e ∧ (v.write src).1 = v) ∨
      ((v.write src).2 = .ok () ∧ (v.write src).1.bytes.length = v.bytes.length ∧
        (∀ i, i < src.length → (v.write src).1.bytes[i]? = src[i]?) ∧
        (∀ i, src.length ≤ i → (v.write src).1.bytes[i]? = v.bytes[i]?))) ∧
    ((v.write src).2 = .ok () ↔ v.null = false ∧ src.length ≤ v.bytes.length) := by
  unfold MutView.write
  split
  · rename_i h
    exact ⟨.inl ⟨_, rfl, rfl⟩, by simp [h]⟩
  · rename_i h
    split
    · rename_i h2
      refine ⟨.inl ⟨_, rfl, rfl⟩, ?_⟩
      constructor
      · intro hc; cases hc
      · intro ⟨_, hc⟩; omega
    · rename_i h2
      refine ⟨.inr ⟨rfl, ?_, ?_, ?_⟩, ?_⟩
      · simp; omega
      · intro i hi; exact List.getElem?_append_left hi
      · intro i hi
        simp only
        rw [List.getElem?_append_right hi, List.getElem?_drop]
        congr 1; omega
      · simp at h; simp [h]; omega

/-- **C08, read**: fills exactly the destination with the front of the view, or fails and leaves it unchanged; succeeds
exactly when the view has enough bytes. -/
theorem C08_read (v dest : MutView) :
    ((∃ e, (v.read dest).2 = .error e ∧ (v.read dest).1 = dest) ∨
      ((v.read dest).2 = .ok () ∧ (v.read dest).1.bytes.length = dest.bytes.length ∧
        ∀ i, i < dest.bytes.length → (v.read dest).1.bytes[i]? = v.bytes[i]?)) ∧
    ((v.read dest).2 = .ok () ↔ dest.bytes.length ≤ v.bytes.length) := by
  unfold MutView.read
  split
  · rename_i h
    refine ⟨.inl ⟨_, rfl, rfl⟩, ?_⟩
    constructor
    · intro hc; cases hc
    · intro _; omega
  · rename_i h
    refine ⟨.inr ⟨rfl, by simp; omega, ?_⟩, by simp; omega⟩
    intro i hi
    exact List.getElem?_take_of_lt hi

/-- **C08, fill**: every byte of the view, and the size is unchanged. -/
theorem C08_fill (v : MutView) (b : Byte) :
    (v.fill b).bytes.length = v.bytes.length ∧ ∀ x ∈ (v.fill b).bytes, x = b := by
  constructor
  · simp [MutView.fill]
  · intro x hx
    exact (List.mem_replicate.mp hx).2

/-- Empty writes to an empty (null) view are reported as errors by the code; a non-null view accepts them. -/
theorem C08_empty_write_to_null : (MutView.write ⟨true, []⟩ []).2 = .error .dom ∧
    (MutView.write ⟨false, []⟩ []).2 = .ok () := by
  decide

example : (MutView.write ⟨false, [1, 2, 3]⟩ [8, 9]) = (⟨false, [8, 9, 3]⟩, .ok ()) ∧
    (MutView.read ⟨false, [1, 2, 3]⟩ ⟨false, [0, 0]⟩) = (⟨false, [1, 2]⟩, .ok ()) := by decide

/-- **C08, equality** of views is equality of contents. -/
theorem C08_equals (a b : List Byte) : MemoryView.equals a b = true ↔ a = b := by
  unfold MemoryView.equals
  split
  · rename_i h
    constructor
    · intro hc; cases hc
    · intro hc; subst hc; exact absurd rfl h
  · exact beq_iff_eq

example : MemoryView.equals [1, 2] [1, 3] = false := by decide

end Solace
