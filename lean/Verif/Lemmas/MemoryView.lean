import Verif.Model.MemoryView
namespace Solace

/-- A slice is a window of the list. -/
theorem slice_eq (v : List Byte) (f t : Nat) :
    MemoryView.slice v f t = (v.drop f).take (t - f) := by
  unfold MemoryView.slice
  simp only
  rcases Nat.le_total v.length f with h | h
  · rw [List.drop_eq_nil_of_le h, Nat.min_eq_right h]
    simp
  · rw [Nat.min_eq_left h]
    rcases Nat.le_total t f with h2 | h2
    · have : min v.length (max t f) - f = 0 := by omega
      rw [this, Nat.sub_eq_zero_of_le h2]
    · rw [Nat.max_eq_left h2]
      rcases Nat.le_total t v.length with h3 | h3
      · rw [Nat.min_eq_right h3]
      · rw [Nat.min_eq_left h3, List.take_of_length_le (by simp), List.take_of_length_le (by simp; omega)]

theorem slice_length (v : List Byte) (f t : Nat) :
    (MemoryView.slice v f t).length = min (t - f) (v.length - f) := by
  rw [slice_eq]; simp

/-- Offset and size returned by the mutable slice, for a non-empty result. -/
theorem mslice_size (n f t : Nat) :
    (MutableMemoryView.slice n f t).2 = min t n - min f n := by
  unfold MutableMemoryView.slice
  split
  · subst_vars; simp
  · simp only; omega

end Solace
