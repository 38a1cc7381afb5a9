import Verif.Props.C80_MemoryAccess
/-! C80: typed access and `sliceFor` for all offsets. -/
namespace Solace.Window

/-- **C80, exactly, typed access**: for every offset and size the 64-bit type can hold. Let `offset + sizeof(T)` be below 2^64:
then the bytes at that offset, or an exception exactly when they are not all in the view. Otherwise, unless `offset + sizeof(T) - 2^64`
is larger than the view, memory outside of the view is accessed. -/
theorem C80_dataAs_exact (sz : Nat) (w : Window) (m : List Byte) (hw : w.In m) (hm : m.length < 2 ^ 63) (offset : Nat)
    (ho : offset < 2 ^ 64) (hsz : sz ≤ 2 ^ 63) :
    (offset + sz ≤ w.size → dataAsAt sz w m offset = .ok (((w.bytes m).drop offset).take sz)) ∧
    (w.size < offset + sz → offset + sz < 2 ^ 64 → dataAsAt sz w m offset = .throws) ∧
    (2 ^ 64 ≤ offset + sz → w.size < offset + sz - 2 ^ 64 → dataAsAt sz w m offset = .throws) ∧
    (2 ^ 64 ≤ offset + sz → offset + sz - 2 ^ 64 ≤ w.size → dataAsAt sz w m offset = .ub) := by
  unfold In at hw
  refine ⟨fun h => ?_, fun h1 h2 => ?_, fun h1 h2 => ?_, fun h1 h2 => ?_⟩
  · rw [dataAsAt, wrap64_of_lt (by omega), if_pos h, load, if_pos (by omega), bytes]
    rw [List.drop_take, List.take_take, List.drop_drop, Nat.min_eq_left (by omega)]
  · rw [dataAsAt, wrap64_of_lt h2, if_neg (by omega)]
  · rw [dataAsAt, wrap64_def, if_neg (by omega)]
  · rw [dataAsAt, wrap64_def, if_pos (by omega), load, if_neg (by omega)]

/-- **C80, exactly, `sliceFor<T>`**: for all offsets and counts, the bytes from `offset * sizeof(T)` on and before
`(offset + count) * sizeof(T)`, both modulo 2^64, as far as the view has them. -/
theorem C80_sliceFor_exact (size : Nat) (v : List Byte) (offset count : Nat) :
    MemoryView.sliceFor size v offset count =
      (v.take ((offset + count) * size % 2 ^ 64)).drop (offset * size % 2 ^ 64) := by
  rw [MemoryView.sliceFor, slice_eq, List.drop_take, wrap64_def, wrap64_def, wrap64_def, Nat.mod_mul_mod]

example : (Window.mk 2 4).In [0, 1, 2, 3, 4, 5, 6] ∧ dataAsAt 2 ⟨2, 4⟩ [0, 1, 2, 3, 4, 5, 6] (2 ^ 64 - 1) = .ub ∧
    dataAsAt 7 ⟨2, 4⟩ [0, 1, 2, 3, 4, 5, 6] (2 ^ 64 - 2) = .throws := by
  unfold In
  decide +kernel
example : MemoryView.sliceFor 8 [1, 2, 3] (2 ^ 61 - 1) 1 = [] := by
  rw [C80_sliceFor_exact]
  decide +kernel

/-- What `write` and `read` return, for all windows: an error exactly if the receiving side is smaller, and then the memory is as it
was. The two functions report it with different codes. -/
theorem C80_copy_result (w u : Window) (m : List Byte) :
    ((w.write m u).2 = .ok () ↔ u.size ≤ w.size) ∧ (w.size < u.size → w.write m u = (m, .error .dom)) ∧
    ((w.read m u).2 = .ok () ↔ u.size ≤ w.size) ∧ (w.size < u.size → w.read m u = (m, .error .overflow)) := by
  rw [Window.write, Window.read]
  refine ⟨?_, fun h => if_pos h, ?_, fun h => if_pos h⟩
  · split
    · exact ⟨fun h => (by cases h), fun h => by omega⟩
    · exact ⟨fun _ => by omega, fun _ => rfl⟩
  · split
    · exact ⟨fun h => (by cases h), fun h => by omega⟩
    · exact ⟨fun _ => by omega, fun _ => rfl⟩

example : (Window.mk 0 1).write [1, 2, 3] ⟨1, 2⟩ = ([1, 2, 3], .error .dom) := (C80_copy_result _ _ _).2.1 (by decide)

end Solace.Window
