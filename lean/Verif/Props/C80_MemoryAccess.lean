import Verif.Model.MemoryAccess
import Verif.Lemmas.MemoryView
import Verif.Props.C03_C05_ByteWriter
import Verif.Props.C77_C78_Streams
/-
C80: address arithmetic, typed access, range fills and overlapping copies of memory views.
-/
namespace Solace
namespace Window

theorem bytes_getElem? (w : Window) (m : List Byte) (i : Nat) (hi : i < w.size) : (w.bytes m)[i]? = m[w.off + i]? := by
  rw [bytes, List.getElem?_take_of_lt hi, List.getElem?_drop]

theorem bytes_length {w : Window} {m : List Byte} (h : w.In m) : (w.bytes m).length = w.size := by
  unfold In at h
  rw [bytes, List.length_take, List.length_drop]; omega

/-- The block after a store: `src` at `off`, everything else as before. -/
theorem store_getElem? (m : List Byte) (off : Nat) (src : List Byte) (h : off + src.length ≤ m.length) (i : Nat) :
    (ByteWriter.overwrite m off src)[i]? = if off ≤ i ∧ i < off + src.length then src[i - off]? else m[i]? :=
  ByteWriter.overwrite_written m off src h i

/-- **C80**, addresses: an address is given exactly for offsets up to the size, and it is that far from the beginning. -/
theorem C80_offsetAddress (w : Window) (offset a : Nat) :
    w.offsetAddress offset = some a ↔ offset ≤ w.size ∧ a = w.off + offset := by
  rw [offsetAddress]
  split
  · constructor
    · intro h; cases h
    · intro h; omega
  · rw [Option.some.injEq]
    constructor
    · intro h; exact ⟨by omega, h.symm⟩
    · intro h; exact h.2.symm

/-- **C80**, typed access (partial: `offset + sizeof(T)` below 2^64): the object found is made of exactly the bytes of the view
at that offset, and the call throws exactly when they are not all inside the view. -/
theorem C80_dataAs_partial (sz : Nat) (w : Window) (m : List Byte) (hw : w.In m) (offset : Nat) (hno : offset + sz < 2 ^ 64) :
    (offset + sz ≤ w.size →
      ∃ bs, dataAsAt sz w m offset = .ok bs ∧ bs.length = sz ∧ ∀ i, i < sz → bs[i]? = (w.bytes m)[offset + i]?) ∧
    (w.size < offset + sz → dataAsAt sz w m offset = .throws) ∧
    dataAs sz w m = dataAsAt sz w m 0 := by
  unfold In at hw
  have hwr : wrap64 (offset + sz) = offset + sz := wrap64_of_lt hno
  refine ⟨fun h => ?_, fun h => ?_, ?_⟩
  · rw [dataAsAt, hwr, if_pos h, load, if_pos (by omega)]
    refine ⟨_, rfl, by rw [List.length_take, List.length_drop]; omega, fun i hi => ?_⟩
    rw [bytes_getElem? w m _ (by omega), List.getElem?_take_of_lt hi, List.getElem?_drop]
    congr 1
    omega
  · rw [dataAsAt, hwr, if_neg (by omega)]
  · rw [dataAs, dataAsAt, Nat.zero_add, wrap64_of_lt (by omega), Nat.add_zero]

/-- **C80**, negation: the check of `dataAs` wraps, so an offset just below 2^64 passes it and memory outside the view is
accessed. -/
theorem C80_dataAs_wraps (w : Window) (m : List Byte) (hm : m.length < 2 ^ 63) (sz : Nat) (hsz : 0 < sz)
    (hsz' : sz ≤ 2 ^ 63) : dataAsAt sz w m (2 ^ 64 - sz) = .ub := by
  have hwr : wrap64 (2 ^ 64 - sz + sz) = 0 := by rw [wrap64_def]; omega
  rw [dataAsAt, hwr, if_pos (by omega), load, if_neg (by omega)]

example : (Window.mk 2 4).In [0, 1, 2, 3, 4, 5, 6] ∧ dataAsAt 2 ⟨2, 4⟩ [0, 1, 2, 3, 4, 5, 6] 1 = .ok [3, 4] ∧
    dataAsAt 2 ⟨2, 4⟩ [0, 1, 2, 3, 4, 5, 6] 3 = .throws ∧ dataAsAt 2 ⟨2, 4⟩ [0, 1, 2, 3, 4, 5, 6] (2 ^ 64 - 2) = .ub := by
  unfold In
  decide +kernel

/-- **C80**, `sliceFor<T>` (partial: the byte offsets stay below 2^64): it shows the objects `offset, ..., offset + count - 1` of
the view, as far as they are inside it. -/
theorem C80_sliceFor_partial (size : Nat) (v : List Byte) (offset count : Nat) (h : (offset + count) * size < 2 ^ 64)
    (hsize : 0 < size) : MemoryView.sliceFor size v offset count = (v.drop (offset * size)).take (count * size) := by
  have hmul : offset * size + count * size = (offset + count) * size := (Nat.add_mul _ _ _).symm
  have h1 : offset + count ≤ (offset + count) * size := Nat.le_mul_of_pos_right _ hsize
  have w1 : wrap64 (offset * size) = offset * size := wrap64_of_lt (by omega)
  have w2 : wrap64 (offset + count) = offset + count := wrap64_of_lt (by omega)
  have w3 : wrap64 ((offset + count) * size) = (offset + count) * size := wrap64_of_lt h
  rw [MemoryView.sliceFor, w1, w2, w3, slice_eq]
  congr 1
  omega

/-- **C80**, negation: the products wrap; object 2^61 of a view of 8-byte objects is object 0 instead of nothing. -/
theorem C80_sliceFor_wraps (v : List Byte) : MemoryView.sliceFor 8 v (2 ^ 61) 1 = v.take 8 := by
  have w1 : wrap64 (2 ^ 61 * 8) = 0 := by rw [wrap64_def]
  have w2 : wrap64 (2 ^ 61 + 1) = 2 ^ 61 + 1 := wrap64_of_lt (by omega)
  have w3 : wrap64 ((2 ^ 61 + 1) * 8) = 8 := by rw [wrap64_def]
  rw [MemoryView.sliceFor, w1, w2, w3, slice_eq]
  rfl

example : (1 + 2) * 4 < 2 ^ 64 ∧ MemoryView.sliceFor 2 [0, 1, 2, 3, 4, 5, 6] 1 2 = [2, 3, 4, 5] := by decide +kernel

theorem slice_in {w : Window} {m : List Byte} (h : w.In m) (f t : Nat) :
    (w.slice f t).In m ∧ (w.slice f t).size = min t w.size - min f w.size ∧
    (0 < (w.slice f t).size → (w.slice f t).off = w.off + f) := by
  unfold In at *
  simp only [slice, MutableMemoryView.slice]
  split <;> simp only <;> omega

/-- **C80**, range fill: exactly the bytes of the view between `from` and `to` get the value, no other byte of the memory block
changes. -/
theorem C80_fill (w : Window) (m : List Byte) (hw : w.In m) (value : Byte) (f t : Nat) :
    (w.fillRange m value f t).length = m.length ∧
    ∀ i, i < m.length → (w.fillRange m value f t)[i]? =
      if w.off + f ≤ i ∧ i < w.off + t ∧ i < w.off + w.size then some value else m[i]? := by
  obtain ⟨h1, h2, h3⟩ := slice_in hw f t
  unfold In at h1 hw
  have hl : (w.slice f t).off + (List.replicate (w.slice f t).size value).length ≤ m.length := by
    rw [List.length_replicate]; exact h1
  rw [fillRange, fill]
  refine ⟨ByteWriter.overwrite_length _ _ _ hl, fun i hi => ?_⟩
  rw [store_getElem? _ _ _ hl, List.length_replicate]
  by_cases h0 : 0 < (w.slice f t).size
  · have h3 := h3 h0
    by_cases hc : (w.slice f t).off ≤ i ∧ i < (w.slice f t).off + (w.slice f t).size
    · rw [if_pos hc, if_pos (by omega), List.getElem?_replicate, if_pos (by omega)]
    · rw [if_neg hc, if_neg (by omega)]
  · rw [if_neg (by omega), if_neg (by omega)]

/-- **C80**, overlapping copies: `write` succeeds exactly when the source is not longer than the view; then the beginning of the
view holds what the source held before, even if they overlap, and no other byte changes. `read` is the same in the other
direction, and copies as much as the destination takes. -/
theorem C80_overlapping (w : Window) (m : List Byte) (hw : w.In m) (s : Window) (hs : s.In m) :
    ((w.write m s).2 = .ok () ↔ s.size ≤ w.size) ∧
    ((w.write m s).2 ≠ .ok () → (w.write m s).1 = m) ∧
    (s.size ≤ w.size → ∀ i, i < m.length → (w.write m s).1[i]? =
      if w.off ≤ i ∧ i < w.off + s.size then m[s.off + (i - w.off)]? else m[i]?) ∧
    (w.write m s).1.length = m.length ∧
    ((w.read m s).2 = .ok () ↔ s.size ≤ w.size) ∧
    ((w.read m s).2 ≠ .ok () → (w.read m s).1 = m) ∧
    (s.size ≤ w.size → ∀ i, i < m.length → (w.read m s).1[i]? =
      if s.off ≤ i ∧ i < s.off + s.size then m[w.off + (i - s.off)]? else m[i]?) ∧
    (w.read m s).1.length = m.length := by
  have hbl := bytes_length hs
  have hbw := bytes_length hw
  unfold In at hw hs
  by_cases hfit : s.size ≤ w.size
  · have hl : w.off + (s.bytes m).length ≤ m.length := by omega
    have hlen : ((w.bytes m).take s.size).length = s.size := by rw [List.length_take]; omega
    have hl' : s.off + ((w.bytes m).take s.size).length ≤ m.length := by omega
    rw [write, if_neg (by omega), read, if_neg (by omega)]
    refine ⟨iff_of_true rfl hfit, fun h => absurd rfl h, fun _ i _ => ?_, ByteWriter.overwrite_length _ _ _ hl,
      iff_of_true rfl hfit, fun h => absurd rfl h, fun _ i _ => ?_, ByteWriter.overwrite_length _ _ _ hl'⟩
    · rw [store_getElem? _ _ _ hl, hbl]
      split
      · rw [bytes_getElem? _ _ _ (by omega)]
      · rfl
    · rw [store_getElem? _ _ _ hl', hlen]
      split
      · rw [List.getElem?_take_of_lt (by omega), bytes_getElem? _ _ _ (by omega)]
      · rfl
  · rw [write, if_pos (by omega), read, if_pos (by omega)]
    exact ⟨iff_of_false (by simp) hfit, fun _ => rfl, fun h => absurd h hfit, rfl,
      iff_of_false (by simp) hfit, fun _ => rfl, fun h => absurd h hfit, rfl⟩

example : (Window.mk 1 4).In [0, 1, 2, 3, 4, 5] ∧ (Window.mk 0 4).In [0, 1, 2, 3, 4, 5] ∧
    ((Window.mk 1 4).write [0, 1, 2, 3, 4, 5] ⟨0, 4⟩).1 = [0, 0, 1, 2, 3, 5] := by
  unfold In
  decide +kernel

/-- **C80**, construction in place: it happens exactly when the object fits into the view, and changes only its own bytes. -/
theorem C80_construct (sz : Nat) (w : Window) (m value : List Byte) (hw : w.In m) (hv : value.length = sz) :
    (w.size < sz → construct sz w m value = .throws) ∧
    (sz ≤ w.size → ∃ m', construct sz w m value = .ok m' ∧ dataAs sz w m' = .ok value ∧ m'.length = m.length ∧
      ∀ i, i < w.off ∨ w.off + sz ≤ i → m'[i]? = m[i]?) := by
  unfold In at hw
  refine ⟨fun h => by rw [construct, if_neg (by omega)], fun h => ?_⟩
  have hl : w.off + value.length ≤ m.length := by omega
  refine ⟨ByteWriter.overwrite m w.off value, ?_, ?_, ByteWriter.overwrite_length _ _ _ hl, fun i hi => ?_⟩
  · rw [construct, if_pos h, List.take_of_length_le (by omega)]
  · rw [dataAs, if_pos h, load, ByteWriter.overwrite_length _ _ _ hl, if_pos (by omega)]
    congr 1
    rw [ByteWriter.overwrite, List.append_assoc, List.drop_append_of_le_length (by rw [List.length_take]; omega),
      List.drop_eq_nil_of_le (by rw [List.length_take]; omega), List.nil_append, List.take_append_of_le_length (by omega),
      List.take_of_length_le (by omega)]
  · rw [store_getElem? _ _ _ hl, if_neg (by omega)]

example : construct 2 ⟨1, 3⟩ [0, 0, 0, 0, 0] [7, 8] = .ok [0, 7, 8, 0, 0] := by decide +kernel

end Window
end Solace
