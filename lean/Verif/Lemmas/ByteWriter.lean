import Verif.Model.Endian
import Verif.Lemmas.ByteReader
namespace Solace.ByteWriter

theorem overwrite_length (data : List Byte) (off : Nat) (src : List Byte) (h : off + src.length ≤ data.length) :
    (overwrite data off src).length = data.length := by
  simp [overwrite]; omega

theorem overwrite_getElem? (data : List Byte) (off : Nat) (src : List Byte) (h : off + src.length ≤ data.length)
    (i : Nat) (hi : i < off ∨ off + src.length ≤ i) : (overwrite data off src)[i]? = data[i]? := by
  have hl : (data.take off).length = off := by simp; omega
  unfold overwrite
  rcases hi with hi | hi
  · rw [List.append_assoc, List.getElem?_append_left (by omega), List.getElem?_take_of_lt hi]
  · rw [List.getElem?_append_right (by rw [List.length_append]; omega), List.getElem?_drop]
    congr 1
    rw [List.length_append]; omega

theorem overwrite_take (data : List Byte) (off : Nat) (src : List Byte) (h : off + src.length ≤ data.length) :
    (overwrite data off src).take (off + src.length) = data.take off ++ src := by
  have hl : (data.take off).length = off := by simp; omega
  unfold overwrite
  have : off + src.length = (data.take off ++ src).length := by rw [List.length_append]; omega
  rw [this, List.take_left]

theorem overwrite_drop (data : List Byte) (off : Nat) (src : List Byte) (h : off + src.length ≤ data.length) :
    (overwrite data off src).drop (off + src.length) = data.drop (off + src.length) := by
  have hl : (data.take off).length = off := by simp; omega
  unfold overwrite
  have : off + src.length = (data.take off ++ src).length := by rw [List.length_append]; omega
  conv => lhs; rw [this, List.drop_left]
  rw [← this]

/-- Machine bounds: the buffer, the position and the data each fit the address space. -/
def InMachine (s : ByteWriter) : Prop := s.data.length < 2 ^ 64 ∧ s.position < 2 ^ 64

/-- Every way a `write` can go. -/
theorem write_cases (s : ByteWriter) (src : List Byte) (hm : s.InMachine) :
    (src = [] ∧ s.write src = (s, .ok ())) ∨
    (src ≠ [] ∧ s.data.length < s.position + src.length ∧ s.write src = (s, .error .overflow)) ∨
    (src ≠ [] ∧ s.position + src.length ≤ s.data.length ∧ s.remaining < src.length ∧
      s.write src = ({ s with data := overwrite s.data s.position src }, .error .overflow)) ∨
    (src ≠ [] ∧ s.position + src.length ≤ s.data.length ∧ src.length ≤ s.remaining ∧
      s.write src = ({ s with data := overwrite s.data s.position src, position := s.position + src.length }, .ok ())) := by
  obtain ⟨hl, hp⟩ := hm
  rw [write]
  simp only
  by_cases h0 : src = []
  · exact .inl ⟨h0, by simp [h0]⟩
  · right
    have hpos : 0 < src.length := List.length_pos_iff.mpr h0
    rw [if_neg (by omega)]
    rw [mslice_size]
    have hle : wrap64 (s.position + src.length) ≤ s.position + src.length := wrap64_le _
    split
    · rename_i hlt
      refine .inl ⟨h0, ?_, rfl⟩
      by_cases hov : s.position + src.length < 2 ^ 64
      · rw [wrap64_of_lt hov] at hlt; omega
      · omega
    · rename_i hlt
      have hfit : s.position + src.length ≤ s.data.length := by omega
      have hw : wrap64 (s.position + src.length) = s.position + src.length := wrap64_of_lt (by omega)
      have hoff : (MutableMemoryView.slice s.data.length s.position (wrap64 (s.position + src.length))).1 = s.position := by
        rw [hw, MutableMemoryView.slice, if_neg (by omega)]
        simp only; omega
      rw [hoff, advance]
      right
      have hrem : remaining { s with data := overwrite s.data s.position src } = s.remaining := rfl
      rw [hrem]
      split
      · exact .inl ⟨h0, hfit, by assumption, rfl⟩
      · exact .inr ⟨h0, hfit, by omega, by simp only [hw]⟩

end Solace.ByteWriter
