import Verif.Model.ByteReader
import Verif.Lemmas.MemoryView
namespace Solace

theorem swapBytes_eq_reverse (v : List Byte) : ByteReader.swapBytes v = v.reverse := by
  apply List.ext_getElem
  · simp [ByteReader.swapBytes]
  · intro i h1 h2
    simp [ByteReader.swapBytes]

namespace ByteReader

/-- The shape of `read`: succeeds exactly when both checks pass. -/
theorem read_cases (s : ByteReader) (d : List Byte) (hl : s.data.length < 2 ^ 64) (hp : s.position < 2 ^ 64) :
    (s.read d = ⟨s, .error .overflow, d⟩ ∧
      (s.remaining < d.length ∨ s.data.length < s.position + d.length)) ∨
    (d.length ≤ s.remaining ∧ (s.position + d.length ≤ s.data.length ∨ d = []) ∧
      s.read d = ⟨{ s with position := s.position + d.length }, .ok none,
        (s.data.drop s.position).take d.length⟩) := by
  unfold read
  simp only
  split
  · exact .inl ⟨rfl, .inl ‹_›⟩
  · rename_i h1
    rw [slice_length]
    split
    · rename_i h2
      refine .inl ⟨rfl, ?_⟩
      by_cases hov : s.position + d.length < 2 ^ 64
      · have hw : wrap64 (s.position + d.length) = s.position + d.length := wrap64_of_lt hov
        rw [hw] at h2
        omega
      · omega
    · rename_i h2
      refine .inr ⟨by omega, ?_, ?_⟩
      · by_cases hz : d = []
        · exact .inr hz
        · left
          have : 0 < d.length := List.length_pos_iff.mpr hz
          have : wrap64 (s.position + d.length) ≤ s.position + d.length := wrap64_le _
          omega
      · by_cases hz : d = []
        · subst hz
          have hw : wrap64 (s.position + 0) = s.position := wrap64_of_lt hp
          simp [slice_eq]
          omega
        · have h0 : 0 < d.length := List.length_pos_iff.mpr hz
          have : wrap64 (s.position + d.length) ≤ s.position + d.length := wrap64_le _
          have hlt : s.position + d.length < 2 ^ 64 := by omega
          have hw : wrap64 (s.position + d.length) = s.position + d.length := wrap64_of_lt hlt
          rw [hw, slice_eq]
          simp [List.take_take]

end ByteReader
end Solace
