import Verif.Props.C21_C28_StringView
/-
C24, exactly: what the searches do with an empty needle.
-/
namespace Solace.StringView

theorem substring_empty (s : List Byte) (i : Nat) (h : i ≤ s.length) : substring s i i = [] := by
  have := (C23_substring s i i).1
  exact List.length_eq_zero_iff.mp (by omega)

theorem matchAt_empty (s : List Byte) (a c : Byte) (rest crest : List Byte) (i : Nat) (h : i ≤ s.length)
    (hs : s.length < 2 ^ 16) :
    matchAt s (a :: rest) [] (c :: crest) i = .ok (decide ((s ++ [a])[i]? = some c)) := by
  have hi : (s ++ a :: rest)[i]? = (s ++ [a])[i]? := by
    rcases Nat.lt_or_eq_of_le h with h | h
    · rw [List.getElem?_append_left h, List.getElem?_append_left h]
    · subst h; simp
  have hlt : i < (s ++ [a]).length := by simp; omega
  rw [matchAt, hi, List.getElem?_eq_getElem hlt]
  simp only [List.nil_append, List.getElem?_cons_zero, Option.some.injEq, List.length_nil, Nat.add_zero]
  rw [wrap16_of_lt (by omega), substring_empty s i h]
  by_cases hc : (s ++ [a])[i] = c
  · rw [if_pos hc]; simp [hc, equals]
  · rw [if_neg hc]; simp [hc]

theorem indexOfLoop_empty (s : List Byte) (a c : Byte) (rest crest : List Byte) (hs : s.length < 2 ^ 16) (k i : Nat)
    (h : i + k = s.length + 1) :
    indexOfLoop s (a :: rest) [] (c :: crest) k i = .ok (indexOfCharLoop (s ++ [a]) c k i) := by
  induction k generalizing i with
  | zero => rfl
  | succ k ih =>
    rw [indexOfLoop, matchAt_empty s a c rest crest i (by omega) hs, indexOfCharLoop]
    by_cases hc : (s ++ [a])[i]? = some c
    · simp [hc]
    · simp only [hc, decide_false, if_false]
      exact ih (i + 1) (by omega)

theorem lastIndexOfLoop_empty (s : List Byte) (a c : Byte) (rest crest : List Byte) (hs : s.length < 2 ^ 16) (k i : Nat)
    (r : Option Nat) (h : i + k = s.length + 1) :
    lastIndexOfLoop s (a :: rest) [] (c :: crest) k i r = .ok (lastIndexOfCharLoop (s ++ [a]) c k i r) := by
  induction k generalizing i r with
  | zero => rfl
  | succ k ih =>
    rw [lastIndexOfLoop, matchAt_empty s a c rest crest i (by omega) hs, lastIndexOfCharLoop]
    by_cases hc : (s ++ [a])[i]? = some c
    · simp only [hc, decide_true, if_true]
      exact ih (i + 1) _ (by omega)
    · simp only [hc, decide_false, if_false]
      exact ih (i + 1) _ (by omega)

/-- **C24, exactly, the empty needle**: when there is a byte `c` behind the needle and a byte `a` behind the string, the
searches look for the *character* `c`, in the string and the byte behind it, and give the first or last position. (With
`C24_indexOf_char`, `C24_lastIndexOf_char` for what the right sides are.) A string of the maximal length gives no position,
because the number of candidates wraps to zero. -/
theorem C24_empty_needle_exact (s : List Byte) (a c : Byte) (rest crest : List Byte) (from' : Nat) (hs : s.length < 2 ^ 16)
    (hf : from' ≤ s.length) :
    (s.length + 1 < 2 ^ 16 →
      indexOf s (a :: rest) [] (c :: crest) from' = .ok (indexOfChar (s ++ [a]) c from') ∧
      lastIndexOf s (a :: rest) [] (c :: crest) from' = .ok (lastIndexOfChar (s ++ [a]) c from')) ∧
    (s.length + 1 = 2 ^ 16 →
      indexOf s (a :: rest) [] (c :: crest) from' = .ok none ∧ lastIndexOf s (a :: rest) [] (c :: crest) from' = .ok none) := by
  have h1 : ¬(s.length < from' ∨ s.length < ([] : List Byte).length ∨ s.length < from' + ([] : List Byte).length) := by
    simp; omega
  rw [indexOf, if_neg h1, lastIndexOf, if_neg h1]
  simp only [List.length_nil, Nat.sub_zero]
  constructor
  · intro hl
    have h2 : ¬(s ++ [a]).length < from' := by simp; omega
    rw [wrap16_of_lt hl, indexOfLoop_empty s a c rest crest hs _ _ (by omega),
      lastIndexOfLoop_empty s a c rest crest hs _ _ _ (by omega), indexOfChar, if_neg h2, lastIndexOfChar, if_neg h2]
    simp
  · intro hl
    rw [hl, wrap16_def]
    simp [indexOfLoop, lastIndexOfLoop]

example : indexOf [0x61#8, 0x62#8] [0x63#8] [] [0x63#8] 0 = .ok (some 2) ∧
    lastIndexOf [0x62#8, 0x62#8] [0x63#8] [] [0x62#8] 0 = .ok (some 1) := by decide +kernel

end Solace.StringView
