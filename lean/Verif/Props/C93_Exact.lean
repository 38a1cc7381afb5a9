import Verif.Props.C24_Exact
import Verif.Props.C28_C55_C72_Exact
import Verif.Props.C27_C32_Exact
import Verif.Props.C93_StringQueries
/-
C24 and C93 exactly: the empty needle wherever memory ends, and the remaining questions to an owning string.
-/
namespace Solace.StringView
open Strings

/-- Memory ends with the string: the characters of the string can be compared, the place behind it cannot. -/
theorem matchAt_end (s : List Byte) (c : Byte) (crest : List Byte) (i : Nat) (hs : s.length < 2 ^ 16) :
    matchAt s [] [] (c :: crest) i = if i < s.length then .ok (decide (s[i]? = some c)) else .ub := by
  rw [matchAt, List.append_nil]
  by_cases hi : i < s.length
  · rw [if_pos hi, List.getElem?_eq_getElem hi]
    simp only [List.nil_append, List.getElem?_cons_zero, Option.some.injEq, List.length_nil, Nat.add_zero]
    rw [wrap16_of_lt (by omega), substring_empty s i (by omega)]
    by_cases hc : s[i] = c
    · rw [if_pos hc]; simp [hc, equals]
    · rw [if_neg hc]; simp [hc]
  · rw [if_neg hi, List.getElem?_eq_none (by omega)]

theorem indexOfLoop_end (s : List Byte) (c : Byte) (crest : List Byte) (hs : s.length < 2 ^ 16) (k i : Nat)
    (h : i + k = s.length) :
    indexOfLoop s [] [] (c :: crest) (k + 1) i =
      match indexOfCharLoop s c k i with
      | some j => .ok (some j)
      | none => .ub := by
  induction k generalizing i with
  | zero => rw [indexOfLoop, matchAt_end s c crest i hs, if_neg (by omega)]; rfl
  | succ k ih =>
    rw [indexOfLoop, matchAt_end s c crest i hs, if_pos (by omega), indexOfCharLoop]
    by_cases hc : s[i]? = some c
    · simp [hc]
    · simp only [hc, decide_false, if_false]
      exact ih (i + 1) (by omega)

theorem lastIndexOfLoop_end (s : List Byte) (c : Byte) (crest : List Byte) (hs : s.length < 2 ^ 16) (k i : Nat) (r : Option Nat)
    (h : i + k = s.length) : lastIndexOfLoop s [] [] (c :: crest) (k + 1) i r = .ub := by
  induction k generalizing i r with
  | zero => rw [lastIndexOfLoop, matchAt_end s c crest i hs, if_neg (by omega)]
  | succ k ih =>
    rw [lastIndexOfLoop, matchAt_end s c crest i hs, if_pos (by omega)]
    by_cases hc : s[i]? = some c
    · simp only [hc, decide_true]; exact ih (i + 1) _ (by omega)
    · simp only [hc, decide_false]; exact ih (i + 1) _ (by omega)

/-- **C24, exactly, the empty needle where memory ends**: a start behind the string gives nothing, and so does a string of the
maximal length. Otherwise nothing behind the needle is undefined; and when there is a byte `c` behind the needle but none behind
the string, `indexOf` gives the first `c` at or after the start, and is undefined if there is none; `lastIndexOf` is always
undefined. (`C24_empty_needle_exact` is the case of a byte behind each.) -/
theorem C24_empty_needle_memory_end (s : List Byte) (from' : Nat) (hs : s.length < 2 ^ 16) :
    (s.length < from' ∨ s.length + 1 = 2 ^ 16 → ∀ after xAfter,
      indexOf s after [] xAfter from' = .ok none ∧ lastIndexOf s after [] xAfter from' = .ok none) ∧
    (from' ≤ s.length → s.length + 1 < 2 ^ 16 →
      (∀ after, indexOf s after [] [] from' = .ub ∧ lastIndexOf s after [] [] from' = .ub) ∧
      ∀ c crest, lastIndexOf s [] [] (c :: crest) from' = .ub ∧
        (∀ j, indexOf s [] [] (c :: crest) from' = .ok (some j) ↔ indexOfChar s c from' = some j) ∧
        (indexOf s [] [] (c :: crest) from' = .ub ↔ ∀ l, from' ≤ l → s[l]? ≠ some c)) := by
  constructor
  · intro h after xAfter
    rw [indexOf, lastIndexOf]
    by_cases hf : s.length < from'
    · rw [if_pos (.inl hf), if_pos (.inl hf)]; exact ⟨rfl, rfl⟩
    · have h1 : ¬(s.length < from' ∨ s.length < ([] : List Byte).length ∨ s.length < from' + ([] : List Byte).length) := by
        simp; omega
      have hw : wrap16 (s.length - ([] : List Byte).length + 1) - from' = 0 := by
        rw [wrap16_def, List.length_nil]; omega
      rw [if_neg h1, if_neg h1, hw]
      exact ⟨rfl, rfl⟩
  · intro hf hl
    have h1 : ¬(s.length < from' ∨ s.length < ([] : List Byte).length ∨ s.length < from' + ([] : List Byte).length) := by
      simp; omega
    have hw : wrap16 (s.length - ([] : List Byte).length + 1) - from' = (s.length - from') + 1 := by
      rw [List.length_nil, Nat.sub_zero, wrap16_of_lt hl]; omega
    refine ⟨fun after => ?_, fun c crest => ⟨?_, ?_⟩⟩
    · have hm : ∀ i, matchAt s after [] [] i = .ub := by
        intro i; rw [matchAt]; simp
      rw [indexOf, lastIndexOf, if_neg h1, if_neg h1, hw, indexOfLoop, lastIndexOfLoop, hm]
      exact ⟨rfl, rfl⟩
    · rw [lastIndexOf, if_neg h1, hw, lastIndexOfLoop_end s c crest hs _ _ _ (by omega)]
    · rw [indexOf, if_neg h1, hw, indexOfLoop_end s c crest hs _ _ (by omega)]
      have hc : indexOfChar s c from' = indexOfCharLoop s c (s.length - from') from' := by
        rw [indexOfChar, if_neg (by omega)]
      have hn := (C24_indexOf_char s c from').2
      rw [hc] at hn ⊢
      cases he : indexOfCharLoop s c (s.length - from') from' with
      | none => simp [← hn, he]
      | some j =>
        rw [he] at hn
        simp only [reduceCtorEq, false_iff] at hn ⊢
        exact ⟨fun l => by simp, hn⟩

end Solace.StringView

namespace Solace.Str
open Strings

/-- **C93** (exactly), `<` for all strings: a longer left side is less exactly when its character at the last index of the right
side is above 127, and ends the program when there is no such index; a shorter left side is less exactly when the last character
of the right side is from 1 to 127; strings of the same length are compared up to their first null characters. -/
theorem C93_less_exact (s x : Str) (t u : List Byte) (hs : Has s t) (hx : Has x u) :
    (u.length < t.length → u = [] → s.lt x = .terminate) ∧
    (∀ c, u.length < t.length → u ≠ [] → t[u.length - 1]? = some c → s.lt x = .ok (decide (128 ≤ c.toNat))) ∧
    (∀ c, t.length < u.length → u.getLast? = some c → s.lt x = .ok (decide (0 < c.toNat ∧ c.toNat < 128))) ∧
    (t.length = u.length → ∃ b, s.lt x = .ok b ∧ (b = true ↔ lexLt (StringView.cText t) (StringView.cText u))) := by
  have hlt : s.lt x = (StringView.compareTo t u).bind fun r => .ok (decide (r < 0)) := by
    rw [lt, compareTo, hs.view_eq, hx.view_eq]
  obtain ⟨h1, h2, h3, h4⟩ := StringView.C22_exact t u hs.2.1 hx.2.1
  refine ⟨fun a b => ?_, fun c a b d => ?_, fun c a b => ?_, fun a => ?_⟩
  · rw [hlt, h1 a b]
  · rw [hlt, h2 c a b d]
    have hc := c.isLt
    show Outcome.ok _ = _
    congr 1
    rw [decide_eq_decide, BitVec.toInt_eq_toNat_cond]
    split <;> omega
  · rw [hlt, h3 c a b]
    have hc := c.isLt
    show Outcome.ok _ = _
    congr 1
    rw [decide_eq_decide, BitVec.toInt_eq_toNat_cond]
    split <;> omega
  · obtain ⟨r, h5, h6, -⟩ := h4 a
    refine ⟨decide (r < 0), by rw [hlt, h5], by rw [decide_eq_true_iff]; exact h6⟩

/-- **C93** (exactly), the first character: a string without characters is taken to start with the byte behind its text. -/
theorem C93_startsWith_exact (s : Str) (t : List Byte) (hs : Has s t) (null : Bool) (c : Byte) :
    s.startsWithChar null c =
      if null then .ok (c == 0#8)
      else if t ≠ [] then .ok (t.head? == some c)
      else if s.after ≠ [] then .ok (s.after.head? == some c) else .ub := by
  rw [startsWithChar, StringView.C72_startsWith_char_exact, hs.view_eq]

/-- **C93** (exactly), searching for the literal `""` (a null character behind the needle) in a string that has less than 65535
characters: without spare memory `indexOf` gives the first null character of the text, and is undefined if there is none, and
`lastIndexOf` is undefined; with a byte `a` behind the text both look for null characters in the text and that byte. -/
theorem C93_empty_needle_exact (s : Str) (t rest : List Byte) (hs : Has s t) (hl : t.length + 1 < 2 ^ 16) (from' : Nat)
    (hf : from' ≤ t.length) :
    (s.after = [] → s.lastIndexOf [] (0#8 :: rest) from' = .ub ∧
      (∀ j, s.indexOf [] (0#8 :: rest) from' = .ok (some j) ↔ StringView.indexOfChar t 0#8 from' = some j) ∧
      (s.indexOf [] (0#8 :: rest) from' = .ub ↔ ∀ l, from' ≤ l → t[l]? ≠ some 0#8)) ∧
    (∀ a more, s.after = a :: more →
      s.indexOf [] (0#8 :: rest) from' = .ok (StringView.indexOfChar (t ++ [a]) 0#8 from') ∧
      s.lastIndexOf [] (0#8 :: rest) from' = .ok (StringView.lastIndexOfChar (t ++ [a]) 0#8 from')) := by
  constructor
  · intro ha
    rw [indexOf, lastIndexOf, hs.view_eq, ha]
    exact ((StringView.C24_empty_needle_memory_end t from' hs.2.1).2 hf hl).2 0#8 rest
  · intro a more ha
    rw [indexOf, lastIndexOf, hs.view_eq, ha]
    exact (StringView.C24_empty_needle_exact t a 0#8 more rest from' hs.2.1 hf).1 hl

example : (⟨[0x61#8, 0x62#8], 2⟩ : Str).indexOf [] [0x61#8] 0 = .ok (some 0) ∧
    (⟨[0x61#8, 0x62#8], 2⟩ : Str).indexOf [] [0#8] 0 = .ub := by decide +kernel
example : (⟨[0x61#8, 0xC3#8, 0x62#8], 3⟩ : Str).lt ⟨[0x61#8, 0x62#8], 2⟩ = .ok true := by decide +kernel

end Solace.Str
