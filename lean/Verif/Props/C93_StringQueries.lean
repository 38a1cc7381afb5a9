import Verif.Model.StringQueries
import Verif.Props.C21_C28_StringView
import Verif.Props.C29_C31_String
import Verif.Props.C87_StringViewMake
/-
C93: a string answers every question about its text as the text itself does.
-/
namespace Solace.Str
open Strings

/-- The string `s` holds the text `t`. -/
def Has (s : Str) (t : List Byte) : Prop := s.size = t.length ∧ t.length < 2 ^ 16 ∧ ∃ rest, s.buffer = t ++ rest

theorem Has.view_eq {s : Str} {t : List Byte} (h : Has s t) : s.view = t := by
  obtain ⟨h1, _, r, h3⟩ := h
  rw [view, slice_eq, h1, h3]
  simp

theorem Has.after_eq {s : Str} {t : List Byte} (h : Has s t) : s.buffer = t ++ s.after := by
  obtain ⟨h1, _, r, h3⟩ := h
  rw [after, h1, h3]
  simp

/-- **C93**: `makeString` gives a string that holds the text, in a buffer of just that size. -/
theorem C93_made (alloc : Nat → Except Err MutView) (ha : AllocOk alloc) (t : List Byte) (ht : t.length < 2 ^ 16) (s : Str)
    (h : make alloc t = .ok s) : Has s t ∧ s.after = [] := by
  have key : s.size = t.length ∧ s.buffer.length = t.length := by
    rw [make] at h
    cases hv : alloc t.length with
    | error e => rw [hv] at h; cases h
    | ok v =>
      rw [hv] at h
      obtain ⟨hl, _⟩ := ha _ v hv
      simp only [MutView.write] at h
      by_cases hn : v.null = true
      · rw [if_pos hn] at h; cases h
      · rw [if_neg hn, if_neg (by omega)] at h
        cases h
        refine ⟨rfl, ?_⟩
        rw [List.length_append, List.length_drop]
        omega
  have hview : s.view = t := by
    rcases C29_make alloc ha t with ⟨e, he⟩ | ⟨s', hs', hv⟩
    · rw [h] at he; cases he
    · rw [h] at hs'; cases hs'; exact hv
  have hb : s.buffer = t := by
    rw [view, slice_eq, key.1] at hview
    simp only [Nat.sub_zero, List.drop_zero] at hview
    rw [← key.2, List.take_length] at hview
    exact hview
  exact ⟨⟨key.1, ht, [], by rw [hb, List.append_nil]⟩, by rw [after, key.1, hb, List.drop_length]⟩

/-- **C93** (full): equality of strings, and of a string and a view, is equality of the texts. -/
theorem C93_equals (s x : Str) (t u : List Byte) (hs : Has s t) (hx : Has x u) :
    s.equals u = decide (t = u) ∧ s.notEquals u = decide (t ≠ u) ∧ s.equalsString x = decide (t = u) ∧
    s.notEqualsString x = decide (t ≠ u) := by
  have e : ∀ a b : List Byte, StringView.equals a b = decide (a = b) := by
    intro a b
    by_cases h : a = b
    · rw [(StringView.C21_equals_iff a b).mpr h, decide_eq_true h]
    · rw [decide_eq_false h]
      exact Bool.eq_false_iff.mpr fun h' => h ((StringView.C21_equals_iff a b).mp h')
  simp only [equals, notEquals, equalsString, notEqualsString, hs.view_eq, hx.view_eq, e, decide_not, and_self]

/-- **C93, exactly**: with a C string, the text is compared with the first `strlen mod 65536` characters. -/
theorem C93_equals_cstring (s : Str) (t u rest : List Byte) (hs : Has s t) (hu : 0#8 ∉ u) :
    s.equalsCString (some (u ++ 0#8 :: rest)) = .ok (decide (t = u.take (u.length % 2 ^ 16))) ∧
    s.notEqualsCString (some (u ++ 0#8 :: rest)) = .ok (decide (t ≠ u.take (u.length % 2 ^ 16))) ∧
    s.equalsCString (some u) = .ub ∧ s.equalsCString none = .ok (decide (t = [])) := by
  have e : ∀ b : List Byte, s.equals b = decide (t = b) := by
    intro b
    by_cases h : t = b
    · rw [decide_eq_true h, equals, hs.view_eq]
      exact (StringView.C21_equals_iff t b).mpr h
    · rw [decide_eq_false h, equals, hs.view_eq]
      exact Bool.eq_false_iff.mpr fun h' => h ((StringView.C21_equals_iff t b).mp h')
  obtain ⟨⟨v, h1, _, h3⟩, h4, v', h5, h6⟩ := Make.C87_cstring_exact u rest hu
  refine ⟨?_, ?_, ?_, ?_⟩
  · rw [equalsCString, h1]
    show v.chars.bind _ = _
    rw [h3, ← e]
  · rw [notEqualsCString, equalsCString, h1]
    show (v.chars.bind _).bind _ = _
    rw [h3, decide_not, ← e]
  · rw [equalsCString, h4]
  · rw [equalsCString, h5]
    show v'.chars.bind _ = _
    rw [h6, ← e]

/-- **C93** (partial: C strings of fewer than 65536 characters): comparing with a C string compares the texts. Missing: longer C
strings, for which `C93_cstring_wraps` holds. -/
theorem C93_cstring_partial (s : Str) (t u rest : List Byte) (hs : Has s t) (hu : 0#8 ∉ u) (hl : u.length < 2 ^ 16) :
    s.equalsCString (some (u ++ 0#8 :: rest)) = .ok (decide (t = u)) := by
  rw [(C93_equals_cstring s t u rest hs hu).1, Nat.mod_eq_of_lt hl, List.take_length]

/-- **C93, negation**: the empty string equals every C string of 65536 characters. -/
theorem C93_cstring_wraps (s : Str) (u rest : List Byte) (hs : Has s []) (hu : 0#8 ∉ u) (hl : u.length = 2 ^ 16) :
    s.equalsCString (some (u ++ 0#8 :: rest)) = .ok true := by
  rw [(C93_equals_cstring s [] u rest hs hu).1, hl, Nat.mod_self, List.take_zero]
  rfl

/-- **C93** (partial: characters 1 to 127, and not a non-empty string against an empty one): `<` is the shortlex order of the
texts. Missing: everything else, where `compareTo` is not an order (C22) or the program ends (below). -/
theorem C93_less_partial (s x : Str) (t u : List Byte) (hs : Has s t) (hx : Has x u) (pt : StringView.Plain t)
    (pu : StringView.Plain u) (h : u ≠ [] ∨ t = []) : ∃ b, s.lt x = .ok b ∧ (b = true ↔ shortlexLt t u) := by
  obtain ⟨r, h1, h2, _, _⟩ := StringView.C22_shortlex_partial t u pt pu hs.2.1 hx.2.1 h
  refine ⟨decide (r < 0), ?_, ?_⟩
  · rw [lt, compareTo, hs.view_eq, hx.view_eq, h1]
  · rw [decide_eq_true_iff]
    exact h2

/-- **C93, negation**: asking whether a non-empty string is less than an empty one ends the program. -/
theorem C93_less_empty (s x : Str) (t : List Byte) (hs : Has s t) (hx : Has x []) (ht : t ≠ []) : s.lt x = .terminate := by
  rw [lt, compareTo, hs.view_eq, hx.view_eq, StringView.C22_empty_terminates t ht hs.2.1]

/-- **C93** (full): characters, sizes, parts, hash and iteration. -/
theorem C93_parts (s : Str) (t : List Byte) (hs : Has s t) :
    (s.isEmpty = true ↔ t = []) ∧ s.length = t.length ∧ s.forEach = t ∧
    (∀ i (h : i < t.length), s.charAt i = .ok t[i]) ∧ (∀ i, t.length ≤ i → s.charAt i = .throws) ∧
    (∀ i, i ≤ t.length → ∃ p, t = p ++ s.substringFrom i ∧ p.length = i) ∧ (∀ i, t.length < i → s.substringFrom i = []) ∧
    (∀ x, s.startsWith x = true ↔ x <+: t) ∧ (∀ x, s.endsWith x = true ↔ x <:+ t) ∧
    (∀ r, IsTrim StringView.isSpace t r ↔ r = s.trim) ∧
    s.hashCode = (t.zipIdx.map fun p => p.1.signExtend 64 * 31#64 ^ (t.length - 1 - p.2)).foldr (· + ·) 0#64 := by
  refine ⟨?_, hs.1, ?_, fun i h => ?_, fun i h => ?_, fun i h => ?_, fun i h => ?_, fun x => ?_, fun x => ?_, fun r => ?_, ?_⟩
  · rw [isEmpty, hs.1, beq_iff_eq, List.length_eq_zero_iff]
  · exact hs.view_eq
  · rw [charAt, hs.view_eq, StringView.charAt, List.getElem?_eq_getElem h]
  · rw [charAt, hs.view_eq, StringView.charAt, List.getElem?_eq_none h]
  · rw [substringFrom, hs.view_eq]
    obtain ⟨p, q, h1, h2, h3⟩ := StringView.C23_substring_in_range t i t.length h (Nat.le_refl _)
    have : q = [] := by
      have := congrArg List.length h1
      rw [List.length_append, List.length_append] at this
      exact List.length_eq_zero_iff.mp (by omega)
    exact ⟨p, by rw [this, List.append_nil] at h1; exact h1, h2⟩
  · rw [substringFrom, hs.view_eq]
    refine List.length_eq_zero_iff.mp ?_
    rw [(StringView.C23_substring t i t.length).1]
    omega
  · rw [startsWith, hs.view_eq, StringView.C25_startsWith_iff]
  · rw [endsWith, hs.view_eq, StringView.C25_endsWith_iff]
  · rw [trim, hs.view_eq]
    exact StringView.C26_trim t r
  · rw [hashCode, hs.view_eq, StringView.C21_hash_polynomial]

/-- **C93** (full): searching for a character. -/
theorem C93_find_char (s : Str) (t : List Byte) (hs : Has s t) (c : Byte) (from' : Nat) :
    (∀ j, s.indexOfChar c from' = some j ↔ from' ≤ j ∧ t[j]? = some c ∧ ∀ l, from' ≤ l → l < j → t[l]? ≠ some c) ∧
    (s.indexOfChar c from' = none ↔ ∀ l, from' ≤ l → t[l]? ≠ some c) ∧
    (∀ j, s.lastIndexOfChar c from' = some j ↔ from' ≤ j ∧ t[j]? = some c ∧ ∀ l, j < l → t[l]? ≠ some c) ∧
    (s.lastIndexOfChar c from' = none ↔ ∀ l, from' ≤ l → t[l]? ≠ some c) ∧ (s.containsChar c = true ↔ c ∈ t) := by
  rw [indexOfChar, lastIndexOfChar, hs.view_eq]
  obtain ⟨h1, h2⟩ := StringView.C24_indexOf_char t c from'
  obtain ⟨h3, h4⟩ := StringView.C24_lastIndexOf_char t c from'
  refine ⟨h1, h2, h3, h4, ?_⟩
  obtain ⟨_, h6⟩ := StringView.C24_indexOf_char t c 0
  rw [containsChar, indexOfChar, hs.view_eq]
  constructor
  · intro h
    refine Classical.byContradiction fun hn => ?_
    rw [h6.mpr fun l _ hl => hn (List.mem_of_getElem? hl)] at h
    cases h
  · intro h
    obtain ⟨l, hl⟩ := List.mem_iff_getElem?.mp h
    cases hr : StringView.indexOfChar t c 0 with
    | some j => rfl
    | none => exact absurd hl (h6.mp hr l (Nat.zero_le _))

/-- **C93** (partial: the text searched for is not empty): searching for a text, wherever it is in memory. Missing: the empty
text, for which `C93_empty_needle` holds. -/
theorem C93_find_partial (s : Str) (t : List Byte) (hs : Has s t) (x xAfter : List Byte) (hx : x ≠ []) (from' : Nat) :
    (∃ r, s.indexOf x xAfter from' = .ok r ∧
      (∀ j, r = some j ↔ from' ≤ j ∧ OccursAt x t j ∧ ∀ l, from' ≤ l → l < j → ¬OccursAt x t l) ∧
      (r = none ↔ ∀ l, from' ≤ l → ¬OccursAt x t l)) ∧
    (∃ r, s.lastIndexOf x xAfter from' = .ok r ∧
      (∀ j, r = some j ↔ from' ≤ j ∧ OccursAt x t j ∧ ∀ l, j < l → ¬OccursAt x t l) ∧
      (r = none ↔ ∀ l, from' ≤ l → ¬OccursAt x t l)) ∧
    ∃ r, s.contains x xAfter = .ok r ∧ (r = true ↔ x <:+: t) := by
  refine ⟨?_, ?_, ?_⟩
  · rw [indexOf, hs.view_eq]
    exact StringView.C24_indexOf_partial t _ x xAfter from' hs.2.1 hx
  · rw [lastIndexOf, hs.view_eq]
    exact StringView.C24_lastIndexOf_partial t _ x xAfter from' hs.2.1 hx
  · obtain ⟨r, h1, h2⟩ := StringView.C24_contains_partial t s.after x xAfter hs.2.1 hx
    refine ⟨r, ?_, ?_⟩
    · rw [contains, indexOf, hs.view_eq]
      exact h1
    · rw [h2]
      constructor
      · rintro ⟨l, a, b, h, _⟩
        exact ⟨a, b, h.symm⟩
      · rintro ⟨a, b, h⟩
        exact ⟨a.length, a, b, h.symm, rfl⟩

theorem matchAt_empty (t rest : List Byte) (i : Nat) :
    StringView.matchAt t [] [] (0#8 :: rest) i =
      match t[i]? with
      | some a => .ok (if a = 0#8 then true else false)
      | none => .ub := by
  rw [StringView.matchAt, List.append_nil]
  cases ht : t[i]? with
  | none => rfl
  | some a =>
    simp only [List.nil_append, List.getElem?_cons_zero]
    split
    · have : StringView.substring t i (wrap16 (i + ([] : List Byte).length)) = [] := by
        refine List.length_eq_zero_iff.mp ?_
        rw [(StringView.C23_substring t i _).1, List.length_nil, Nat.add_zero]
        have := wrap16_le i
        omega
      rw [this]
      rfl
    · rfl

theorem indexOfLoop_empty (t rest : List Byte) (hz : 0#8 ∉ t) (k i : Nat) (h : i + k = t.length + 1) (hk : 0 < k) :
    StringView.indexOfLoop t [] [] (0#8 :: rest) k i = .ub := by
  induction k generalizing i with
  | zero => omega
  | succ k ih =>
    rw [StringView.indexOfLoop, matchAt_empty]
    by_cases hi : i < t.length
    · rw [List.getElem?_eq_getElem hi]
      simp only
      rw [if_neg (fun h => hz (by rw [← h]; exact List.getElem_mem hi))]
      exact ih (i + 1) (by omega) (by omega)
    · rw [List.getElem?_eq_none (by omega)]

theorem lastIndexOfLoop_empty (t rest : List Byte) (k i : Nat) (r : Option Nat) (h : i + k = t.length + 1) (hk : 0 < k) :
    StringView.lastIndexOfLoop t [] [] (0#8 :: rest) k i r = .ub := by
  induction k generalizing i r with
  | zero => omega
  | succ k ih =>
    rw [StringView.lastIndexOfLoop, matchAt_empty]
    by_cases hi : i < t.length
    · rw [List.getElem?_eq_getElem hi]
      simp only
      by_cases hz : t[i] = 0#8
      · rw [if_pos hz]; exact ih (i + 1) _ (by omega) (by omega)
      · rw [if_neg hz]; exact ih (i + 1) _ (by omega) (by omega)
    · rw [List.getElem?_eq_none (by omega)]

/-- **C93, negation**: in a string that has no spare memory behind its text (all strings made by `makeString`), looking for the
literal `""` reads behind the buffer: undefined behaviour for `lastIndexOf`, and for `indexOf` and `contains` unless the text
has a null character. -/
theorem C93_empty_needle (s : Str) (t rest : List Byte) (hs : Has s t) (ha : s.after = []) (hl : t.length + 1 < 2 ^ 16) :
    s.lastIndexOf [] (0#8 :: rest) 0 = .ub ∧
    (0#8 ∉ t → s.indexOf [] (0#8 :: rest) 0 = .ub ∧ s.contains [] (0#8 :: rest) = .ub) := by
  have hc : ¬(t.length < 0 ∨ t.length < ([] : List Byte).length ∨ t.length < 0 + ([] : List Byte).length) := by simp
  have hk : wrap16 (t.length - ([] : List Byte).length + 1) - 0 = t.length + 1 := by
    rw [List.length_nil]; simp only [Nat.sub_zero]; rw [wrap16_of_lt (by omega)]
  have h1 : s.lastIndexOf [] (0#8 :: rest) 0 = .ub := by
    rw [lastIndexOf, hs.view_eq, ha, StringView.lastIndexOf, if_neg hc, hk]
    exact lastIndexOfLoop_empty t rest _ 0 none (by omega) (by omega)
  refine ⟨h1, fun hz => ?_⟩
  have h2 : s.indexOf [] (0#8 :: rest) 0 = .ub := by
    rw [indexOf, hs.view_eq, ha, StringView.indexOf, if_neg hc, hk]
    exact indexOfLoop_empty t rest hz _ 0 (by omega) (by omega)
  exact ⟨h2, by rw [contains, h2]⟩

/-- **C93** (partial: the string is not empty, or its buffer is null): the first and the last character. Missing: the empty string
with a buffer, for which `startsWith(char)` reads behind it (`C93_startsWith_empty`). -/
theorem C93_ends_partial (s : Str) (t : List Byte) (hs : Has s t) (null : Bool) (hn : null = true → t = []) (c : Byte)
    (h : null = true ∨ t ≠ []) :
    s.startsWithChar null c = .ok (if t = [] then c == 0#8 else t.head? == some c) ∧
    s.endsWithChar null c = if t = [] then c == 0#8 else t.getLast? == some c := by
  rw [startsWithChar, endsWithChar, hs.view_eq]
  exact ⟨StringView.C72_startsWith_char_partial null t _ c hn h, StringView.C72_endsWith_char null t c hn⟩

/-- **C93, negation**: asking an empty string with a buffer of no bytes for its first character reads behind the buffer. -/
theorem C93_startsWith_empty (s : Str) (hs : Has s []) (ha : s.after = []) (c : Byte) : s.startsWithChar false c = .ub := by
  rw [startsWithChar, hs.view_eq, ha]
  exact (StringView.C72_startsWith_char_reads_outside c []).2

/-! Concrete strings. -/

example : Has ⟨[0x61#8, 0x62#8, 0#8], 2⟩ [0x61#8, 0x62#8] := ⟨rfl, by decide, [0#8], rfl⟩
example : Has ⟨[], 0⟩ [] ∧ (⟨[], 0⟩ : Str).after = [] := ⟨⟨rfl, by decide, [], rfl⟩, rfl⟩
example : (⟨[0x61#8, 0x62#8], 2⟩ : Str).indexOf [] [0#8] 0 = .ub := by decide +kernel
example : (⟨[0x61#8, 0x62#8], 2⟩ : Str).contains [0x62#8] [0#8] = .ok true := by decide +kernel
example : (⟨[0x61#8, 0x62#8], 2⟩ : Str).equalsCString (some [0x61#8, 0x62#8, 0#8]) = .ok true := by decide +kernel
example : (⟨[0x61#8], 1⟩ : Str).lt ⟨[0x62#8], 1⟩ = .ok true ∧ (⟨[0x61#8], 1⟩ : Str).lt ⟨[], 0⟩ = .terminate := by
  decide +kernel

end Solace.Str
