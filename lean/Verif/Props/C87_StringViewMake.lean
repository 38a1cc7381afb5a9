import Verif.Model.StringViewMake
import Verif.Lemmas.StringView
import Verif.Lemmas.MemoryView
import Verif.Lemmas.String
/-
C87: making and reading string views.
-/
namespace Solace.Make

/-- **C87** (full), pointer and count: a null pointer is accepted with the count 0 only, and gives an empty view; any other
pointer gives the first `count` characters. -/
theorem C87_pointer (count : Nat) (m : List Byte) :
    (ofPointer none count = .throws ↔ count ≠ 0) ∧
    (∃ v, ofPointer none 0 = .ok v ∧ v.chars = .ok []) ∧
    (count ≤ m.length → ∃ v, ofPointer (some m) count = .ok v ∧ v.size = count ∧ v.chars = .ok (m.take count)) := by
  refine ⟨?_, ⟨_, rfl, rfl⟩, fun h => ⟨_, rfl, rfl, ?_⟩⟩
  · rw [ofPointer]
    split <;> simp [*]
  · rw [SV.chars]
    by_cases h0 : count = 0
    · subst h0; rfl
    · simp only
      rw [if_neg h0, if_pos h]

theorem strlen_nul (s rest : List Byte) (h : 0#8 ∉ s) : strlen (s ++ 0#8 :: rest) = .ok s.length := by
  induction s with
  | nil => rfl
  | cons c s ih =>
    rw [List.mem_cons, not_or] at h
    rw [List.cons_append, strlen, if_neg (Ne.symm h.1), ih h.2]
    rfl

theorem strlen_none (m : List Byte) (h : 0#8 ∉ m) : strlen m = .ub := by
  induction m with
  | nil => rfl
  | cons c m ih =>
    rw [List.mem_cons, not_or] at h
    rw [strlen, if_neg (Ne.symm h.1), ih h.2, Outcome.bind]

theorem chars_take (m : List Byte) (n : Nat) (h : n ≤ m.length) : SV.chars ⟨some m, n⟩ = .ok (m.take n) := by
  rw [SV.chars]
  by_cases h0 : n = 0
  · subst h0; rfl
  · simp only
    rw [if_neg h0, if_pos h]

/-- **C87, exactly**: what the view of a C string shows - the first `strlen mod 65536` characters; without a terminating
null character there is undefined behaviour, and the null pointer gives an empty view. -/
theorem C87_cstring_exact (s rest : List Byte) (h : 0#8 ∉ s) :
    (∃ v, ofCString (some (s ++ 0#8 :: rest)) = .ok v ∧ v.size = s.length % 2 ^ 16 ∧
      v.chars = .ok (s.take (s.length % 2 ^ 16))) ∧
    ofCString (some s) = .ub ∧ (∃ v, ofCString none = .ok v ∧ v.chars = .ok []) := by
  refine ⟨⟨⟨some (s ++ 0#8 :: rest), wrap16 s.length⟩, ?_, ?_, ?_⟩, ?_, _, rfl, rfl⟩
  · rw [ofCString, strlen_nul s rest h]
  · exact wrap16_def _
  · have hm : s.length % 2 ^ 16 ≤ s.length := Nat.mod_le _ _
    rw [wrap16_def, chars_take _ _ (by rw [List.length_append]; omega), List.take_append_of_le_length hm]
  · rw [ofCString, strlen_none s h]

/-- **C87** (partial: C strings shorter than 65536 characters), C strings: the view shows the text up to the terminating null
character. Missing: longer C strings, for which `C87_cstring_long` holds. -/
theorem C87_cstring_partial (s rest : List Byte) (h : 0#8 ∉ s) (hl : s.length < 2 ^ 16) :
    ∃ v, ofCString (some (s ++ 0#8 :: rest)) = .ok v ∧ v.chars = .ok s := by
  obtain ⟨⟨v, h1, _, h3⟩, _⟩ := C87_cstring_exact s rest h
  rw [Nat.mod_eq_of_lt hl, List.take_length] at h3
  exact ⟨v, h1, h3⟩

/-- **C87, negation**: no C string of 65536 characters or more is shown completely. -/
theorem C87_cstring_long (s rest : List Byte) (h : 0#8 ∉ s) (hl : 2 ^ 16 ≤ s.length) :
    ∃ v t, ofCString (some (s ++ 0#8 :: rest)) = .ok v ∧ v.chars = .ok t ∧ t.length < s.length := by
  obtain ⟨⟨v, h1, _, h3⟩, _⟩ := C87_cstring_exact s rest h
  refine ⟨v, _, h1, h3, ?_⟩
  rw [List.length_take]
  omega

/-- **C87, exactly**: the string view of a memory view shows the first `size mod 65536` bytes. -/
theorem C87_memory_exact (v : MutView) (hv : v.Valid) :
    (ofMemory v).chars = .ok (v.bytes.take (v.bytes.length % 2 ^ 16)) := by
  have hm : v.bytes.length % 2 ^ 16 ≤ v.bytes.length := Nat.mod_le _ _
  rw [ofMemory, wrap16_def]
  by_cases hn : v.null = true
  · rw [hv hn]; rfl
  · rw [if_neg hn, chars_take _ _ hm]

/-- **C87** (partial: less than 65536 bytes), memory: all the bytes are shown. -/
theorem C87_memory_partial (v : MutView) (hv : v.Valid) (hl : v.bytes.length < 2 ^ 16) :
    (ofMemory v).chars = .ok v.bytes := by
  rw [C87_memory_exact v hv, Nat.mod_eq_of_lt hl, List.take_length]

/-- **C87, negation**: a view of 65536 bytes of memory is empty. -/
theorem C87_memory_wraps (v : MutView) (hv : v.Valid) (hl : v.bytes.length = 2 ^ 16) : (ofMemory v).chars = .ok [] := by
  rw [C87_memory_exact v hv, hl, Nat.mod_self]; rfl

/-- **C87** (full), literals: all characters but the last (the terminating null character of a string literal) are shown, null
characters included. -/
theorem C87_literal (s : List Byte) (c : Byte) : (ofArray (s ++ [c])).chars = .ok s := by
  rw [ofArray, chars_take _ _ (by simp)]
  simp

theorem iterate_take (n : Nat) (m : List Byte) (h : n ≤ m.length) : iterate n m = .ok (m.take n) := by
  induction n generalizing m with
  | zero => rfl
  | succ n ih =>
    match m, h with
    | c :: m, h =>
      rw [iterate, ih m (by simpa using h)]
      rfl

/-- What a view with readable characters is like. -/
theorem chars_ok {v : SV} {s : List Byte} (h : v.chars = .ok s) :
    s.length = v.size ∧ (s ≠ [] → ∃ m, v.data = some m ∧ v.size ≤ m.length ∧ s = m.take v.size) := by
  rw [SV.chars] at h
  split at h
  · rename_i h0
    cases h
    exact ⟨by simp [h0], fun h => absurd rfl h⟩
  · split at h
    · cases h
    · rename_i m hm
      split at h
      · rename_i hle
        cases h
        exact ⟨by rw [List.length_take]; omega, fun _ => ⟨m, hm, hle, rfl⟩⟩
      · cases h

/-- **C87** (full), reading a view whose characters can be read: iterating from `begin()` to `end()` gives them in order,
`charAt(i)` gives the `i`-th and throws exactly when there is none, `view()` is their memory, and the view is true exactly
when there are any. -/
theorem C87_reading (v : SV) (s : List Byte) (h : v.chars = .ok s) :
    v.iterate = .ok s ∧
    (∀ i, v.charAt i = match s[i]? with | some c => .ok c | none => .throws) ∧
    (∃ w, v.memory = .ok w ∧ w.bytes = s) ∧
    (v.truth = true ↔ s ≠ []) := by
  obtain ⟨hl, hd⟩ := chars_ok h
  by_cases hs : s = []
  · subst hs
    have h0 : v.size = 0 := by rw [← hl]; rfl
    refine ⟨?_, ?_, ?_, ?_⟩
    · rw [SV.iterate, if_pos h0, h0]; rfl
    · intro i
      rw [SV.charAt, if_pos (by omega)]
      rfl
    · rw [SV.memory]
      split
      · rw [if_pos h0]; exact ⟨_, rfl, rfl⟩
      · exact ⟨_, rfl, by rw [h0]; rfl⟩
    · simp [SV.truth, h0]
  · obtain ⟨m, hm, hle, e⟩ := hd hs
    have h0 : v.size ≠ 0 := by
      intro h0
      rw [h0] at hl
      exact hs (List.length_eq_zero_iff.mp hl)
    refine ⟨?_, ?_, ?_, ?_⟩
    · rw [SV.iterate, if_neg h0, hm]
      simp only
      rw [iterate_take _ _ hle, ← e]
    · intro i
      rw [SV.charAt, hm]
      by_cases hi : v.size ≤ i
      · rw [if_pos hi, List.getElem?_eq_none (by omega)]
      · have hi' : s[i]? = m[i]? := by rw [e, List.getElem?_take_of_lt (by omega)]
        rw [if_neg hi, hi']
        simp only
        rw [List.getElem?_eq_getElem (show i < m.length by omega)]
    · rw [SV.memory, hm]
      exact ⟨_, rfl, e.symm⟩
    · simp [SV.truth, h0, hs]

/-- **C87**, `operator[]`: it agrees with the characters for indices inside the view. -/
theorem C87_index_partial (v : SV) (s : List Byte) (h : v.chars = .ok s) (i : Nat) (hi : i < s.length) :
    v.index i = .ok s[i] := by
  obtain ⟨hl, hd⟩ := chars_ok h
  obtain ⟨m, hm, hle, e⟩ := hd (by rintro rfl; simp at hi)
  have hi' : m[i]? = some s[i] := by
    rw [← List.getElem?_eq_getElem hi, e, List.getElem?_take_of_lt (by omega)]
  rw [SV.index, hm]
  simp only
  rw [hi']

/-- **C87, negation**: outside of the view `operator[]` does not throw as documented; it reads the memory behind the view,
which is undefined behaviour when there is none. -/
theorem C87_index_unchecked (m after : List Byte) (i : Nat) (hi : m.length ≤ i) :
    SV.index ⟨some (m ++ after), m.length⟩ i =
      match after[i - m.length]? with
      | some c => .ok c
      | none => .ub := by
  rw [SV.index]
  simp only
  rw [List.getElem?_append_right hi]
  rfl

/-- **C87** (full): a view can be taken apart into its memory and made again. -/
theorem C87_round_trip (v : SV) (s : List Byte) (h : v.chars = .ok s) (hv : v.size < 2 ^ 16) :
    ∃ w, v.memory = .ok w ∧ (ofMemory w).chars = .ok s := by
  obtain ⟨_, _, ⟨w, hw, he⟩, _⟩ := C87_reading v s h
  refine ⟨w, hw, ?_⟩
  have hval : w.Valid := by
    rw [SV.memory] at hw
    split at hw
    · split at hw
      · cases hw; exact fun _ => rfl
      · cases hw
    · cases hw; intro hc; cases hc
  rw [C87_memory_partial w hval (by rw [he, (chars_ok h).1]; exact hv), he]

theorem equalsLoop_spec (a b : List Byte) (n i : Nat) (ha : i + n ≤ a.length) (hb : i + n ≤ b.length) :
    equalsLoop (some a) (some b) n i = .ok (decide ((a.drop i).take n = (b.drop i).take n)) := by
  induction n generalizing i with
  | zero => rw [equalsLoop]; simp
  | succ n ih =>
    have h1 : a.drop i = a[i]'(by omega) :: a.drop (i + 1) := List.drop_eq_getElem_cons (by omega)
    have h2 : b.drop i = b[i]'(by omega) :: b.drop (i + 1) := List.drop_eq_getElem_cons (by omega)
    rw [equalsLoop]
    simp only [Option.bind_some]
    rw [List.getElem?_eq_getElem (show i < a.length by omega), List.getElem?_eq_getElem (show i < b.length by omega)]
    simp only
    rw [h1, h2, List.take_succ_cons, List.take_succ_cons]
    by_cases hx : a[i]'(by omega) = b[i]'(by omega)
    · rw [if_neg (by simpa using hx), ih (i + 1) (by omega) (by omega)]
      simp [hx]
    · rw [if_pos hx]
      simp [hx]

/-- **C87** (full): two views are equal exactly when they show the same characters. -/
theorem C87_equals (a b : SV) (s t : List Byte) (ha : a.chars = .ok s) (hb : b.chars = .ok t) :
    a.equals b = .ok (decide (s = t)) := by
  obtain ⟨la, da⟩ := chars_ok ha
  obtain ⟨lb, db⟩ := chars_ok hb
  rw [SV.equals]
  by_cases hl : a.size = b.size
  · rw [if_neg (by simpa using hl)]
    by_cases hs : s = []
    · have h0 : a.size = 0 := by rw [← la, hs]; rfl
      have ht : t = [] := List.length_eq_zero_iff.mp (by omega)
      rw [h0, equalsLoop, hs, ht]
      simp
    · have ht : t ≠ [] := by
        rintro rfl
        exact hs (List.length_eq_zero_iff.mp (by rw [la, hl, ← lb]; rfl))
      obtain ⟨m, hm, hle, e⟩ := da hs
      obtain ⟨m', hm', hle', e'⟩ := db ht
      rw [hm, hm', equalsLoop_spec _ _ _ _ (by omega) (by omega), List.drop_zero, List.drop_zero, ← e, hl, ← e']
  · rw [if_pos hl]
    have : s ≠ t := by
      rintro rfl
      exact hl (by omega)
    simp [this]

/-- **C87, exactly**, comparison with a C string: the view is compared with the first `strlen mod 65536` characters. So for
C strings shorter than 65536 it tells whether the texts are the same. -/
theorem C87_equals_cstring (a : SV) (s t rest : List Byte) (ha : a.chars = .ok s) (h : 0#8 ∉ t) :
    a.equalsCString (some (t ++ 0#8 :: rest)) = .ok (decide (s = t.take (t.length % 2 ^ 16))) ∧
    (t.length < 2 ^ 16 → a.equalsCString (some (t ++ 0#8 :: rest)) = .ok (decide (s = t))) := by
  obtain ⟨⟨v, h1, _, h3⟩, _⟩ := C87_cstring_exact t rest h
  have : a.equalsCString (some (t ++ 0#8 :: rest)) = .ok (decide (s = t.take (t.length % 2 ^ 16))) := by
    rw [SV.equalsCString, h1]
    exact C87_equals a v s _ ha h3
  refine ⟨this, fun hl => ?_⟩
  rw [this, Nat.mod_eq_of_lt hl, List.take_length]

/-- **C87, negation**: an empty view equals a C string of 65536 characters. -/
theorem C87_equals_cstring_wraps (t rest : List Byte) (h : 0#8 ∉ t) (hl : t.length = 2 ^ 16) :
    SV.empty.equalsCString (some (t ++ 0#8 :: rest)) = .ok true := by
  rw [(C87_equals_cstring SV.empty [] t rest rfl h).1, hl, Nat.mod_self]
  rfl

/-- **C87, negation**, `String::substring(from, len)`: documented to give `len` characters from `from` on, it takes its second
argument as the end. The two agree exactly when `from` is 0 or not inside the text, or `len` is 0 or not inside the text. -/
theorem C87_substring_len (s : Str) (from' len : Nat) :
    s.substring from' len = (s.view.drop from').take len ↔
      from' = 0 ∨ s.view.length ≤ from' ∨ len = 0 ∨ s.view.length ≤ len := by
  have key : s.substring from' len = (s.view.drop from').take (len - from') := by
    rw [Str.substring, StringView.substring]
    by_cases hf : s.view.length ≤ from'
    · rw [Nat.min_eq_right hf, List.drop_eq_nil_of_le (Nat.le_refl _), List.drop_eq_nil_of_le hf]
      simp
    · have h1 : min from' s.view.length = from' := by omega
      simp only [h1]
      rw [List.take_eq_take_iff, List.length_drop]
      omega
  rw [key, List.take_eq_take_iff, List.length_drop]
  omega

/-- **C87** (full), `String::substring(from, to)` read as a range, also `operator()`: the characters with index from `from`
up to `to`, both clamped. -/
theorem C87_substring_range (s : Str) (from' to' : Nat) :
    s.substring from' to' = (s.view.drop from').take (to' - from') ∧ s.call from' to' = s.substring from' to' := by
  refine ⟨?_, rfl⟩
  rw [Str.substring, StringView.substring]
  by_cases hf : s.view.length ≤ from'
  · rw [Nat.min_eq_right hf, List.drop_eq_nil_of_le (Nat.le_refl _), List.drop_eq_nil_of_le hf]
    simp
  · have h1 : min from' s.view.length = from' := by omega
    simp only [h1]
    rw [List.take_eq_take_iff, List.length_drop]
    omega

example : ofCString (some [0x61#8, 0x62#8, 0#8, 0x63#8]) = .ok ⟨some [0x61#8, 0x62#8, 0#8, 0x63#8], 2⟩ := by decide +kernel
example : SV.chars ⟨some [0x61#8, 0x62#8, 0#8], 2⟩ = .ok [0x61#8, 0x62#8] := by decide +kernel
/-- "hello".substring(1, 3) is "el", not "ell". -/
example : Str.substring ⟨[0x68#8, 0x65#8, 0x6C#8, 0x6C#8, 0x6F#8], 5⟩ 1 3 = [0x65#8, 0x6C#8] := by decide +kernel
example : ∃ t : List Byte, 0#8 ∉ t ∧ t.length = 2 ^ 16 := ⟨List.replicate (2 ^ 16) 1#8, fun h => absurd (List.eq_of_mem_replicate h) (by decide), List.length_replicate⟩

end Solace.Make
