import Verif.Model.StringArgs
import Verif.Props.C29_C31_String
import Verif.Props.C87_StringViewMake
/-
C91: concatenating and joining arguments of mixed kinds puts together the texts of the arguments.

The specification gives the text of an argument (`Text`) without the library: a C string holds the characters before its first
null character.
-/
namespace Solace.StringArgs

/-- The text an argument stands for. -/
inductive Text : Arg → List Byte → Prop
  | char (c : Byte) : Text (.char c) [c]
  | view (s : List Byte) : Text (.view s) s
  | null : Text (.cstring none) []
  | cstring (s rest : List Byte) (h : 0#8 ∉ s) : Text (.cstring (some (s ++ 0#8 :: rest))) s
  | constString (s : List Byte) : Text (.constString s) s
  | string (s : List Byte) : Text (.string s) s

inductive Texts : List Arg → List (List Byte) → Prop
  | nil : Texts [] []
  | cons {a s as ss} (h : Text a s) (t : Texts as ss) : Texts (a :: as) (s :: ss)

/-- An argument of type `String` that is not `const`. -/
def IsString (a : Arg) : Prop := ∃ s, a = .string s

theorem ok_bind {α β : Type} (a : α) (f : α → Outcome β) : (Outcome.ok a).bind f = f a := rfl

theorem cstring_ok (s rest : List Byte) (h : 0#8 ∉ s) (hl : s.length < 2 ^ 16) :
    ∃ v, Make.ofCString (some (s ++ 0#8 :: rest)) = .ok v ∧ v.size = s.length ∧ v.chars = .ok s := by
  obtain ⟨⟨v, h1, h2, h3⟩, _⟩ := Make.C87_cstring_exact s rest h
  rw [Nat.mod_eq_of_lt hl] at h2 h3
  rw [List.take_length] at h3
  exact ⟨v, h1, h2, h3⟩

theorem written_ok (a : Arg) (s : List Byte) (h : Text a s) (hl : s.length < 2 ^ 16) : written a = .ok s := by
  cases h with
  | cstring s rest h =>
    obtain ⟨v, h1, _, h3⟩ := cstring_ok s rest h hl
    rw [written, h1, ok_bind, h3]
  | _ => rfl

theorem totalSizeOne_ok (fuel : Nat) (a : Arg) (s : List Byte) (h : Text a s) (hn : ¬IsString a) (hl : s.length < 2 ^ 16) :
    totalSizeOne fuel a = some (.ok s.length) := by
  cases h with
  | cstring s rest h =>
    obtain ⟨v, h1, h2, _⟩ := cstring_ok s rest h hl
    rw [totalSizeOne, h1, ok_bind, h2]
  | null => rw [totalSizeOne]; rfl
  | string s => exact absurd ⟨s, rfl⟩ hn
  | _ => rw [totalSizeOne]; try rfl

theorem totalSizeOne_string (fuel : Nat) (s : List Byte) : totalSizeOne fuel (.string s) = none := by
  induction fuel with
  | zero => rw [totalSizeOne]
  | succ fuel ih => rw [totalSizeOne]; exact ih

theorem totalSizeSum_none (fuel : Nat) (args : List Arg) (h : ∃ a ∈ args, IsString a) : totalSizeSum fuel args = none := by
  induction args with
  | nil => obtain ⟨a, ha, _⟩ := h; cases ha
  | cons b as ih =>
    obtain ⟨a, ha, hs⟩ := h
    rcases List.mem_cons.1 ha with rfl | ha
    · obtain ⟨s, rfl⟩ := hs
      rw [totalSizeSum, totalSizeOne_string]
    · rw [totalSizeSum, ih ⟨a, ha, hs⟩]
      cases totalSizeOne fuel b <;> rfl

theorem totalSizeSum_ok (fuel : Nat) (args : List Arg) (ss : List (List Byte)) (h : Texts args ss)
    (hn : ∀ a ∈ args, ¬IsString a) (hl : ss.flatten.length < 2 ^ 16) :
    totalSizeSum fuel args = some (.ok ss.flatten.length) := by
  induction h with
  | nil => rfl
  | @cons a s as ss h t ih =>
    rw [List.flatten_cons, List.length_append] at hl
    rw [totalSizeSum, totalSizeOne_ok fuel a s h (hn a (List.mem_cons_self ..)) (by omega)]
    simp only
    rw [ih (fun a ha => hn a (List.mem_cons_of_mem _ ha)) (by omega), List.flatten_cons, List.length_append]
    rfl

theorem writtenAll_ok (args : List Arg) (ss : List (List Byte)) (h : Texts args ss) (hl : ss.flatten.length < 2 ^ 16) :
    writtenAll args = .ok ss := by
  induction h with
  | nil => rfl
  | @cons a s as ss h t ih =>
    rw [List.flatten_cons, List.length_append] at hl
    rw [writtenAll, written_ok a s h (by omega), ok_bind, ih (by omega), ok_bind]

theorem concat_ok (alloc : Nat → Except Err MutView) (fuel : Nat) (args : List Arg) (ss : List (List Byte))
    (h : Texts args ss) (hn : ∀ a ∈ args, ¬IsString a) (hl : ss.flatten.length < 2 ^ 16) :
    concat alloc fuel args = some (.ok (Str.makeConcat alloc ss)) := by
  rw [concat, totalSize, totalSizeSum_ok fuel args ss h hn hl, Option.map_some, Option.map_some, ok_bind,
    Str.makeConcat, ← Str.flatten_length]
  cases alloc (wrap16 ss.flatten.length) with
  | error e => rfl
  | ok v =>
    simp only
    rw [writtenAll_ok args ss h hl, ok_bind]

theorem convert_ok (a : Arg) (s : List Byte) (h : Text a s) (hl : s.length < 2 ^ 16) :
    ∃ b, convert a = .ok b ∧ Text b s ∧ ¬IsString b := by
  cases h with
  | cstring s rest h =>
    obtain ⟨v, h1, _, h3⟩ := cstring_ok s rest h hl
    refine ⟨.view s, ?_, .view s, fun ⟨_, h⟩ => nomatch h⟩
    simp only [convert, h1, h3]
  | char c => exact ⟨_, rfl, .char c, fun ⟨_, h⟩ => nomatch h⟩
  | null => exact ⟨.view [], rfl, .view _, fun ⟨_, h⟩ => nomatch h⟩
  | view s => exact ⟨_, rfl, .view s, fun ⟨_, h⟩ => nomatch h⟩
  | constString s => exact ⟨_, rfl, .view s, fun ⟨_, h⟩ => nomatch h⟩
  | string s => exact ⟨_, rfl, .view s, fun ⟨_, h⟩ => nomatch h⟩

/-- **C91** (partial: the texts have fewer than 65536 characters together, and no argument after the second is a `String` that
is not `const`): an error of the memory manager, or the texts one after the other. Missing: longer texts, for which the string
is too short (`C29_concat_truncates`), and strings that are not `const`, for which `C91_string_diverges` holds. -/
theorem C91_concat_partial (alloc : Nat → Except Err MutView) (ha : Str.AllocOk alloc) (fuel : Nat) (lhs rhs : Arg)
    (args : List Arg) (l r : List Byte) (ss : List (List Byte)) (hlhs : Text lhs l) (hrhs : Text rhs r) (h : Texts args ss)
    (hn : ∀ a ∈ args, ¬IsString a) (hl : (l :: r :: ss).flatten.length < 2 ^ 16) :
    (∃ e, alloc (l :: r :: ss).flatten.length = .error e ∧ makeString alloc fuel lhs rhs args = some (.ok (.error e))) ∨
    ∃ str, makeString alloc fuel lhs rhs args = some (.ok (.ok str)) ∧ str.view = (l :: r :: ss).flatten := by
  have hl' := hl
  rw [List.flatten_cons, List.flatten_cons, List.length_append, List.length_append] at hl'
  obtain ⟨b, hb, tb, nb⟩ := convert_ok lhs l hlhs (by omega)
  obtain ⟨c, hc, tc, nc⟩ := convert_ok rhs r hrhs (by omega)
  have e : makeString alloc fuel lhs rhs args = some (.ok (Str.makeConcat alloc (l :: r :: ss))) := by
    rw [makeString, hb, hc]
    refine concat_ok alloc fuel _ _ (.cons tb (.cons tc h)) (fun a ha => ?_) hl
    rcases List.mem_cons.1 ha with rfl | ha
    · exact nb
    · rcases List.mem_cons.1 ha with rfl | ha
      · exact nc
      · exact hn a ha
  rw [e]
  rcases Str.C29_concat_partial alloc ha (l :: r :: ss) hl with ⟨e, h1, h2⟩ | ⟨str, h1, h2⟩
  · exact .inl ⟨e, h1, by rw [h2]⟩
  · exact .inr ⟨str, by rw [h1], h2⟩

/-- **C91, negation**: with a `String` that is not `const` as the third or a later argument the call never returns. -/
theorem C91_string_diverges (alloc : Nat → Except Err MutView) (fuel : Nat) (lhs rhs : Arg) (args : List Arg) (l r : List Byte)
    (hlhs : Text lhs l) (hrhs : Text rhs r) (hl : l.length < 2 ^ 16) (hr : r.length < 2 ^ 16) (hs : ∃ a ∈ args, IsString a) :
    makeString alloc fuel lhs rhs args = none := by
  obtain ⟨b, hb, _, _⟩ := convert_ok lhs l hlhs hl
  obtain ⟨c, hc, _, _⟩ := convert_ok rhs r hrhs hr
  rw [makeString, hb, hc]
  simp only
  obtain ⟨a, ha, hs⟩ := hs
  rw [concat, totalSize, totalSizeSum_none fuel _ ⟨a, List.mem_cons_of_mem _ (List.mem_cons_of_mem _ ha), hs⟩]
  rfl

theorem joint_ok (a : Arg) (s : List Byte) (h : Text a s) (hl : s.length < 2 ^ 16) : ∃ b, joint a = .ok (b, s) := by
  have hw := written_ok a s h hl
  cases h with
  | cstring s rest h => exact ⟨false, by simp only [joint, hw]⟩
  | char c => exact ⟨false, rfl⟩
  | null => exact ⟨false, rfl⟩
  | view s => exact ⟨false, rfl⟩
  | constString s => exact ⟨true, rfl⟩
  | string s => exact ⟨true, rfl⟩

theorem jointAll_ok (args : List Arg) (ss : List (List Byte)) (h : Texts args ss) (hl : ss.flatten.length < 2 ^ 16) :
    ∃ js, jointAll args = .ok js ∧ js.map (·.2) = ss := by
  induction h with
  | nil => exact ⟨[], rfl, rfl⟩
  | @cons a s as ss h t ih =>
    rw [List.flatten_cons, List.length_append] at hl
    obtain ⟨b, hb⟩ := joint_ok a s h (by omega)
    obtain ⟨js, h1, h2⟩ := ih (by omega)
    refine ⟨(b, s) :: js, ?_, ?_⟩
    · rw [jointAll, hb, ok_bind, h1, ok_bind]
    · rw [List.map_cons, h2]

theorem flatten_le_intercalate (by' : List Byte) (ss : List (List Byte)) :
    ss.flatten.length ≤ (by'.intercalate ss).length := by
  rw [Str.intercalate_length, Str.flatten_length]
  omega

theorem joinArgs_ok (alloc : Nat → Except Err MutView) (ha : Str.AllocOk alloc) (fuel : Nat) (by' : List Byte) (args : List Arg)
    (ss : List (List Byte)) (h : Texts args ss) (hn : ∀ a ∈ args, ¬IsString a) (hl : (by'.intercalate ss).length < 2 ^ 16) :
    (∃ e, joinArgs alloc fuel by' args = some (.ok (.error e))) ∨
    ∃ str, joinArgs alloc fuel by' args = some (.ok (.ok str)) ∧ str.view = by'.intercalate ss := by
  have hf := Nat.lt_of_le_of_lt (flatten_le_intercalate by' ss) hl
  obtain ⟨js, h1, h2⟩ := jointAll_ok args ss h hf
  have e : joinArgs alloc fuel by' args = some (.ok (Str.makeJoinArgs alloc by' js)) := by
    rw [joinArgs, totalSize, totalSizeSum_ok fuel args ss h hn hf, Option.map_some, Option.map_some, ok_bind,
      h1]
  rw [e]
  rcases Str.C73_join_args_partial alloc ha by' js (by rw [h2]; exact hl) with ⟨e, h3⟩ | ⟨str, h3, h4⟩
  · exact .inl ⟨e, by rw [h3]⟩
  · exact .inr ⟨str, by rw [h3], by rw [h4, h2]⟩

/-- **C91** (partial: the result has fewer than 65536 characters, and no argument is a `String` that is not `const`): an error
of the memory manager, or the texts separated by `by`. Missing: longer results and strings that are not `const`. -/
theorem C91_join_partial (alloc : Nat → Except Err MutView) (ha : Str.AllocOk alloc) (fuel : Nat) (by' : List Byte)
    (args : List Arg) (ss : List (List Byte)) (h : Texts args ss) (hn : ∀ a ∈ args, ¬IsString a)
    (hl : (by'.intercalate ss).length < 2 ^ 16) :
    (∃ e, makeJoin alloc fuel by' args = some (.ok (.error e))) ∨
    ∃ str, makeJoin alloc fuel by' args = some (.ok (.ok str)) ∧ str.view = by'.intercalate ss := by
  have one := fun s : List Byte => Str.C29_make alloc ha s
  have single : ∀ s : List Byte, by'.intercalate [s] = s := fun s => by simp [List.intercalate]
  cases h with
  | nil => exact .inr ⟨⟨[], 0⟩, rfl, rfl⟩
  | @cons a s as ss h t =>
    cases t with
    | nil =>
      rw [single] at hl ⊢
      cases h with
      | view s =>
        rw [makeJoin]
        rcases one s with ⟨e, h⟩ | ⟨str, h1, h2⟩
        · exact .inl ⟨e, by rw [h]⟩
        · exact .inr ⟨str, by rw [h1], h2⟩
      | constString s =>
        rw [makeJoin]
        rcases one s with ⟨e, h⟩ | ⟨str, h1, h2⟩
        · exact .inl ⟨e, by rw [h]⟩
        · exact .inr ⟨str, by rw [h1], h2⟩
      | string s => exact absurd ⟨s, rfl⟩ (hn _ (List.mem_cons_self ..))
      | char c => 
        have := joinArgs_ok alloc ha fuel by' [.char c] [[c]] (.cons (.char c) .nil) hn (by rw [single]; exact hl)
        rw [single] at this
        exact this
      | null =>
        have := joinArgs_ok alloc ha fuel by' [.cstring none] [[]] (.cons .null .nil) hn (by rw [single]; exact hl)
        rw [single] at this
        exact this
      | cstring s rest h =>
        have := joinArgs_ok alloc ha fuel by' _ [s] (.cons (.cstring s rest h) .nil) hn (by rw [single]; exact hl)
        rw [single] at this
        exact this
    | @cons b s' bs ss h' t =>
      have := joinArgs_ok alloc ha fuel by' _ _ (.cons h (.cons h' t)) hn hl
      rw [makeJoin]
      · exact this
      · nofun
      · nofun
      · nofun

/-- **C91, negation**: with a `String` that is not `const` among the arguments the join never returns. -/
theorem C91_join_diverges (alloc : Nat → Except Err MutView) (fuel : Nat) (by' : List Byte) (args : List Arg)
    (hs : ∃ a ∈ args, IsString a) : makeJoin alloc fuel by' args = none := by
  have hj : joinArgs alloc fuel by' args = none := by
    rw [joinArgs, totalSize, totalSizeSum_none fuel _ hs]
    rfl
  obtain ⟨a, ha, s, rfl⟩ := hs
  unfold makeJoin
  split
  · cases ha
  · rcases List.mem_cons.1 ha with h | h <;> nomatch h
  · rcases List.mem_cons.1 ha with h | h <;> nomatch h
  · exact hj

/-- **C91**: an unterminated C string as the first argument is undefined behaviour, whatever the others are. -/
theorem C91_unterminated (alloc : Nat → Except Err MutView) (fuel : Nat) (m : List Byte) (hm : 0#8 ∉ m) (rhs : Arg)
    (args : List Arg) : makeString alloc fuel (.cstring (some m)) rhs args = some .ub := by
  rw [makeString, convert, Make.ofCString, Make.strlen_none m hm]

/-! Concrete cases: `makeString('a', "bc", view, constString)` and `makeStringJoin("-", "x", view)` go through; with a string
that is not `const` they do not. -/

def heap : Nat → Except Err MutView := fun n => .ok ⟨false, List.replicate n 7#8⟩

example : makeString heap 0 (.char 97#8) (.cstring (some [98#8, 99#8, 0#8, 55#8])) [.view [100#8], .constString [101#8]] =
    some (.ok (.ok ⟨[97#8, 98#8, 99#8, 100#8, 101#8], 5⟩)) := by decide +kernel
example : makeJoin heap 0 [45#8] [.cstring (some [120#8, 0#8]), .view [121#8, 122#8]] =
    some (.ok (.ok ⟨[120#8, 45#8, 121#8, 122#8], 4⟩)) := by decide +kernel
example : makeString heap 9 (.view []) (.view []) [.string [1#8]] = none := by decide +kernel
example : Text (.cstring (some [98#8, 0#8])) [98#8] := .cstring [98#8] [] (by decide)
example : Texts [.view [1#8], .constString []] [[1#8], []] := .cons (.view _) (.cons (.constString _) .nil)
example : ¬IsString (.constString [1#8]) := fun ⟨_, h⟩ => nomatch h
example : IsString (.string [1#8]) := ⟨_, rfl⟩

end Solace.StringArgs
