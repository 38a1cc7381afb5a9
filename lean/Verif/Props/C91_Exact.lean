import Verif.Props.C91_StringArgs
import Verif.Props.C29_C31_Exact
/-! C91: the outcome for arguments of every kind and length. -/
namespace Solace.StringArgs

/-- What is taken of an argument: of a C string the first `strlen mod 65536` characters, of everything else the text. -/
inductive Taken : Arg → List Byte → Prop
  | char (c : Byte) : Taken (.char c) [c]
  | view (s : List Byte) : Taken (.view s) s
  | null : Taken (.cstring none) []
  | cstring (s rest : List Byte) (h : 0#8 ∉ s) : Taken (.cstring (some (s ++ 0#8 :: rest))) (s.take (s.length % 2 ^ 16))
  | constString (s : List Byte) : Taken (.constString s) s
  | string (s : List Byte) : Taken (.string s) s

inductive AllTaken : List Arg → List (List Byte) → Prop
  | nil : AllTaken [] []
  | cons {a s as ss} (h : Taken a s) (t : AllTaken as ss) : AllTaken (a :: as) (s :: ss)

/-- A C string without an end. -/
def Endless (a : Arg) : Prop := ∃ m, a = .cstring (some m) ∧ 0#8 ∉ m

/-- Every argument is one or the other. -/
theorem taken_or_endless (a : Arg) : (∃ s, Taken a s) ∨ Endless a := by
  cases a with
  | char c => exact .inl ⟨_, .char c⟩
  | view s => exact .inl ⟨_, .view s⟩
  | constString s => exact .inl ⟨_, .constString s⟩
  | string s => exact .inl ⟨_, .string s⟩
  | cstring m =>
    cases m with
    | none => exact .inl ⟨_, .null⟩
    | some m =>
      by_cases h : 0#8 ∈ m
      · obtain ⟨s, rest, e, hs⟩ := List.eq_append_cons_of_mem h
        rw [e]
        exact .inl ⟨_, .cstring s rest hs⟩
      · exact .inr ⟨m, rfl, h⟩

theorem all_taken_or_endless (args : List Arg) : (∃ ss, AllTaken args ss) ∨ ∃ a ∈ args, Endless a := by
  induction args with
  | nil => exact .inl ⟨[], .nil⟩
  | cons a as ih =>
    rcases taken_or_endless a with ⟨s, h⟩ | h
    · rcases ih with ⟨ss, hs⟩ | ⟨b, hb, h'⟩
      · exact .inl ⟨s :: ss, .cons h hs⟩
      · exact .inr ⟨b, List.mem_cons_of_mem _ hb, h'⟩
    · exact .inr ⟨a, List.mem_cons_self .., h⟩

theorem not_endless (a : Arg) (s : List Byte) (h : Taken a s) : ¬Endless a := by
  rintro ⟨m, e, hm⟩
  cases h with
  | cstring s rest h =>
    cases e
    exact hm (List.mem_append_right _ (List.mem_cons_self ..))
  | _ => cases e

theorem cstring_taken (s rest : List Byte) (h : 0#8 ∉ s) :
    ∃ v, Make.ofCString (some (s ++ 0#8 :: rest)) = .ok v ∧ v.size = (s.take (s.length % 2 ^ 16)).length ∧
      v.chars = .ok (s.take (s.length % 2 ^ 16)) := by
  obtain ⟨⟨v, h1, h2, h3⟩, _⟩ := Make.C87_cstring_exact s rest h
  refine ⟨v, h1, ?_, h3⟩
  have := Nat.mod_le s.length (2 ^ 16)
  rw [h2, List.length_take]
  omega

theorem written_taken (a : Arg) (s : List Byte) (h : Taken a s) : written a = .ok s := by
  cases h with
  | cstring s rest h =>
    obtain ⟨v, h1, _, h3⟩ := cstring_taken s rest h
    rw [written, h1, ok_bind, h3]
  | _ => rfl

theorem written_endless (a : Arg) (h : Endless a) : written a = .ub := by
  obtain ⟨m, rfl, hm⟩ := h
  rw [written, Make.ofCString, Make.strlen_none m hm]

theorem convert_endless (a : Arg) (h : Endless a) : convert a = .ub := by
  obtain ⟨m, rfl, hm⟩ := h
  rw [convert, Make.ofCString, Make.strlen_none m hm]

theorem convert_taken (a : Arg) (s : List Byte) (h : Taken a s) : ∃ b, convert a = .ok b ∧ Taken b s ∧ ¬IsString b := by
  cases h with
  | cstring s rest h =>
    obtain ⟨v, h1, _, h3⟩ := cstring_taken s rest h
    refine ⟨.view _, ?_, .view _, fun ⟨_, h⟩ => nomatch h⟩
    simp only [convert, h1, h3]
  | char c => exact ⟨_, rfl, .char c, fun ⟨_, h⟩ => nomatch h⟩
  | null => exact ⟨.view [], rfl, .view _, fun ⟨_, h⟩ => nomatch h⟩
  | view s => exact ⟨_, rfl, .view s, fun ⟨_, h⟩ => nomatch h⟩
  | constString s => exact ⟨_, rfl, .view s, fun ⟨_, h⟩ => nomatch h⟩
  | string s => exact ⟨_, rfl, .view s, fun ⟨_, h⟩ => nomatch h⟩

theorem totalSizeOne_taken (fuel : Nat) (a : Arg) (s : List Byte) (h : Taken a s) (hn : ¬IsString a) :
    totalSizeOne fuel a = some (.ok s.length) := by
  cases h with
  | cstring s rest h =>
    obtain ⟨v, h1, h2, _⟩ := cstring_taken s rest h
    rw [totalSizeOne, h1, ok_bind, h2]
  | null => rw [totalSizeOne]; rfl
  | string s => exact absurd ⟨s, rfl⟩ hn
  | _ => rw [totalSizeOne]; try rfl

theorem totalSizeOne_endless (fuel : Nat) (a : Arg) (h : Endless a) : totalSizeOne fuel a = some .ub := by
  obtain ⟨m, rfl, hm⟩ := h
  rw [totalSizeOne, Make.ofCString, Make.strlen_none m hm]

theorem totalSizeSum_taken (fuel : Nat) (args : List Arg) (ss : List (List Byte)) (h : AllTaken args ss)
    (hn : ∀ a ∈ args, ¬IsString a) : totalSizeSum fuel args = some (.ok ss.flatten.length) := by
  induction h with
  | nil => rfl
  | @cons a s as ss h t ih =>
    rw [totalSizeSum, totalSizeOne_taken fuel a s h (hn a (List.mem_cons_self ..))]
    simp only
    rw [ih (fun a ha => hn a (List.mem_cons_of_mem _ ha)), List.flatten_cons, List.length_append]
    rfl

theorem totalSizeSum_endless (fuel : Nat) (args : List Arg) (h : ∃ a ∈ args, Endless a) (hn : ∀ a ∈ args, ¬IsString a) :
    totalSizeSum fuel args = some .ub := by
  induction args with
  | nil => obtain ⟨a, ha, _⟩ := h; cases ha
  | cons b as ih =>
    have hb := hn b (List.mem_cons_self ..)
    have hn' : ∀ a ∈ as, ¬IsString a := fun a ha => hn a (List.mem_cons_of_mem _ ha)
    rcases taken_or_endless b with ⟨s, t⟩ | e
    · obtain ⟨a, ha, hs⟩ := h
      rcases List.mem_cons.1 ha with rfl | ha
      · exact absurd hs (not_endless _ s t)
      · rw [totalSizeSum, totalSizeOne_taken fuel b s t hb]
        simp only
        rw [ih ⟨a, ha, hs⟩ hn']
        rfl
    · rw [totalSizeSum, totalSizeOne_endless fuel b e]
      simp only
      rcases all_taken_or_endless as with ⟨ss, t⟩ | t
      · rw [totalSizeSum_taken fuel as ss t hn']
        rfl
      · rw [ih t hn']
        rfl

theorem writtenAll_taken (args : List Arg) (ss : List (List Byte)) (h : AllTaken args ss) : writtenAll args = .ok ss := by
  induction h with
  | nil => rfl
  | @cons a s as ss h t ih => rw [writtenAll, written_taken a s h, ok_bind, ih, ok_bind]

theorem concat_taken (alloc : Nat → Except Err MutView) (fuel : Nat) (args : List Arg) (ss : List (List Byte))
    (h : AllTaken args ss) (hn : ∀ a ∈ args, ¬IsString a) :
    concat alloc fuel args = some (.ok (Str.makeConcat alloc ss)) := by
  rw [concat, totalSize, totalSizeSum_taken fuel args ss h hn, Option.map_some, Option.map_some, ok_bind,
    Str.makeConcat, ← Str.flatten_length]
  cases alloc (wrap16 ss.flatten.length) with
  | error e => rfl
  | ok v =>
    simp only
    rw [writtenAll_taken args ss h, ok_bind]

/-- **C91, exactly, concatenating**: one of the first two arguments without an end is undefined behaviour; otherwise the call
never returns if and only if one of the others is a `String` that is not `const`; otherwise one without an end among them is
undefined behaviour, and if there is none the result is that of concatenating what is taken of each argument as string views,
which `C29_concat_exact` gives for every length. One of the four applies to any arguments (`C91_concat_cases`). -/
theorem C91_concat_exact (alloc : Nat → Except Err MutView) (fuel : Nat) (lhs rhs : Arg) (args : List Arg) :
    (Endless lhs ∨ Endless rhs → makeString alloc fuel lhs rhs args = some .ub) ∧
    ∀ l r, Taken lhs l → Taken rhs r →
      ((∃ a ∈ args, IsString a) → makeString alloc fuel lhs rhs args = none) ∧
      ((∀ a ∈ args, ¬IsString a) →
        ((∃ a ∈ args, Endless a) → makeString alloc fuel lhs rhs args = some .ub) ∧
        ∀ ss, AllTaken args ss → makeString alloc fuel lhs rhs args = some (.ok (Str.makeConcat alloc (l :: r :: ss)))) := by
  constructor
  · intro h
    rw [makeString]
    rcases h with h | h
    · rw [convert_endless lhs h]
    · rw [convert_endless rhs h]
      cases convert lhs <;> rfl
  · intro l r hl hr
    obtain ⟨b, hb, tb, nb⟩ := convert_taken lhs l hl
    obtain ⟨c, hc, tc, nc⟩ := convert_taken rhs r hr
    rw [makeString, hb, hc]
    simp only
    refine ⟨fun ⟨a, ha, hs⟩ => ?_, fun hn => ?_⟩
    · rw [concat, totalSize, totalSizeSum_none fuel _ ⟨a, List.mem_cons_of_mem _ (List.mem_cons_of_mem _ ha), hs⟩]
      rfl
    · have hn' : ∀ a ∈ b :: c :: args, ¬IsString a := by
        intro a ha
        rcases List.mem_cons.1 ha with rfl | ha
        · exact nb
        · rcases List.mem_cons.1 ha with rfl | ha
          · exact nc
          · exact hn a ha
      refine ⟨fun ⟨a, ha, he⟩ => ?_, fun ss t => concat_taken alloc fuel _ _ (.cons tb (.cons tc t)) hn'⟩
      rw [concat, totalSize,
        totalSizeSum_endless fuel _ ⟨a, List.mem_cons_of_mem _ (List.mem_cons_of_mem _ ha), he⟩ hn']
      rfl

/-- The cases of `C91_concat_exact` are all there are. -/
theorem C91_concat_cases (lhs rhs : Arg) (args : List Arg) :
    (Endless lhs ∨ Endless rhs) ∨ ∃ l r, Taken lhs l ∧ Taken rhs r ∧
      ((∃ a ∈ args, IsString a) ∨ (∀ a ∈ args, ¬IsString a) ∧ ((∃ a ∈ args, Endless a) ∨ ∃ ss, AllTaken args ss)) := by
  rcases taken_or_endless lhs with ⟨l, hl⟩ | h
  · rcases taken_or_endless rhs with ⟨r, hr⟩ | h
    · refine .inr ⟨l, r, hl, hr, ?_⟩
      by_cases hs : ∃ a ∈ args, IsString a
      · exact .inl hs
      · refine .inr ⟨fun a ha h => hs ⟨a, ha, h⟩, ?_⟩
        rcases all_taken_or_endless args with h | h
        · exact .inr h
        · exact .inl h
    · exact .inl (.inr h)
  · exact .inl (.inl h)

/-- An argument that goes to one of the overloads for strings. -/
def viaString : Arg → Bool
  | .constString _ => true
  | .string _ => true
  | _ => false

theorem joint_taken (a : Arg) (s : List Byte) (h : Taken a s) : joint a = .ok (viaString a, s) := by
  have hw := written_taken a s h
  cases h with
  | cstring s rest h => simp only [joint, hw, viaString]
  | _ => rfl

theorem jointAll_taken (args : List Arg) (ss : List (List Byte)) (h : AllTaken args ss) :
    jointAll args = .ok ((args.map viaString).zip ss) := by
  induction h with
  | nil => rfl
  | @cons a s as ss h t ih =>
    rw [jointAll, joint_taken a s h, ok_bind, ih, ok_bind, List.map_cons, List.zip_cons_cons]

/-- **C91, exactly, joining**: without arguments the empty string; one string view or `const` string is copied. In all other
cases: a `String` that is not `const` makes the call run forever; otherwise an argument without an end is undefined behaviour;
otherwise what is taken of each argument is joined, as `C73_join_exact` says for every length. -/
theorem C91_join_exact (alloc : Nat → Except Err MutView) (fuel : Nat) (by' : List Byte) :
    makeJoin alloc fuel by' [] = some (.ok (.ok ⟨[], 0⟩)) ∧
    (∀ s, makeJoin alloc fuel by' [.view s] = some (.ok (Str.make alloc s))) ∧
    (∀ s, makeJoin alloc fuel by' [.constString s] = some (.ok (Str.make alloc s))) ∧
    ∀ args, args ≠ [] → (∀ s, args ≠ [.view s] ∧ args ≠ [.constString s]) →
      ((∃ a ∈ args, IsString a) → makeJoin alloc fuel by' args = none) ∧
      ((∀ a ∈ args, ¬IsString a) →
        ((∃ a ∈ args, Endless a) → makeJoin alloc fuel by' args = some .ub) ∧
        ∀ ss, AllTaken args ss →
          makeJoin alloc fuel by' args = some (.ok (Str.makeJoinArgs alloc by' ((args.map viaString).zip ss)))) := by
  refine ⟨rfl, fun _ => rfl, fun _ => rfl, fun args h0 h1 => ?_⟩
  have e : makeJoin alloc fuel by' args = joinArgs alloc fuel by' args := by
    unfold makeJoin
    split
    · exact absurd rfl h0
    · exact absurd rfl (h1 _).1
    · exact absurd rfl (h1 _).2
    · rfl
  rw [e, joinArgs, totalSize]
  refine ⟨fun h => ?_, fun hn => ⟨fun h => ?_, fun ss t => ?_⟩⟩
  · rw [totalSizeSum_none fuel _ h]; rfl
  · rw [totalSizeSum_endless fuel _ h hn]; rfl
  · rw [totalSizeSum_taken fuel args ss t hn, Option.map_some, Option.map_some, ok_bind, jointAll_taken args ss t]

example : makeString heap 0 (.view [1#8]) (.view [2#8]) [.char 3#8, .cstring (some [1#8])] = some .ub := by decide +kernel
example : makeString heap 0 (.view [1#8]) (.view [2#8]) [.string [3#8], .cstring (some [1#8])] = none := by decide +kernel
example : Endless (.cstring (some [1#8])) := ⟨_, rfl, by decide⟩
example : AllTaken [.cstring (some [1#8, 0#8, 2#8]), .char 5#8] [[1#8], [5#8]] :=
  .cons (.cstring [1#8] [2#8] (by decide)) (.cons (.char _) .nil)

end Solace.StringArgs
