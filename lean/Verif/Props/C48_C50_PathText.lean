import Verif.Lemmas.Path
/-
C48 (parsing inverts printing), C49 (printing inverts parsing), C50 (length of the text).

Components are `String`s, so each is shorter than 2^16, and there are fewer than 2^64 of them. `Plenty` is the assumption
that memory does not run out; a path that was parsed or made is `⟨false, cs⟩` with `cs ≠ []`, `Path{}` is `⟨true, []⟩`.
-/
namespace Solace.Path
open Strings StringView Str

variable {alloc : Nat → Except Err MutView} {vec : Nat → Except Err Unit}

/-- The components can be told apart in the text: the delimiter written after a component is its first occurrence there,
and it does not occur in the last component. -/
def Separable (d : List Byte) : List (List Byte) → Prop
  | [] => True
  | [c] => ∀ i, ¬OccursAt d c i
  | c :: c' :: cs => EndsAtFirst d c ∧ Separable d (c' :: cs)

theorem separable_isSplit (d : List Byte) (cs : List (List Byte)) (hne : cs ≠ []) (h : Separable d cs) :
    IsSplit d (d.intercalate cs) cs := by
  induction cs with
  | nil => exact absurd rfl hne
  | cons c cs ih =>
    match cs, h with
    | [], h => exact ⟨by simp [List.intercalate], h⟩
    | c' :: cs, h =>
      refine ⟨d.intercalate (c' :: cs), ?_, h.1, ih (by simp) h.2⟩
      simp [List.intercalate, List.intersperse_cons_cons]

theorem kept_of_last (ps : List (List Byte)) (hne : ps ≠ []) (h : ps.getLast? ≠ some []) : kept ps = ps := by
  have ht : trail ps = ps := by rw [trail, if_neg h]
  rw [kept, ht, if_neg hne]

theorem scan_root (d : List Byte) (hd : d ≠ []) : scan d [] d = [[], []] := by
  rw [scan_match hd ⟨[], List.append_nil d⟩, List.drop_length, scan_nil _ _ hd]

theorem last_length_le (cs : List (List Byte)) (c : List Byte) (h : cs.getLast? = some c) : c.length ≤ (cs.map List.length).sum := by
  induction cs with
  | nil => cases h
  | cons a cs ih =>
    rw [List.map_cons, List.sum_cons]
    match cs with
    | [] => cases h; simp
    | b :: cs =>
      rw [List.getLast?_cons_cons] at h
      have := ih h
      omega

/-- A text that ends with a non-empty piece has fewer than 2^16 pieces. -/
theorem count_lt (d : List Byte) (hd : d ≠ []) (cs : List (List Byte)) (hne : cs ≠ []) (hl : cs.getLast? ≠ some [])
    (ht : (d.intercalate cs).length < 2 ^ 16) : cs.length < 2 ^ 16 := by
  rw [intercalate_length] at ht
  have hpos := List.length_pos_iff.mpr hd
  have hpos' := List.length_pos_iff.mpr hne
  obtain ⟨c, hc⟩ : ∃ c, cs.getLast? = some c := by
    cases hg : cs.getLast? with
    | none => exact absurd (List.getLast?_eq_none_iff.mp hg) hne
    | some q => exact ⟨q, rfl⟩
  have hce : c ≠ [] := fun h => hl (by rw [hc, h])
  have h1 := last_length_le cs c hc
  have h2 := List.length_pos_iff.mpr hce
  have h3 : cs.length - 1 ≤ d.length * (cs.length - 1) := Nat.le_mul_of_pos_left _ hpos
  omega

/-- **C48** (partial: the components are separable by the delimiter, the text is shorter than 65536, memory is available).
Printing a path - the root, or one that does not end with an empty component - and parsing the text gives the path.
Missing: components that merely do not contain the delimiter; for a single-character delimiter that is the same
(`C48_single`), for longer ones the property fails (`C48_overlap`). Longer texts: `toString` gives "" (`C50_too_long`). -/
theorem C48_parse_print_partial (h : Plenty alloc vec) (d : List Byte) (hd : d ≠ []) (cs : List (List Byte)) (hne : cs ≠ [])
    (hlast : cs = [[]] ∨ cs.getLast? ≠ some []) (hsep : cs = [[]] ∨ Separable d cs) (ht : (meant d cs).length < 2 ^ 16)
    (hd16 : d.length < 2 ^ 16) (hn : cs.length < 2 ^ 64) (fuel : Nat) (hf : 2 ^ 16 ≤ fuel) :
    ∃ t, toString alloc ⟨false, cs⟩ d = .ok t ∧ parse alloc vec fuel t d = some (.ok ⟨false, cs⟩) := by
  refine ⟨meant d cs, by rw [toString_eq h d cs hne hn hd16, if_pos ht], ?_⟩
  by_cases hr : cs = [[]]
  · subst hr
    have hm : meant d [[]] = d := by rw [meant, if_pos rfl]
    rw [hm, parse_plenty h d d hd hd16 fuel (by omega) (by rw [scan_root d hd]; decide), scan_root d hd]
    rfl
  · have hm : meant d cs = d.intercalate cs := by rw [meant, if_neg hr]
    rw [hm] at ht ⊢
    have hsp := separable_isSplit d cs hne (hsep.resolve_left hr)
    have hsc : scan d [] (d.intercalate cs) = cs := isSplit_unique (scan_spec d _ hd) hsp
    have hcnt := count_lt d hd cs hne (hlast.resolve_left hr) ht
    rw [parse_plenty h _ d hd ht fuel (by omega) (by rw [hsc]; exact hcnt), hsc, kept_of_last cs hne (hlast.resolve_left hr)]

theorem occurs_char (c : Byte) (s : List Byte) (i : Nat) : OccursAt [c] s i ↔ s[i]? = some c := by
  constructor
  · rintro ⟨a, b, rfl, rfl⟩
    rw [List.append_assoc, List.getElem?_append_right (Nat.le_refl _), Nat.sub_self]
    rfl
  · intro h
    obtain ⟨hi, hc⟩ := List.getElem?_eq_some_iff.mp h
    refine ⟨s.take i, s.drop (i + 1), ?_, by rw [List.length_take]; omega⟩
    rw [List.append_assoc, List.singleton_append, ← hc, ← List.drop_eq_getElem_cons hi, List.take_append_drop]

theorem separable_char (c : Byte) (cs : List (List Byte)) (h : ∀ p ∈ cs, c ∉ p) : Separable [c] cs := by
  induction cs with
  | nil => trivial
  | cons p cs ih =>
    have hp := h p (by simp)
    match cs, ih, h with
    | [], _, _ =>
      intro i hi
      exact hp (List.mem_iff_getElem?.mpr ⟨i, (occurs_char c p i).mp hi⟩)
    | q :: cs, ih, h =>
      refine ⟨fun i hi => ?_, ih fun r hr => h r (by simp only [List.mem_cons] at hr ⊢; exact .inr hr)⟩
      rw [occurs_char] at hi
      rcases Nat.lt_or_ge i p.length with hlt | hge
      · rw [List.getElem?_append_left hlt] at hi
        exact absurd (List.mem_iff_getElem?.mpr ⟨i, hi⟩) hp
      · exact hge

/-- **C48** for a delimiter of one character, as the default "/" (texts shorter than 65536, memory available). -/
theorem C48_single_partial (h : Plenty alloc vec) (c : Byte) (cs : List (List Byte)) (hne : cs ≠ [])
    (hlast : cs = [[]] ∨ cs.getLast? ≠ some []) (hc : ∀ p ∈ cs, c ∉ p) (ht : (meant [c] cs).length < 2 ^ 16)
    (hn : cs.length < 2 ^ 64) (fuel : Nat) (hf : 2 ^ 16 ≤ fuel) :
    ∃ t, toString alloc ⟨false, cs⟩ [c] = .ok t ∧ parse alloc vec fuel t [c] = some (.ok ⟨false, cs⟩) :=
  C48_parse_print_partial h [c] (by simp) cs hne hlast (.inr (separable_char c cs hc)) ht (by simp) hn fuel hf

/-- Memory that does not run out, filled with sevens. -/
def mem7 (n : Nat) : Except Err MutView := .ok ⟨false, List.replicate n 7#8⟩

theorem plenty7 : Plenty mem7 (fun _ => .ok ()) :=
  ⟨fun n v h => by cases h; exact ⟨List.length_replicate, fun h => by cases h⟩, fun n => ⟨_, rfl, rfl⟩, fun _ => rfl⟩

example : toString mem7 ⟨false, [[], [0x61#8], [], [0x62#8]]⟩ [0x2F#8] = .ok [0x2F#8, 0x61#8, 0x2F#8, 0x2F#8, 0x62#8] ∧
    parse mem7 (fun _ => .ok ()) 9 [0x2F#8, 0x61#8, 0x2F#8, 0x2F#8, 0x62#8] [0x2F#8] =
      some (.ok ⟨false, [[], [0x61#8], [], [0x62#8]]⟩) := by decide +kernel

/-- **C48, negation** for longer delimiters: the components "xa", "b" do not contain "aa", but parsing "xaaab" gives "x",
"ab". -/
theorem C48_overlap :
    (∀ i, ¬OccursAt [0x61#8, 0x61#8] [0x78#8, 0x61#8] i) ∧ (∀ i, ¬OccursAt [0x61#8, 0x61#8] [0x62#8] i) ∧
    ∃ t, toString mem7 ⟨false, [[0x78#8, 0x61#8], [0x62#8]]⟩ [0x61#8, 0x61#8] = .ok t ∧
      parse mem7 (fun _ => .ok ()) 9 t [0x61#8, 0x61#8] = some (.ok ⟨false, [[0x78#8], [0x61#8, 0x62#8]]⟩) := by
  refine ⟨?_, ?_, [0x78#8, 0x61#8, 0x61#8, 0x61#8, 0x62#8], by decide +kernel, by decide +kernel⟩
  · rintro i ⟨a, b, h, _⟩
    match a, h with
    | [], h => cases h
    | [_], h => simp at h
    | _ :: _ :: _, h => simp at h
  · rintro i ⟨a, b, h, _⟩
    have := congrArg List.length h
    simp at this
    omega

/-! ### C49 -/

theorem getLast?_some (ps : List (List Byte)) (h : ps ≠ []) : ∃ p, ps.getLast? = some p := by
  cases hg : ps.getLast? with
  | none => exact absurd (List.getLast?_eq_none_iff.mp hg) h
  | some q => exact ⟨q, rfl⟩

theorem intercalate_concat (d p : List Byte) (ps : List (List Byte)) (h : ps ≠ []) :
    d.intercalate (ps ++ [p]) = d.intercalate ps ++ d ++ p := by
  rw [intercalate_eq_initText d (ps ++ [p]) (by simp), intercalate_eq_initText d ps h, initText, List.dropLast_concat,
    List.getLast_concat]
  congr 1
  conv => lhs; rw [← List.dropLast_concat_getLast h]
  rw [List.map_append, List.flatten_append, initText]
  simp

/-- What the text of a parsed path should be, for the text `s` with the pieces `ps`. -/
theorem meant_kept (d s : List Byte) (hd : d ≠ []) (ps : List (List Byte)) (h : IsSplit d s ps) :
    (s = [] ∨ s = d → meant d (kept ps) = d) ∧
    (s ≠ [] → s ≠ d → ps.getLast? = some [] → s = meant d (kept ps) ++ d) ∧
    (ps.getLast? ≠ some [] → meant d (kept ps) = s) := by
  have hj := isSplit_join h
  have hne : ps ≠ [] := fun e => by subst e; exact h
  refine ⟨?_, ?_, ?_⟩
  · rintro (rfl | rfl)
    · have : ps = [[]] := isSplit_unique h (by
        refine ⟨rfl, ?_⟩
        rintro i ⟨a, b, hab, _⟩
        have := congrArg List.length hab
        have := List.length_pos_iff.mpr hd
        simp at *
        omega)
      subst this
      rfl
    · have : ps = [[], []] := by
        rw [← scan_root s hd]
        exact isSplit_unique h (scan_spec s s hd)
      subst this
      rfl
  · intro h1 h2 h3
    obtain ⟨qs, rfl⟩ : ∃ qs, ps = qs ++ [[]] := by
      refine ⟨ps.dropLast, ?_⟩
      have := List.dropLast_concat_getLast hne
      rw [List.getLast?_eq_some_getLast hne] at h3
      cases h3' : ps.getLast hne with
      | nil => rw [h3'] at this; exact this.symm
      | cons _ _ => rw [h3'] at h3; cases h3
    have hq : qs ≠ [] := by
      rintro rfl
      exact h1 (by rw [← hj]; rfl)
    have ht : trail (qs ++ [[]]) = qs := by rw [trail, if_pos (by simp), List.dropLast_concat]
    have hq2 : qs ≠ [[]] := by
      rintro rfl
      apply h2
      rw [← hj]
      simp [List.intercalate]
    rw [kept, ht, if_neg hq, meant, if_neg hq2, ← hj, intercalate_concat d [] qs hq, List.append_nil]
  · intro h3
    rw [kept_of_last ps hne h3, meant, if_neg, hj]
    rintro rfl
    exact h3 rfl

/-- **C49** (full but for one kind of text; memory available). For every text that is not 65535 copies of a one-character
delimiter, parsing succeeds and printing the path gives: the delimiter for the empty text and for the delimiter itself; the
text without its last delimiter when the text ends with one (the splitting of the text has an empty piece at the end); the
text itself otherwise. Missing: the excluded text, where the property fails (`C49_all_delimiters`). -/
theorem C49_print_parse_partial (h : Plenty alloc vec) (s d : List Byte) (hd : d ≠ []) (hs : s.length < 2 ^ 16) (hd16 : d.length < 2 ^ 16)
    (hx : ∀ c, d = [c] → s ≠ List.replicate 65535 c) (fuel : Nat) (hf : s.length < fuel) :
    ∃ ps p t, IsSplit d s ps ∧ parse alloc vec fuel s d = some (.ok p) ∧ toString alloc p d = .ok t ∧
      (s = [] ∨ s = d → t = d) ∧
      (s ≠ [] → s ≠ d → ps.getLast? = some [] → s = t ++ d) ∧
      (ps.getLast? ≠ some [] → t = s) := by
  have hp := pieces_lt s d hd hs hx
  have hsp := scan_spec d s hd
  obtain ⟨k1, k2, k3⟩ := meant_kept d s hd _ hsp
  refine ⟨scan d [] s, _, meant d (kept (scan d [] s)), hsp, parse_plenty h s d hd hs fuel hf hp, ?_, k1, k2, k3⟩
  have hkl : (kept (scan d [] s)).length < 2 ^ 64 := by
    have : (trail (scan d [] s)).length ≤ (scan d [] s).length := by
      rw [trail]; split
      · rw [List.length_dropLast]; omega
      · omega
    rw [kept]; split
    · simp
    · omega
  have hkn : kept (scan d [] s) ≠ [] := by
    rw [kept]; split
    · exact List.cons_ne_nil _ _
    · assumption
  have hml : (meant d (kept (scan d [] s))).length < 2 ^ 16 := by
    by_cases e1 : s = [] ∨ s = d
    · rw [k1 e1]; exact hd16
    · by_cases e2 : (scan d [] s).getLast? = some []
      · have e3 := congrArg List.length (k2 (fun e => e1 (.inl e)) (fun e => e1 (.inr e)) e2)
        rw [List.length_append] at e3
        omega
      · rw [k3 e2]; exact hs
  rw [toString_eq h d _ hkn hkl hd16, if_pos hml]

theorem split_char_last (c : Byte) (s : List Byte) (ps : List (List Byte)) (h : IsSplit [c] s ps) (hs : s ≠ []) :
    ps.getLast? = some [] ↔ s.getLast? = some c := by
  have hj := isSplit_join h
  have hne : ps ≠ [] := fun e => by subst e; exact h
  have hn := isSplit_no_delim (by simp) h
  rw [List.getLast?_eq_some_getLast hne]
  have hps := (List.dropLast_concat_getLast hne)
  generalize ps.getLast hne = l at *
  generalize ps.dropLast = qs at *
  subst hps
  have hl : c ∉ l := by
    intro hm
    obtain ⟨i, hi⟩ := List.mem_iff_getElem?.mp hm
    exact hn l (by simp) i ((occurs_char c l i).mpr hi)
  constructor
  · intro e
    cases e
    have hq : qs ≠ [] := by
      rintro rfl
      exact hs (by rw [← hj]; rfl)
    rw [← hj, intercalate_concat _ _ _ hq]
    simp
  · intro e
    by_cases hle : l = []
    · rw [hle]
    · exfalso
      have : s.getLast? = l.getLast? := by
        rw [← hj]
        by_cases hq : qs = []
        · subst hq; simp [List.intercalate]
        · rw [intercalate_concat _ _ _ hq, List.getLast?_append, List.getLast?_eq_some_getLast hle, Option.some_or]
      rw [this] at e
      exact hl (List.mem_of_getLast? e)

/-- **C49** for a delimiter of one character, as the default "/" (same exception). -/
theorem C49_single_partial (h : Plenty alloc vec) (s : List Byte) (c : Byte) (hs : s.length < 2 ^ 16)
    (hx : s ≠ List.replicate 65535 c) (fuel : Nat) (hf : s.length < fuel) :
    ∃ p t, parse alloc vec fuel s [c] = some (.ok p) ∧ toString alloc p [c] = .ok t ∧
      t = if s = [] ∨ s = [c] then [c] else if s.getLast? = some c then s.dropLast else s := by
  obtain ⟨ps, p, t, h1, h2, h3, h4, h5, h6⟩ := C49_print_parse_partial h s [c] (by simp) hs (by simp)
    (fun c' e => by cases e; exact hx) fuel hf
  refine ⟨p, t, h2, h3, ?_⟩
  by_cases e1 : s = [] ∨ s = [c]
  · rw [if_pos e1, h4 e1]
  · rw [if_neg e1]
    have e2 : s ≠ [] := fun e => e1 (.inl e)
    have e3 := split_char_last c s ps h1 e2
    by_cases e4 : s.getLast? = some c
    · rw [if_pos e4]
      have := h5 e2 (fun e => e1 (.inr e)) (e3.mpr e4)
      rw [this, List.dropLast_concat]
    · rw [if_neg e4, h6 (fun e => e4 (e3.mp e))]

example : (∀ c, [0x2F#8] = [c] → [0x61#8, 0x2F#8] ≠ List.replicate 65535 c) ∧
    parse mem7 (fun _ => .ok ()) 9 [0x61#8, 0x2F#8] [0x2F#8] = some (.ok ⟨false, [[0x61#8]]⟩) := by
  refine ⟨fun c _ h => ?_, by decide +kernel⟩
  have := congrArg List.length h
  rw [List.length_replicate] at this
  simp at this

theorem fold_no_capacity (h : Plenty alloc vec) (ps : List (List Byte)) : ∀ i,
    (number i 0 ps).foldl (stepOn alloc vec) ⟨.none, 0, []⟩ = ⟨.none, 0, []⟩ := by
  induction ps with
  | nil => intro i; rfl
  | cons p ps ih =>
    intro i
    have hs : stepOn alloc vec ⟨.none, 0, []⟩ (p, i, 0) = ⟨.none, 0, []⟩ := by
      simp only [stepOn, onPiece, Option.isSome_none, Bool.false_eq_true, if_false, Parse.prepare, ne_eq, not_true_eq_false,
        and_false, Parse.add, Nat.add_eq_zero_iff, Nat.one_ne_zero, false_and, text_make_plenty h]
      rfl
    rw [number, List.foldl_cons, hs]
    exact ih (i + 1)

/-- **C49, negation**: 65535 copies of a one-character delimiter (65536 pieces, counted modulo 2^16) are parsed as the path
without components, whose text is 65535 characters of uninitialised memory. -/
theorem C49_all_delimiters (h : Plenty alloc vec) (c : Byte) (fuel : Nat) (hf : 65535 < fuel) :
    parse alloc vec fuel (List.replicate 65535 c) [c] = some (.ok Path.none) ∧
    ∃ v, alloc 65535 = .ok v ∧ toString alloc Path.none [c] = .ok v.bytes := by
  constructor
  · obtain ⟨n, hn⟩ : ∃ n, n = 65535 := ⟨_, rfl⟩
    rw [← hn] at hf ⊢
    have hl : (List.replicate n c).length = n := List.length_replicate
    rw [parse_eq_fold _ [c] (by simp) (by omega) fuel (by omega), scan_delims]
    have hw : wrap16 (List.replicate (n + 1) ([] : List Byte)).length = 0 := by
      rw [List.length_replicate, wrap16_def, hn]
    rw [hw, fold_no_capacity h]
    rfl
  · obtain ⟨v, hv, _⟩ := h.str 65535
    obtain ⟨s, h1, h2, _⟩ := C30_empty_list alloc h.ok [c] (by simp) (by simp) v hv
    refine ⟨v, hv, ?_⟩
    have ht : text (makeJoin alloc [c] []) = .ok v.bytes := by rw [h1, ← h2]; rfl
    have hab : Path.none.isAbsolute = .ok false := rfl
    have hc : Path.none.comps = [] := rfl
    simp only [toString, hab, Outcome.bind_ok, Bool.false_and, Bool.false_eq_true, if_false, hc, ht, Outcome.pure_def]

/-- **C49, memory**: when memory runs out while printing, the text is silently empty. -/
theorem C49_print_without_memory (d : List Byte) (cs : List (List Byte)) (hne : cs ≠ []) (hx : ∀ n, ∃ e, alloc n = .error e) :
    toString alloc ⟨false, cs⟩ d = .ok [] := by
  match cs, hne with
  | c :: cs, _ =>
    have h1 : ∃ e, text (Str.make alloc d) = .error e := by
      obtain ⟨e, he⟩ := hx d.length
      exact ⟨e, by rw [Str.make, he]; rfl⟩
    have h2 : ∃ e, text (makeJoin alloc d (c :: cs)) = .error e := by
      obtain ⟨e, he⟩ := hx (joinLength d (c :: cs))
      exact ⟨e, by rw [makeJoin, he]; rfl⟩
    obtain ⟨e1, h1⟩ := h1
    obtain ⟨e2, h2⟩ := h2
    rw [toString, isAbsolute_cons, Outcome.bind_ok]
    split
    · rw [h1]; rfl
    · rw [h2]; rfl

/-! ### C50 -/

theorem lengthLoop_eq (k : Nat) (cs : List (List Byte)) : ∀ n,
    lengthLoop k (wrap16 n) cs = wrap16 (n + (k * cs.length + (cs.map List.length).sum)) := by
  induction cs with
  | nil => intro n; simp [lengthLoop]
  | cons c cs ih =>
    intro n
    rw [lengthLoop, wrap16_add, ih]
    congr 1
    simp only [List.length_cons, List.map_cons, List.sum_cons, Nat.mul_add, Nat.mul_one]
    omega

/-- What `length` returns for a path with components: the length of the text that is meant, modulo 2^16. -/
theorem length_eq (b : Bool) (d : List Byte) (cs : List (List Byte)) (hne : cs ≠ []) (hd : d.length < 2 ^ 16)
    (hc : ∀ c ∈ cs, c.length < 2 ^ 16) : length ⟨b, cs⟩ d = wrap16 (meant d cs).length := by
  match cs, hne with
  | [c], _ =>
    have hc' := hc c (by simp)
    simp only [length]
    by_cases h : c = []
    · subst h
      rw [if_pos rfl, meant, if_pos rfl, wrap16_of_lt hd]
    · rw [if_neg h, meant, if_neg (by simpa using h)]
      simp [List.intercalate, wrap16_of_lt hc']
  | c :: c' :: cs, _ =>
    have hm : meant d (c :: c' :: cs) = d.intercalate (c :: c' :: cs) := by rw [meant, if_neg (by simp)]
    rw [hm, intercalate_length]
    simp only [length]
    have h0 := lengthLoop_eq d.length (c :: c' :: cs) 0
    rw [wrap16_of_lt (n := 0) (by omega), Nat.zero_add] at h0
    rw [h0]
    have hk : d.length * (c :: c' :: cs).length = d.length * ((c :: c' :: cs).length - 1) + d.length := by
      rw [List.length_cons, Nat.add_sub_cancel, Nat.mul_add, Nat.mul_one]
    rw [hk]
    generalize d.length * ((c :: c' :: cs).length - 1) = x
    generalize ((c :: c' :: cs).map List.length).sum = y
    have hlt := wrap16_lt (x + d.length + y)
    by_cases hle : d.length ≤ wrap16 (x + d.length + y)
    · rw [sub16_of_le hle hlt]
      simp only [wrap16_def] at *
      omega
    · rw [sub16_of_lt (by omega) (by omega)]
      simp only [wrap16_def] at *
      omega

/-- **C50** (partial: the path has components, its text is shorter than 65536, memory is available). `length(d)` is the
length of `toString(d)`. Missing: the path without components and longer texts, where the property fails (below). -/
theorem C50_length_partial (h : Plenty alloc vec) (d : List Byte) (cs : List (List Byte)) (hne : cs ≠ []) (hn : cs.length < 2 ^ 64)
    (hd : d.length < 2 ^ 16) (hc : ∀ c ∈ cs, c.length < 2 ^ 16) (ht : (meant d cs).length < 2 ^ 16) :
    ∃ t, toString alloc ⟨false, cs⟩ d = .ok t ∧ length ⟨false, cs⟩ d = t.length := by
  refine ⟨meant d cs, by rw [toString_eq h d cs hne hn hd, if_pos ht], ?_⟩
  rw [length_eq false d cs hne hd hc, wrap16_of_lt ht]

/-- **C50, negation**: a path whose text would have 65536 or more characters prints as the empty string, while `length` is
the number of characters modulo 65536. -/
theorem C50_too_long (h : Plenty alloc vec) (d : List Byte) (cs : List (List Byte)) (hne : cs ≠ []) (hn : cs.length < 2 ^ 64)
    (hd : d.length < 2 ^ 16) (hc : ∀ c ∈ cs, c.length < 2 ^ 16) (ht : 2 ^ 16 ≤ (meant d cs).length) :
    toString alloc ⟨false, cs⟩ d = .ok [] ∧ length ⟨false, cs⟩ d = (meant d cs).length % 2 ^ 16 := by
  refine ⟨by rw [toString_eq h d cs hne hn hd, if_neg (by omega)], ?_⟩
  rw [length_eq false d cs hne hd hc, wrap16_def]

/-- **C50, negation**: the path without components has length 0 and a text of 65535 characters. -/
theorem C50_no_components (h : Plenty alloc vec) (c : Byte) :
    length Path.none [c] = 0 ∧ ∃ t, toString alloc Path.none [c] = .ok t ∧ t.length = 65535 := by
  refine ⟨rfl, ?_⟩
  obtain ⟨v, hv, ht⟩ := (C49_all_delimiters h c 65536 (by omega)).2
  exact ⟨v.bytes, ht, (h.ok _ v hv).1⟩

example : length ⟨false, [[], [0x61#8], [0x62#8, 0x63#8]]⟩ [0x2F#8] = 5 ∧ length ⟨false, [[]]⟩ [0x2F#8] = 1 := by decide +kernel
example : ∃ cs : List (List Byte), cs ≠ [] ∧ (∀ c ∈ cs, c.length < 2 ^ 16) ∧ 2 ^ 16 ≤ (meant [0x2F#8] cs).length := by
  obtain ⟨n, hn⟩ : ∃ n, n = 65000 := ⟨_, rfl⟩
  refine ⟨[List.replicate n 1#8, List.replicate n 1#8], by simp, ?_, ?_⟩
  · intro c hc
    simp only [List.mem_cons, List.not_mem_nil, or_false, or_self] at hc
    rw [hc, List.length_replicate]; omega
  · rw [meant, if_neg (by simp), intercalate_length]
    simp only [List.map_cons, List.length_replicate, List.map_nil, List.sum_cons, List.sum_nil]
    omega

end Solace.Path
