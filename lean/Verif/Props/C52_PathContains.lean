import Verif.Props.C48_C50_PathText
import Verif.Props.C21_C28_StringView
/-
C52: containment queries of paths.
-/
namespace Solace.Path
open Strings StringView Str

/-- `qs` is a prefix of `ps`, its last component possibly only a string prefix of the component there. -/
def IsStart (qs ps : List (List Byte)) : Prop :=
  qs <+: ps ∨ ∃ pre l l' rest, qs = pre ++ [l] ∧ ps = pre ++ l' :: rest ∧ l <+: l'

/-- `qs` is a suffix of `ps`, its first component possibly only a string suffix of the component there. -/
def IsEnd (qs ps : List (List Byte)) : Prop :=
  qs <:+ ps ∨ ∃ rest l l' post, qs = l :: post ∧ ps = rest ++ l' :: post ∧ l <:+ l'

/-! ### The loops of `startsWith` and `endsWith` on lists -/

/-- Both loops: compare the components one by one. -/
def walk (test : List Byte → List Byte → Bool) : List (List Byte) → List (List Byte) → Outcome Bool
  | _, [] => .ok true
  | [], _ :: _ => .throws
  | t :: ts, o :: os => if t = o then walk test ts os else .ok (test t o && os.isEmpty)

theorem component_lt (p : Path) (i : Nat) (h : i < p.comps.length) : p.component i = .ok p.comps[i] := by
  rw [component, List.getElem?_eq_getElem h]

theorem component_ge (p : Path) (i : Nat) (h : p.comps.length ≤ i) : p.component i = .throws := by
  rw [component, List.getElem?_eq_none h]

theorem isEmpty_drop (l : List (List Byte)) (i k : Nat) (h : i + (k + 1) = l.length) : (l.drop (i + 1)).isEmpty = (k == 0) := by
  rw [Bool.eq_iff_iff, List.isEmpty_iff, beq_iff_eq, List.drop_eq_nil_iff]
  omega

theorem startsWithLoop_walk (p q : Path) : ∀ k i, i + k = q.comps.length →
    startsWithLoop p q k i = walk StringView.startsWith (p.comps.drop i) (q.comps.drop i) := by
  intro k
  induction k with
  | zero =>
    intro i h
    rw [startsWithLoop, List.drop_of_length_le (l := q.comps) (by omega)]
    cases p.comps.drop i <;> rfl
  | succ k ih =>
    intro i h
    have hq : i < q.comps.length := by omega
    rw [startsWithLoop, component_lt q i hq, Outcome.bind_ok, List.drop_eq_getElem_cons hq]
    by_cases hp : i < p.comps.length
    · rw [component_lt p i hp, Outcome.bind_ok, List.drop_eq_getElem_cons hp, walk]
      by_cases he : p.comps[i] = q.comps[i]
      · rw [if_neg (by simp [(equals_iff _ _).mpr he]), if_pos he]
        exact ih (i + 1) (by omega)
      · have : StringView.equals p.comps[i] q.comps[i] = false := by
          rw [← Bool.not_eq_true, equals_iff]; exact he
        rw [if_pos (by simp [this]), if_neg he, isEmpty_drop _ _ _ h]
        rfl
    · rw [component_ge p i (by omega), List.drop_of_length_le (l := p.comps) (by omega)]
      rfl

theorem last_index (n i : Nat) (hn : n < 2 ^ 64) (hi : i < 2 ^ 64) :
    (i < n → sub64 (sub64 n 1) i = n - 1 - i) ∧ (n ≤ i → n ≤ sub64 (sub64 n 1) i) := by
  constructor
  · intro h
    rw [sub64_of_le (a := n) (by omega) hn, sub64_of_le (by omega) (by omega)]
  · intro h
    by_cases h0 : n = 0
    · omega
    · rw [sub64_of_le (a := n) (by omega) hn, sub64_of_lt (by omega) (by omega)]
      omega

theorem endsWithLoop_walk (p q : Path) (hp64 : p.comps.length < 2 ^ 64) (hq64 : q.comps.length < 2 ^ 64) :
    ∀ k i, i + k = q.comps.length →
    endsWithLoop p q k i = walk StringView.endsWith (p.comps.reverse.drop i) (q.comps.reverse.drop i) := by
  intro k
  induction k with
  | zero =>
    intro i h
    rw [endsWithLoop, List.drop_of_length_le (l := q.comps.reverse) (by rw [List.length_reverse]; omega)]
    cases p.comps.reverse.drop i <;> rfl
  | succ k ih =>
    intro i h
    have hq : i < q.comps.length := by omega
    have hq' : i < q.comps.reverse.length := by rw [List.length_reverse]; exact hq
    have iq := (last_index q.comps.length i hq64 (by omega)).1 hq
    by_cases hp : i < p.comps.length
    · have hp' : i < p.comps.reverse.length := by rw [List.length_reverse]; exact hp
      have ip := (last_index p.comps.length i hp64 (by omega)).1 hp
      rw [endsWithLoop, ip, iq, component_lt p _ (by omega), Outcome.bind_ok, component_lt q _ (by omega), Outcome.bind_ok,
        List.drop_eq_getElem_cons hq', List.drop_eq_getElem_cons hp', walk, List.getElem_reverse, List.getElem_reverse]
      by_cases he : p.comps[p.comps.length - 1 - i] = q.comps[q.comps.length - 1 - i]
      · rw [if_neg (by simp [(equals_iff _ _).mpr he]), if_pos he]
        exact ih (i + 1) (by omega)
      · have : StringView.equals p.comps[p.comps.length - 1 - i] q.comps[q.comps.length - 1 - i] = false := by
          rw [← Bool.not_eq_true, equals_iff]; exact he
        rw [if_pos (by simp [this]), if_neg he, isEmpty_drop _ _ _ (by rw [List.length_reverse]; exact h)]
        rfl
    · rw [endsWithLoop, component_ge p _ ((last_index p.comps.length i hp64 (by omega)).2 (by omega)),
        List.drop_of_length_le (l := p.comps.reverse) (by rw [List.length_reverse]; omega), List.drop_eq_getElem_cons hq']
      rfl

/-- What the loops decide. -/
def Covers (test : List Byte → List Byte → Bool) (ts os : List (List Byte)) : Prop :=
  os <+: ts ∨ ∃ pre o t rest, os = pre ++ [o] ∧ ts = pre ++ t :: rest ∧ test t o = true

theorem covers_cons_same (test : List Byte → List Byte → Bool) (t : List Byte) (ts os : List (List Byte)) :
    Covers test (t :: ts) (t :: os) ↔ Covers test ts os := by
  constructor
  · rintro (h | ⟨pre, o, t', rest, h1, h2, h3⟩)
    · exact .inl (List.cons_prefix_cons.mp h).2
    · match pre, h1, h2 with
      | [], h1, h2 =>
        cases h1; exact .inl (List.nil_prefix)
      | x :: pre, h1, h2 =>
        simp only [List.cons_append, List.cons.injEq] at h1 h2
        exact .inr ⟨pre, o, t', rest, h1.2, h2.2, h3⟩
  · rintro (h | ⟨pre, o, t', rest, rfl, rfl, h3⟩)
    · exact .inl (List.cons_prefix_cons.mpr ⟨rfl, h⟩)
    · exact .inr ⟨t :: pre, o, t', rest, rfl, rfl, h3⟩

theorem covers_cons_diff (test : List Byte → List Byte → Bool) (t o : List Byte) (ts os : List (List Byte)) (h : t ≠ o) :
    Covers test (t :: ts) (o :: os) ↔ (test t o && os.isEmpty) = true := by
  rw [Bool.and_eq_true, List.isEmpty_iff]
  constructor
  · rintro (h' | ⟨pre, o', t', rest, h1, h2, h3⟩)
    · exact absurd (List.cons_prefix_cons.mp h').1.symm h
    · match pre, h1, h2 with
      | [], h1, h2 =>
        simp only [List.nil_append, List.cons.injEq] at h1 h2
        rw [h1.1, h2.1]
        exact ⟨h3, h1.2⟩
      | x :: pre, h1, h2 =>
        simp only [List.cons_append, List.cons.injEq] at h1 h2
        exact absurd (h2.1.trans h1.1.symm) h
  · rintro ⟨h1, rfl⟩
    exact .inr ⟨[], o, t, ts, rfl, rfl, h1⟩

theorem walk_spec (test : List Byte → List Byte → Bool) : ∀ ts os : List (List Byte),
    (walk test ts os = .throws ∧ ∃ o r, os = ts ++ o :: r) ∨
    ∃ b, walk test ts os = .ok b ∧ (b = true ↔ Covers test ts os)
  | ts, [] => by
    refine .inr ⟨true, by cases ts <;> rfl, ?_⟩
    exact ⟨fun _ => .inl List.nil_prefix, fun _ => rfl⟩
  | [], o :: os => .inl ⟨rfl, o, os, rfl⟩
  | t :: ts, o :: os => by
    rw [walk]
    by_cases h : t = o
    · subst h
      rw [if_pos rfl]
      rcases walk_spec test ts os with ⟨h1, o', r, h2⟩ | ⟨b, h1, h2⟩
      · exact .inl ⟨h1, o', r, by rw [h2]; rfl⟩
      · exact .inr ⟨b, h1, by rw [h2, covers_cons_same test t ts os]⟩
    · rw [if_neg h]
      exact .inr ⟨_, rfl, (covers_cons_diff test t o ts os h).symm⟩

/-! ### The comparison of lengths that precedes the loops -/

/-- Number of characters of the text with a one-character delimiter. -/
def chars (cs : List (List Byte)) : Nat := if cs = [[]] then 1 else cs.length - 1 + (cs.map List.length).sum

theorem chars_meant (cs : List (List Byte)) : (meant [0x2F#8] cs).length = chars cs := by
  rw [meant, chars]
  split
  · rfl
  · rw [intercalate_length, List.length_singleton, Nat.one_mul]

theorem length_chars (b : Bool) (cs : List (List Byte)) (h : chars cs < 2 ^ 16) : length ⟨b, cs⟩ [0x2F#8] = chars cs := by
  match cs, h with
  | [], _ => rfl
  | c :: cs, h =>
    have hc : ∀ x ∈ c :: cs, x.length < 2 ^ 16 := by
      intro x hx
      have hle : ∀ (l : List (List Byte)), x ∈ l → x.length ≤ (l.map List.length).sum := by
        intro l
        induction l with
        | nil => intro h; cases h
        | cons y l ih =>
          intro h
          rw [List.map_cons, List.sum_cons]
          rcases List.mem_cons.mp h with rfl | h
          · omega
          · have := ih h; omega
      have h1 := hle _ hx
      rw [chars] at h
      split at h
      · rename_i he
        rw [he] at hx
        rw [List.mem_singleton.mp hx]
        simp
      · omega
    rw [length_eq b [0x2F#8] (c :: cs) (by simp) (by simp) hc, chars_meant, wrap16_of_lt h]

theorem chars_pos (cs : List (List Byte)) (h : cs ≠ []) : 0 < chars cs := by
  rw [chars]
  split
  · omega
  · rename_i he
    match cs, h, he with
    | [c], _, he =>
      have : c ≠ [] := fun e => he (by rw [e])
      have := List.length_pos_iff.mpr this
      simp; omega
    | _ :: _ :: _, _, _ => simp; omega

theorem chars_reverse (cs : List (List Byte)) : chars cs.reverse = chars cs := by
  have h : cs.reverse = [[]] ↔ cs = [[]] := by
    rw [List.reverse_eq_iff]; rfl
  rw [chars, chars, List.length_reverse, List.map_reverse, List.sum_reverse]
  simp only [h]

theorem chars_longer (ts : List (List Byte)) (o : List Byte) (r : List (List Byte)) (h : chars (ts ++ o :: r) ≤ chars ts) :
    ts = [[]] ∧ o = [] ∧ r = [] := by
  by_cases hr : ts = [[]]
  · subst hr
    have h0 : chars [[]] = 1 := rfl
    rw [h0, chars, if_neg (by simp)] at h
    simp only [List.singleton_append, List.length_cons, List.map_cons, List.sum_cons, List.length_nil] at h
    exact ⟨rfl, List.length_eq_zero_iff.mp (by omega), List.length_eq_zero_iff.mp (by omega)⟩
  · exfalso
    by_cases he : ts = []
    · subst he
      have := chars_pos ([] ++ o :: r) (by simp)
      have h0 : chars [] = 0 := rfl
      omega
    · have hpos := List.length_pos_iff.mpr he
      rw [chars, chars, if_neg hr, if_neg] at h
      · simp only [List.length_append, List.length_cons, List.map_append, List.sum_append, List.map_cons, List.sum_cons] at h
        omega
      · intro e
        have := congrArg List.length e
        simp at this
        omega

theorem chars_covers (test : List Byte → List Byte → Bool) (ht : ∀ t o, test t o = true → o.length ≤ t.length)
    (ts os : List (List Byte)) (h : Covers test ts os) : chars os ≤ chars ts := by
  have key : ∀ pre o t rest, ts = pre ++ t :: rest → os = pre ++ [o] → o.length ≤ t.length → chars os ≤ chars ts := by
    rintro pre o t rest rfl rfl hl
    have hpos := chars_pos (pre ++ t :: rest) (by simp)
    by_cases h1 : pre ++ [o] = [[]]
    · have h2 : chars (pre ++ [o]) = 1 := by rw [h1]; rfl
      omega
    · rw [chars, if_neg h1]
      by_cases h2 : pre ++ t :: rest = [[]]
      · exfalso
        apply h1
        match pre, h2 with
        | [], h2 =>
          simp only [List.nil_append, List.cons.injEq] at h2
          rw [h2.1] at hl
          have ho : o = [] := List.length_eq_zero_iff.mp (by simpa using hl)
          rw [ho]; rfl
        | _ :: _, h2 => simp at h2
      · rw [chars, if_neg h2]
        simp only [List.length_append, List.length_cons, List.length_nil, List.map_append, List.sum_append, List.map_cons,
          List.sum_cons, List.map_nil, List.sum_nil]
        omega
  rcases h with ⟨r, h⟩ | ⟨pre, o, t, rest, h1, h2, h3⟩
  · by_cases he : os = []
    · subst he; exact Nat.zero_le _
    · have e := List.dropLast_concat_getLast he
      exact key os.dropLast (os.getLast he) (os.getLast he) r
        (by rw [← h]; conv => lhs; rw [← e]
            simp) e.symm (Nat.le_refl _)
  · exact key pre o t rest h2 h1 (ht t o h3)

/-- The decision as a whole: lengths first, then the loop. -/
theorem decide_spec (test : List Byte → List Byte → Bool)
    (ht : ∀ t o, test t o = true → o.length ≤ t.length) (ts os : List (List Byte)) (hx : ¬(ts = [[]] ∧ os = [[], []])) :
    ∃ b, (if chars os > chars ts then .ok false else walk test ts os : Outcome Bool) = .ok b ∧ (b = true ↔ Covers test ts os) := by
  by_cases h : chars os > chars ts
  · rw [if_pos h]
    refine ⟨false, rfl, fun e => (by cases e), fun hc => ?_⟩
    have := chars_covers test ht ts os hc
    omega
  · rw [if_neg h]
    rcases walk_spec test ts os with ⟨_, o, r, rfl⟩ | h'
    · obtain ⟨h1, h2, h3⟩ := chars_longer ts o r (by omega)
      subst h1 h2 h3
      exact absurd ⟨rfl, rfl⟩ hx
    · exact h'

/-! ### C52 -/

/-- **C52**, `startsWith` (partial: both paths have components or at least a buffer, texts shorter than 65536, and not the
root asked for the path of two empty components). It returns, and the answer is exactly whether the argument is a start of
the path. Missing: see `C52_startsWith_throws` and `C52_startsWith_empty`. -/
theorem C52_startsWith_partial (ps qs : List (List Byte)) (hp : (meant [0x2F#8] ps).length < 2 ^ 16)
    (hq : (meant [0x2F#8] qs).length < 2 ^ 16) (hx : ¬(ps = [[]] ∧ qs = [[], []])) :
    ∃ b, startsWith ⟨false, ps⟩ ⟨false, qs⟩ = .ok b ∧ (b = true ↔ IsStart qs ps) := by
  rw [chars_meant] at hp hq
  obtain ⟨b, h1, h2⟩ := decide_spec StringView.startsWith
    (fun t o h => ((C25_startsWith_iff t o).mp h).length_le) ps qs hx
  refine ⟨b, ?_, ?_⟩
  · rw [startsWith, if_neg (by simp), if_neg (by simp), length_chars _ _ hp, length_chars _ _ hq,
      startsWithLoop_walk _ _ _ 0 (by simp), ← h1]
    rfl
  · rw [h2, Covers, IsStart]
    simp only [C25_startsWith_iff]

theorem isEnd_covers (qs ps : List (List Byte)) : Covers StringView.endsWith ps.reverse qs.reverse ↔ IsEnd qs ps := by
  rw [Covers, IsEnd, List.reverse_prefix]
  simp only [C25_endsWith_iff]
  constructor
  · rintro (h | ⟨pre, o, t, rest, h1, h2, h3⟩)
    · exact .inl h
    · refine .inr ⟨rest.reverse, o, t, pre.reverse, ?_, ?_, h3⟩
      · rw [List.reverse_eq_iff] at h1; simpa using h1
      · rw [List.reverse_eq_iff] at h2; simpa using h2
  · rintro (h | ⟨rest, l, l', post, rfl, rfl, h3⟩)
    · exact .inl h
    · exact .inr ⟨post.reverse, l, l', rest.reverse, by simp, by simp, h3⟩

/-- **C52**, `endsWith` (partial: as for `startsWith`). -/
theorem C52_endsWith_partial (ps qs : List (List Byte)) (hp : (meant [0x2F#8] ps).length < 2 ^ 16)
    (hq : (meant [0x2F#8] qs).length < 2 ^ 16) (hp64 : ps.length < 2 ^ 64) (hq64 : qs.length < 2 ^ 64)
    (hx : ¬(ps = [[]] ∧ qs = [[], []])) :
    ∃ b, endsWith ⟨false, ps⟩ ⟨false, qs⟩ = .ok b ∧ (b = true ↔ IsEnd qs ps) := by
  rw [chars_meant] at hp hq
  have hx' : ¬(ps.reverse = [[]] ∧ qs.reverse = [[], []]) := by
    rw [List.reverse_eq_iff, List.reverse_eq_iff]; exact hx
  obtain ⟨b, h1, h2⟩ := decide_spec StringView.endsWith
    (fun t o h => ((C25_endsWith_iff t o).mp h).length_le) ps.reverse qs.reverse hx'
  rw [chars_reverse, chars_reverse] at h1
  refine ⟨b, ?_, by rw [h2, isEnd_covers]⟩
  rw [endsWith, if_neg (by simp), if_neg (by simp), length_chars _ _ hp, length_chars _ _ hq,
    endsWithLoop_walk _ _ hp64 hq64 _ 0 (by simp), ← h1]
  rfl

example : startsWith ⟨false, [[], [0x61#8, 0x62#8], [0x63#8]]⟩ ⟨false, [[], [0x61#8]]⟩ = .ok true ∧
    endsWith ⟨false, [[], [0x61#8, 0x62#8], [0x63#8]]⟩ ⟨false, [[0x62#8], [0x63#8]]⟩ = .ok true ∧
    startsWith ⟨false, [[], [0x61#8]]⟩ ⟨false, [[0x61#8]]⟩ = .ok false ∧
    (meant [0x2F#8] [[], [0x61#8, 0x62#8], [0x63#8]]).length < 2 ^ 16 := by decide +kernel

/-- **C52, negation**: the root asked whether it starts or ends with the path of two empty components (the result of
parsing "//") throws. -/
theorem C52_startsWith_throws :
    startsWith ⟨false, [[]]⟩ ⟨false, [[], []]⟩ = .throws ∧ endsWith ⟨false, [[]]⟩ ⟨false, [[], []]⟩ = .throws ∧
    parse mem7 (fun _ => .ok ()) 9 [0x2F#8, 0x2F#8] [0x2F#8] = some (.ok ⟨false, [[], []]⟩) := by decide +kernel

/-- **C52, negation**: a path with components does not start or end with `Path{}`, although the empty list of components is a
prefix of every list; it does start with a path that lost its components in `normalize`. -/
theorem C52_startsWith_empty (ps : List (List Byte)) (h : chars ps < 2 ^ 16) :
    startsWith ⟨false, ps⟩ Path.none = .ok false ∧ endsWith ⟨false, ps⟩ Path.none = .ok false ∧ IsStart Path.none.comps ps ∧
    startsWith ⟨false, ps⟩ ⟨false, []⟩ = .ok true := by
  refine ⟨rfl, rfl, .inl List.nil_prefix, ?_⟩
  rw [startsWith, if_neg (by simp), if_neg (by simp), length_chars _ _ h]
  rw [if_neg]
  · rfl
  · have : length ⟨false, []⟩ [0x2F#8] = 0 := rfl
    rw [this]; omega

theorem matchLoop_spec (p q : Path) (first : Nat) : ∀ k i, i + k = q.comps.length → first + i + k ≤ p.comps.length →
    ∃ b, matchLoop p q first k i = .ok b ∧ (b = true ↔ (p.comps.drop (first + i)).take k = q.comps.drop i) := by
  intro k
  induction k with
  | zero =>
    intro i h _
    exact ⟨true, rfl, fun _ => by rw [List.take_zero, List.drop_of_length_le (by omega)], fun _ => rfl⟩
  | succ k ih =>
    intro i h h'
    rw [matchLoop, component_lt p _ (by omega), Outcome.bind_ok, component_lt q i (by omega), Outcome.bind_ok,
      List.drop_eq_getElem_cons (l := q.comps) (i := i) (by omega), List.drop_eq_getElem_cons (l := p.comps) (i := first + i) (by omega),
      List.take_succ_cons]
    by_cases he : p.comps[first + i]'(by omega) = q.comps[i]'(by omega)
    · obtain ⟨b, h1, h2⟩ := ih (i + 1) (by omega) (by omega)
      rw [if_neg (by simp [(equals_iff _ _).mpr he]), h1]
      refine ⟨b, rfl, ?_⟩
      rw [h2, List.cons.injEq]
      exact ⟨fun h => ⟨he, h⟩, fun h => h.2⟩
    · have : StringView.equals (p.comps[first + i]'(by omega)) (q.comps[i]'(by omega)) = false := by
        rw [← Bool.not_eq_true, equals_iff]; exact he
      rw [if_pos (by simp [this])]
      refine ⟨false, rfl, fun h => (by cases h), fun h => ?_⟩
      rw [List.cons.injEq] at h
      exact absurd h.1 he

theorem containsLoop_spec (p q : Path) (hq : q.comps ≠ []) : ∀ k first, first + k + q.comps.length ≤ p.comps.length + 1 →
    ∃ b, containsLoop p q k first = .ok b ∧
      (b = true ↔ ∃ i, first ≤ i ∧ i < first + k ∧ (p.comps.drop i).take q.comps.length = q.comps) := by
  have hpos := List.length_pos_iff.mpr hq
  intro k
  induction k with
  | zero => intro first _; exact ⟨false, rfl, fun h => (by cases h), fun ⟨i, h1, h2, _⟩ => (by omega)⟩
  | succ k ih =>
    intro first h
    have hf : first < p.comps.length := by omega
    have e1 : (p.comps.drop first).take q.comps.length =
        p.comps[first] :: (p.comps.drop (first + 1)).take (q.comps.length - 1) := by
      rw [List.drop_eq_getElem_cons hf]
      conv => lhs; rw [← Nat.sub_add_cancel hpos]
      rw [List.take_succ_cons]
    have e2 : q.comps = q.comps[0] :: q.comps.drop 1 := by
      conv => lhs; rw [← List.drop_zero (l := q.comps)]
      rw [List.drop_eq_getElem_cons hpos]
    have step : ∀ {P : Nat → Prop}, (¬P first) → ((∃ i, first + 1 ≤ i ∧ i < first + 1 + k ∧ P i) ↔ ∃ i, first ≤ i ∧ i < first + (k + 1) ∧ P i) := by
      intro P hn
      constructor
      · rintro ⟨i, h1, h2, h3⟩; exact ⟨i, by omega, by omega, h3⟩
      · rintro ⟨i, h1, h2, h3⟩
        have : i ≠ first := fun e => hn (e ▸ h3)
        exact ⟨i, by omega, by omega, h3⟩
    rw [containsLoop, component_lt p _ hf, Outcome.bind_ok, component_lt q 0 hpos, Outcome.bind_ok]
    obtain ⟨b, h1, h2⟩ := ih (first + 1) (by omega)
    by_cases he : p.comps[first] = q.comps[0]
    · obtain ⟨a, h3, h4⟩ := matchLoop_spec p q first (q.comps.length - 1) 1 (by omega) (by omega)
      rw [if_pos ((equals_iff _ _).mpr he), h3, Outcome.bind_ok]
      cases a with
      | true =>
        refine ⟨true, rfl, fun _ => ⟨first, Nat.le_refl _, by omega, ?_⟩, fun _ => rfl⟩
        rw [e1, he, h4.mp rfl, ← e2]
      | false =>
        rw [if_neg (by simp), h1]
        refine ⟨b, rfl, ?_⟩
        rw [h2]
        refine step (P := fun i => (p.comps.drop i).take q.comps.length = q.comps) fun hn => ?_
        rw [e1, e2, List.cons.injEq, ← e2] at hn
        exact absurd (h4.mpr hn.2) (by simp)
    · rw [if_neg (fun h => he ((equals_iff _ _).mp h)), h1]
      refine ⟨b, rfl, ?_⟩
      rw [h2]
      refine step (P := fun i => (p.comps.drop i).take q.comps.length = q.comps) fun hn => ?_
      rw [e1, e2, List.cons.injEq] at hn
      exact he hn.1

/-- **C52**, `contains` (partial: the argument has components): it returns, and the answer is exactly whether the
components of the argument are a contiguous run of those of the path. Missing: an argument without components, where it
throws (`C52_contains_throws`). -/
theorem C52_contains_partial (p q : Path) (hq : q.comps ≠ []) :
    ∃ b, contains p q = .ok b ∧ (b = true ↔ q.comps <:+: p.comps) := by
  rw [contains]
  by_cases h : q.comps.length > p.comps.length
  · rw [if_pos h]
    refine ⟨false, rfl, fun h => (by cases h), fun h' => ?_⟩
    have := h'.length_le
    omega
  · rw [if_neg h]
    obtain ⟨b, h1, h2⟩ := containsLoop_spec p q hq (p.comps.length - q.comps.length + 1) 0 (by omega)
    refine ⟨b, h1, ?_⟩
    rw [h2]
    constructor
    · rintro ⟨i, _, _, h3⟩
      rw [← h3]
      exact ⟨p.comps.take i, (p.comps.drop i).drop q.comps.length, by
        rw [List.append_assoc, List.take_append_drop, List.take_append_drop]⟩
    · rintro ⟨a, c, h3⟩
      refine ⟨a.length, Nat.zero_le _, ?_, ?_⟩
      · have := congrArg List.length h3
        simp only [List.length_append] at this
        omega
      · rw [← h3, List.append_assoc, List.drop_left, List.take_left]

/-- **C52, negation**: `contains` of a path without components throws, for every path. -/
theorem C52_contains_throws (p q : Path) (hq : q.comps = []) : contains p q = .throws := by
  rw [contains, if_neg (by rw [hq]; simp), hq, List.length_nil, Nat.sub_zero, containsLoop]
  cases hp : p.comps with
  | nil => rw [component_ge p 0 (by rw [hp]; simp)]; rfl
  | cons c cs => rw [component_lt p 0 (by rw [hp]; simp), Outcome.bind_ok, component_ge q 0 (by rw [hq]; simp)]; rfl

example : contains ⟨false, [[1#8], [2#8], [3#8], [4#8]]⟩ ⟨false, [[2#8], [3#8]]⟩ = .ok true ∧
    contains ⟨false, [[1#8], [2#8], [3#8], [4#8]]⟩ ⟨false, [[2#8], [4#8]]⟩ = .ok false := by decide +kernel

end Solace.Path
