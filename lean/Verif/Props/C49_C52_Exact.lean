import Verif.Props.C52_PathContains
/-
C49, C50 and C52 for paths and texts of any length.
-/
namespace Solace.Path
open Strings StringView Str

variable {alloc : Nat → Except Err MutView} {vec : Nat → Except Err Unit}

/-- **C49, exactly, delimiters of one character** (memory available): printing what was parsed gives the text back, without a
delimiter at its end, for every text but that of 65535 delimiters. -/
theorem C49_single_iff (h : Plenty alloc vec) (s : List Byte) (c : Byte) (hs : s.length < 2 ^ 16) (fuel : Nat)
    (hf : s.length < fuel) :
    (∃ p t, parse alloc vec fuel s [c] = some (.ok p) ∧ toString alloc p [c] = .ok t ∧
      t = if s = [] ∨ s = [c] then [c] else if s.getLast? = some c then s.dropLast else s) ↔
    s ≠ List.replicate 65535 c := by
  refine ⟨?_, fun hx => C49_single_partial h s c hs hx fuel hf⟩
  rintro ⟨p, t, h1, h2, h3⟩ rfl
  rw [List.length_replicate] at hf
  obtain ⟨h4, v, h5, h6⟩ := C49_all_delimiters h c fuel hf
  rw [h4] at h1
  injection h1 with h1
  injection h1 with h1
  subst h1
  rw [h6] at h2
  injection h2 with h2
  have hv : v.bytes.length = 65535 := (h.ok 65535 v h5).1
  have n1 : ¬(List.replicate 65535 c = [] ∨ List.replicate 65535 c = [c]) := by
    rintro (e | e)
    · have := congrArg List.length e
      rw [List.length_replicate, List.length_nil] at this
      omega
    · have := congrArg List.length e
      rw [List.length_replicate, List.length_singleton] at this
      omega
  have n2 : (List.replicate 65535 c).getLast? = some c := by
    rw [List.getLast?_replicate, if_neg (by omega)]
  rw [if_neg n1, if_pos n2, ← h2] at h3
  have := congrArg List.length h3
  rw [hv, List.length_dropLast, List.length_replicate] at this
  omega

/-- **C50, exactly** (memory available): `length` is the length of the text for a path with components exactly when the text is
shorter than 65536 characters, or a multiple of it (both are then zero). -/
theorem C50_iff (h : Plenty alloc vec) (d : List Byte) (cs : List (List Byte)) (hne : cs ≠ []) (hn : cs.length < 2 ^ 64)
    (hd : d.length < 2 ^ 16) (hc : ∀ c ∈ cs, c.length < 2 ^ 16) :
    ∃ t, toString alloc ⟨false, cs⟩ d = .ok t ∧
      (length ⟨false, cs⟩ d = t.length ↔ (meant d cs).length < 2 ^ 16 ∨ (meant d cs).length % 2 ^ 16 = 0) := by
  by_cases ht : (meant d cs).length < 2 ^ 16
  · obtain ⟨t, h1, h2⟩ := C50_length_partial h d cs hne hn hd hc ht
    exact ⟨t, h1, fun _ => .inl ht, fun _ => h2⟩
  · obtain ⟨h1, h2⟩ := C50_too_long h d cs hne hn hd hc (by omega)
    refine ⟨[], h1, ?_⟩
    rw [h2, List.length_nil]
    constructor
    · exact .inr
    · rintro (h | h)
      · exact absurd h ht
      · exact h

theorem walk_longer (test : List Byte → List Byte → Bool) (o : List Byte) (r : List (List Byte)) :
    ∀ ts, walk test ts (ts ++ o :: r) = .throws
  | [] => rfl
  | t :: ts => by rw [List.cons_append, walk, if_pos rfl, walk_longer test o r ts]

theorem length_any (cs : List (List Byte)) (hc : ∀ c ∈ cs, c.length < 2 ^ 16) :
    length ⟨false, cs⟩ [0x2F#8] = chars cs % 2 ^ 16 := by
  by_cases hne : cs = []
  · subst hne; rfl
  · rw [length_eq false [0x2F#8] cs hne (by simp) hc, chars_meant, wrap16_def]

theorem decide_any (test : List Byte → List Byte → Bool) (ts os : List (List Byte)) (x y : Nat) :
    (x ≤ y ∧ (∃ o r, os = ts ++ o :: r) → (if x > y then .ok false else walk test ts os : Outcome Bool) = .throws) ∧
    (¬(x ≤ y ∧ ∃ o r, os = ts ++ o :: r) → ∃ b, (if x > y then .ok false else walk test ts os : Outcome Bool) = .ok b ∧
      (b = true ↔ x ≤ y ∧ Covers test ts os)) := by
  constructor
  · rintro ⟨h, o, r, rfl⟩
    rw [if_neg (by omega), walk_longer]
  · intro hn
    by_cases h : x > y
    · rw [if_pos h]
      exact ⟨false, rfl, fun e => (by cases e), fun e => (by omega)⟩
    · rw [if_neg h]
      rcases walk_spec test ts os with ⟨_, h2⟩ | ⟨b, h1, h2⟩
      · exact absurd ⟨by omega, h2⟩ hn
      · exact ⟨b, h1, by rw [h2]; exact ⟨fun e => ⟨by omega, e⟩, fun e => e.2⟩⟩

/-- **C52, exactly**, `startsWith` for texts of any length: it compares the lengths modulo 65536 first. If the argument's is not
larger it throws when the argument continues the path; otherwise the answer is whether the argument is a start of the path and
its length (modulo 65536) not larger. -/
theorem C52_startsWith_exact (ps qs : List (List Byte)) (hp : ∀ c ∈ ps, c.length < 2 ^ 16) (hq : ∀ c ∈ qs, c.length < 2 ^ 16) :
    let notLonger := chars qs % 2 ^ 16 ≤ chars ps % 2 ^ 16
    (notLonger ∧ (∃ o r, qs = ps ++ o :: r) → startsWith ⟨false, ps⟩ ⟨false, qs⟩ = .throws) ∧
    (¬(notLonger ∧ ∃ o r, qs = ps ++ o :: r) →
      ∃ b, startsWith ⟨false, ps⟩ ⟨false, qs⟩ = .ok b ∧ (b = true ↔ notLonger ∧ IsStart qs ps)) := by
  intro notLonger
  have e : startsWith ⟨false, ps⟩ ⟨false, qs⟩ =
      if chars qs % 2 ^ 16 > chars ps % 2 ^ 16 then .ok false else walk StringView.startsWith ps qs := by
    rw [startsWith, if_neg (by simp), if_neg (by simp), length_any _ hp, length_any _ hq, startsWithLoop_walk _ _ _ 0 (by simp)]
    rfl
  have hs : Covers StringView.startsWith ps qs ↔ IsStart qs ps := by
    rw [Covers, IsStart]
    simp only [C25_startsWith_iff]
  rw [e, ← hs]
  exact decide_any StringView.startsWith ps qs _ _

/-- **C52, exactly**, `endsWith`: the same, from the other end. -/
theorem C52_endsWith_exact (ps qs : List (List Byte)) (hp : ∀ c ∈ ps, c.length < 2 ^ 16) (hq : ∀ c ∈ qs, c.length < 2 ^ 16)
    (hp64 : ps.length < 2 ^ 64) (hq64 : qs.length < 2 ^ 64) :
    let notLonger := chars qs % 2 ^ 16 ≤ chars ps % 2 ^ 16
    (notLonger ∧ (∃ o r, qs = r ++ o :: ps) → endsWith ⟨false, ps⟩ ⟨false, qs⟩ = .throws) ∧
    (¬(notLonger ∧ ∃ o r, qs = r ++ o :: ps) →
      ∃ b, endsWith ⟨false, ps⟩ ⟨false, qs⟩ = .ok b ∧ (b = true ↔ notLonger ∧ IsEnd qs ps)) := by
  intro notLonger
  have e : endsWith ⟨false, ps⟩ ⟨false, qs⟩ =
      if chars qs % 2 ^ 16 > chars ps % 2 ^ 16 then .ok false else walk StringView.endsWith ps.reverse qs.reverse := by
    rw [endsWith, if_neg (by simp), if_neg (by simp), length_any _ hp, length_any _ hq,
      endsWithLoop_walk _ _ hp64 hq64 _ 0 (by simp)]
    rfl
  have hr : (∃ o r, qs = r ++ o :: ps) ↔ ∃ o r, qs.reverse = ps.reverse ++ o :: r := by
    constructor
    · rintro ⟨o, r, rfl⟩
      exact ⟨o, r.reverse, by simp⟩
    · rintro ⟨o, r, h⟩
      rw [List.reverse_eq_iff] at h
      exact ⟨o, r.reverse, by simpa using h⟩
  rw [e, ← isEnd_covers, hr]
  exact decide_any StringView.endsWith ps.reverse qs.reverse _ _

/-- **C52, exactly**: a path without buffer starts and ends with exactly the paths without buffer; no other path does. -/
theorem C52_no_buffer (p q : Path) (h : p.noBuffer = true ∨ q.noBuffer = true) :
    startsWith p q = .ok (p.noBuffer && q.noBuffer) ∧ endsWith p q = .ok (p.noBuffer && q.noBuffer) := by
  rw [startsWith, endsWith]
  cases hp : p.noBuffer <;> cases hq : q.noBuffer <;> simp_all

/-- **C52, negation**: a path of 65536 components whose text has 65536 characters does not start with its own first component,
because its length wraps to zero. -/
theorem C52_startsWith_wraps (c : Byte) :
    IsStart [[c]] ([c] :: List.replicate 65535 []) ∧
    startsWith ⟨false, [c] :: List.replicate 65535 []⟩ ⟨false, [[c]]⟩ = .ok false := by
  have hs : IsStart [[c]] ([c] :: List.replicate 65535 []) := .inl ⟨List.replicate 65535 [], rfl⟩
  refine ⟨hs, ?_⟩
  obtain ⟨_, h2⟩ := C52_startsWith_exact ([c] :: List.replicate 65535 []) [[c]]
    (by
      intro x hx
      rcases List.mem_cons.mp hx with rfl | hx
      · simp
      · rw [List.eq_of_mem_replicate hx]; simp)
    (by simp)
  have e1 : chars ([c] :: List.replicate 65535 []) = 65536 := by
    have hne : [c] :: List.replicate 65535 [] ≠ [[]] := by
      intro e
      have := congrArg List.length e
      rw [List.length_cons, List.length_replicate, List.length_singleton] at this
      omega
    rw [chars, if_neg hne, List.length_cons, List.length_replicate, List.map_cons, List.map_replicate, List.sum_cons,
      List.sum_replicate_nat, List.length_nil, List.length_singleton]
  have e2 : chars [[c]] = 1 := by simp [chars]
  rw [e1, e2] at h2
  obtain ⟨b, hb, hb'⟩ := h2 (fun hh => absurd hh.1 (by decide))
  rw [hb]
  cases b with
  | false => rfl
  | true => exact absurd (hb'.mp rfl).1 (by decide)

example : (∀ c ∈ [[], [0x61#8]], c.length < 2 ^ 16) ∧ ∃ o r, [[], [0x61#8]] = [[]] ++ o :: (r : List (List Byte)) :=
  ⟨by decide, [0x61#8], [], rfl⟩

end Solace.Path
