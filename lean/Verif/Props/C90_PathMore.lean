import Verif.Model.PathMore
import Verif.Props.C53_C54_PathParts
import Verif.Props.C52_PathContains
import Verif.Props.C51_PathNormalize
/-
C90: making a path of one string, the root, iteration, `forEach`, queries on the text, joining with moved arguments.
-/
namespace Solace.Path
open Strings StringView Str

variable {alloc : Nat → Except Err MutView} {vec : Nat → Except Err Unit}

/-! ### One string -/

/-- **C90** (full): `makePath(s)` fails with an error or gives the path whose only component is `s`. -/
theorem C90_single (ha : AllocOk alloc) (s : List Byte) :
    (∃ e, single alloc vec s = .error e) ∨ single alloc vec s = .ok ⟨false, [s]⟩ := by
  rw [single]
  rcases text_make ha s with ⟨e, he⟩ | he
  · exact .inl ⟨e, by rw [he]⟩
  · rw [he]
    simp only
    cases vec 1 with
    | error e => exact .inl ⟨e, rfl⟩
    | ok _ => exact .inr rfl

theorem single_plenty (h : Plenty alloc vec) (s : List Byte) : single alloc vec s = .ok ⟨false, [s]⟩ := by
  rw [single, text_make_plenty h]
  simp only [h.vec]
  rfl

theorem piece_no_char (c : Byte) : ∀ (ps : List (List Byte)) (s : List Byte), IsSplit [c] s ps → ∀ p ∈ ps, c ∉ p
  | [], _, h, _, _ => h.elim
  | [p], _, h, q, hq => by
    rw [List.mem_singleton] at hq
    subst hq
    intro hm
    obtain ⟨i, hi⟩ := List.mem_iff_getElem?.mp hm
    exact h.2 i ((occurs_char c q i).mpr hi)
  | p :: q :: ps, s, ⟨t, _, h2, h3⟩, r, hr => by
    rcases List.mem_cons.mp hr with rfl | hr
    · intro hm
      obtain ⟨i, hi⟩ := List.mem_iff_getElem?.mp hm
      have hlt := (List.getElem?_eq_some_iff.mp hi).1
      have := h2 i ((occurs_char c _ i).mpr (by rw [List.getElem?_append_left hlt, hi]))
      omega
    · exact piece_no_char c (q :: ps) t h3 r hr

theorem mem_trail : ∀ (ps : List (List Byte)) (p : List Byte), p ∈ trail ps → p ∈ ps
  | ps, p, h => by
    rw [trail] at h
    split at h
    · exact mem_dropLast h
    · exact h

theorem mem_kept (ps : List (List Byte)) (p : List Byte) (h : p ∈ kept ps) : p = [] ∨ p ∈ ps := by
  rw [kept] at h
  split at h
  · exact .inl (List.mem_singleton.mp h)
  · exact .inr (mem_trail ps p h)

/-- **C90** (full; memory available): `makePath(s)` does not parse: it gives the path that parsing `s` gives exactly when `s`
has no delimiter. -/
theorem C90_single_parse (h : Plenty alloc vec) (c : Byte) (s : List Byte) (hs : s.length < 2 ^ 16) (fuel : Nat) (hf : s.length < fuel) :
    parse alloc vec fuel s [c] = some (single alloc vec s) ↔ c ∉ s := by
  rw [single_plenty h]
  constructor
  · intro he hm
    by_cases hx : s = List.replicate 65535 c
    · subst hx
      rw [(C49_all_delimiters h c fuel (by rw [List.length_replicate] at hf; exact hf)).1] at he
      injection he with he
      injection he with he
      rw [Path.none] at he
      injection he with he
      exact absurd he (by decide)
    · rw [parse_plenty h s [c] (by simp) hs fuel hf (pieces_lt s [c] (by simp) hs fun c' e => by cases e; exact hx)] at he
      injection he with he
      injection he with he
      injection he with _ he
      have hk : s ∈ kept (scan [c] [] s) := by rw [he]; simp
      rcases mem_kept _ _ hk with hk | hk
      · rw [hk] at hm; cases hm
      · exact piece_no_char c _ s (scan_spec [c] s (by simp)) s hk hm
  · intro hm
    have hsp : IsSplit [c] s [s] := ⟨rfl, fun i hi => hm (List.mem_iff_getElem?.mpr ⟨i, (occurs_char c s i).mp hi⟩)⟩
    have hsc : scan [c] [] s = [s] := isSplit_unique (scan_spec [c] s (by simp)) hsp
    rw [parse_plenty h s [c] (by simp) hs fuel hf (by rw [hsc]; simp), hsc]
    by_cases e : s = []
    · subst e; rfl
    · rw [kept_of_last [s] (by simp) (by simpa using e)]

/-- **C90**, negation: the component may hold the delimiter; the path then prints as a path of two components. -/
theorem C90_single_print :
    single mem7 (fun _ => .ok ()) [0x61#8, 0x2F#8, 0x62#8] = .ok ⟨false, [[0x61#8, 0x2F#8, 0x62#8]]⟩ ∧
    toString mem7 ⟨false, [[0x61#8, 0x2F#8, 0x62#8]]⟩ [0x2F#8] = toString mem7 ⟨false, [[0x61#8], [0x62#8]]⟩ [0x2F#8] ∧
    equals ⟨false, [[0x61#8, 0x2F#8, 0x62#8]]⟩ ⟨false, [[0x61#8], [0x62#8]]⟩ = false := by decide +kernel

/-- **C90**, the root (full; memory available): absolute, printed and parsed as the delimiter, its own parent, and it starts
every absolute path. -/
theorem C90_root (h : Plenty alloc vec) (d : List Byte) (hd : d ≠ []) (hd16 : d.length < 2 ^ 16) (fuel : Nat) (hf : 2 ^ 16 ≤ fuel)
    (cs : List (List Byte)) (hcs : (meant [0x2F#8] ([] :: cs)).length < 2 ^ 16) :
    isAbsolute (root alloc vec) = .ok true ∧ toString alloc (root alloc vec) d = .ok d ∧
    parse alloc vec fuel d d = some (.ok (root alloc vec)) ∧ getParent alloc vec (root alloc vec) = .ok (root alloc vec) ∧
    startsWith ⟨false, [] :: cs⟩ (root alloc vec) = .ok true := by
  have hr : root alloc vec = ⟨false, [[]]⟩ := by rw [root, single_plenty h]
  have hm : meant d [[]] = d := by rw [meant, if_pos rfl]
  rw [hr]
  refine ⟨rfl, ?_, ?_, (C53_short h []).1, ?_⟩
  · rw [toString_eq h d [[]] (by simp) (by simp) hd16, hm, if_pos hd16]
  · rw [parse_plenty h d d hd hd16 fuel (by omega) (by rw [scan_root d hd]; decide), scan_root d hd]
    rfl
  · have h1 : length ⟨false, [[]]⟩ [0x2F#8] = 1 := rfl
    have h2 : 1 ≤ length ⟨false, [] :: cs⟩ [0x2F#8] := by
      rw [length_chars false _ (by rw [← chars_meant]; exact hcs)]
      exact chars_pos _ (by simp)
    rw [startsWith]
    simp only [Bool.false_eq_true, if_false]
    rw [h1, if_neg (by omega)]
    rfl

/-- **C90**, the root without memory (negation): it is then the path without components, which is not absolute. -/
theorem C90_root_without_memory (hx : ∀ n, ∃ e, alloc n = .error e) :
    root alloc vec = Path.none ∧ isAbsolute (root alloc vec) = .ok false := by
  have hr : root alloc vec = Path.none := by
    obtain ⟨e, he⟩ := hx 0
    have hm : text (Str.make alloc []) = .error e := by
      rw [Str.make]
      show (Except.map _ (match alloc 0 with | .error e => .error e | .ok v => _) : Except Err _) = _
      rw [he]; rfl
    rw [root, single, hm]
  rw [hr]
  exact ⟨rfl, rfl⟩

/-- **C90** (full): a path is relative or absolute, never both, except when neither can be asked: a path with a buffer but
no components ends the program. -/
theorem C90_relative (p : Path) :
    (∃ b, isAbsolute p = .ok b ∧ isRelative p = .ok !b) ∨
    (p.noBuffer = false ∧ p.comps = [] ∧ isAbsolute p = .terminate ∧ isRelative p = .terminate) := by
  obtain ⟨nb, cs⟩ := p
  cases nb with
  | true => exact .inl ⟨false, rfl, rfl⟩
  | false =>
    cases cs with
    | nil => exact .inr ⟨rfl, rfl, rfl, rfl⟩
    | cons c cs => exact .inl ⟨c == [], rfl, rfl⟩

example : ∃ p, isRelative p = .terminate := ⟨⟨false, []⟩, rfl⟩
example : single mem7 (fun _ => .ok ()) [0x61#8] = .ok ⟨false, [[0x61#8]]⟩ := by decide +kernel

/-! ### Iteration -/

/-- `k` times `++`. -/
def Iter.advance (it : Iter) : Nat → Iter
  | 0 => it
  | k + 1 => (it.advance k).next

theorem advance_eq (it : Iter) (k : Nat) (h : it.index + k < 2 ^ 64) : it.advance k = ⟨it.index + k, it.comps⟩ := by
  induction k with
  | zero => rfl
  | succ k ih =>
    rw [Iter.advance, ih (by omega), Iter.next]
    simp only
    rw [wrap64_of_lt (by omega)]
    rfl

theorem rangeFor_eq (cs : List (List Byte)) (hn : cs.length < 2 ^ 64) : ∀ (k fuel i : Nat), i + k = cs.length → k < fuel →
    rangeFor fuel ⟨i, cs⟩ ⟨cs.length, cs⟩ = some (.ok (cs.drop i))
  | 0, fuel + 1, i, hi, _ => by
    have : i = cs.length := by omega
    subst this
    have hb : Iter.eq ⟨cs.length, cs⟩ ⟨cs.length, cs⟩ = true := beq_self_eq_true _
    rw [rangeFor, if_pos hb, List.drop_length]
  | k + 1, fuel + 1, i, hi, hf => by
    have hlt : i < cs.length := by omega
    have hb : ¬Iter.eq ⟨i, cs⟩ ⟨cs.length, cs⟩ = true := by
      simp only [Iter.eq, beq_iff_eq]; omega
    have hd : Iter.deref ⟨i, cs⟩ = .ok cs[i] := by
      rw [Iter.deref]; simp only [List.getElem?_eq_getElem hlt]
    have hnx : Iter.next ⟨i, cs⟩ = ⟨i + 1, cs⟩ := by
      rw [Iter.next]; simp only; rw [wrap64_of_lt (by omega)]
    rw [rangeFor, if_neg hb, hd]
    simp only
    rw [hnx, rangeFor_eq cs hn k fuel (i + 1) (by omega) (by omega), List.drop_eq_getElem_cons hlt]
    rfl

/-- **C90**, iteration (full): a range-based loop ends, and its body sees the components in order. -/
theorem C90_iterate (p : Path) (hn : p.comps.length < 2 ^ 64) (fuel : Nat) (hf : p.comps.length < fuel) :
    rangeFor fuel (begin' p) (end' p) = some (.ok p.comps) := by
  rw [begin', end', rangeFor_eq p.comps hn p.comps.length fuel 0 (by omega) hf, List.drop_zero]

/-- **C90** (full): the `k`-th iterator refers to the `k`-th component, the ones from the end on throw. -/
theorem C90_deref (p : Path) (k : Nat) (hk : k < 2 ^ 64) :
    ((begin' p).advance k).deref = p.component k := by
  rw [advance_eq _ k (by show 0 + _ < _; omega), begin', Nat.zero_add]
  rfl

/-- **C90** (full): iterators of one path are equal when they refer to the same position. -/
theorem C90_iterator_eq (p : Path) (i j : Nat) (hi : i < 2 ^ 64) (hj : j < 2 ^ 64) :
    ((begin' p).advance i).eq ((begin' p).advance j) = true ↔ i = j := by
  rw [advance_eq _ i (by show 0 + _ < _; omega), advance_eq _ j (by show 0 + _ < _; omega), begin']
  simp [Iter.eq]

theorem rangeFor_foreign (cs ds : List (List Byte)) (hn : cs.length < 2 ^ 64) : ∀ (k fuel i : Nat), i + k = min cs.length ds.length →
    k < fuel → rangeFor fuel ⟨i, cs⟩ ⟨ds.length, ds⟩ =
      some (if ds.length ≤ cs.length then .ok ((cs.drop i).take (ds.length - i)) else .throws)
  | 0, fuel + 1, i, hi, _ => by
    rw [rangeFor]
    by_cases h : ds.length ≤ cs.length
    · have : i = ds.length := by omega
      subst this
      have hb : Iter.eq ⟨ds.length, cs⟩ ⟨ds.length, ds⟩ = true := beq_self_eq_true _
      rw [if_pos hb, if_pos h, Nat.sub_self, List.take_zero]
    · have hb : ¬Iter.eq ⟨i, cs⟩ ⟨ds.length, ds⟩ = true := by
        simp only [Iter.eq, beq_iff_eq]; omega
      have hd : Iter.deref ⟨i, cs⟩ = .throws := by
        rw [Iter.deref]; simp only [List.getElem?_eq_none (show cs.length ≤ i by omega)]
      rw [if_neg hb, if_neg h, hd]
  | k + 1, fuel + 1, i, hi, hf => by
    have hlt : i < cs.length := by omega
    have hb : ¬Iter.eq ⟨i, cs⟩ ⟨ds.length, ds⟩ = true := by
      simp only [Iter.eq, beq_iff_eq]; omega
    have hd : Iter.deref ⟨i, cs⟩ = .ok cs[i] := by
      rw [Iter.deref]; simp only [List.getElem?_eq_getElem hlt]
    have hnx : Iter.next ⟨i, cs⟩ = ⟨i + 1, cs⟩ := by
      rw [Iter.next]; simp only; rw [wrap64_of_lt (by omega)]
    rw [rangeFor, if_neg hb, hd]
    simp only
    rw [hnx, rangeFor_foreign cs ds hn k fuel (i + 1) (by omega) (by omega)]
    by_cases h : ds.length ≤ cs.length
    · have e : ds.length - i = (ds.length - (i + 1)) + 1 := by omega
      rw [if_pos h, if_pos h, List.drop_eq_getElem_cons hlt, e, List.take_succ_cons]
      rfl
    · rw [if_neg h, if_neg h]; rfl

/-- **C90**, exactly, a loop that begins in one path and ends with the end of another: it sees the components up to that index,
or throws when there are not so many. -/
theorem C90_iterate_other (p q : Path) (hn : p.comps.length < 2 ^ 64) (fuel : Nat) (hf : min p.comps.length q.comps.length < fuel) :
    rangeFor fuel (begin' p) (end' q) =
      some (if q.comps.length ≤ p.comps.length then .ok (p.comps.take q.comps.length) else .throws) := by
  rw [begin', end', rangeFor_foreign p.comps q.comps hn _ fuel 0 (Nat.zero_add _) hf, List.drop_zero, Nat.sub_zero]

example : rangeFor 3 (begin' ⟨false, [[0x61#8]]⟩) (end' ⟨false, [[], [0x61#8], [0x62#8]]⟩) = some .throws := by decide +kernel

/-- **C90**, negation: iterators of different paths are equal when the indices are. -/
theorem C90_iterator_eq_other (p q : Path) (i : Nat) : ((begin' p).advance i).eq ((begin' q).advance i) = true := by
  have h : ∀ (r : Path) (k : Nat), ((begin' r).advance k).index = ((begin' Path.none).advance k).index := by
    intro r k
    induction k with
    | zero => rfl
    | succ k ih => rw [Iter.advance, Iter.advance, Iter.next, Iter.next, ih]
  rw [Iter.eq, h p i, h q i, beq_self_eq_true]

example : rangeFor 4 (begin' ⟨false, [[], [0x61#8], [0x62#8]]⟩) (end' ⟨false, [[], [0x61#8], [0x62#8]]⟩) =
    some (.ok [[], [0x61#8], [0x62#8]]) ∧ Iter.deref (end' ⟨false, [[1#8]]⟩) = .throws := by decide +kernel

/-- **C90**, `forEach` (full): the function is called for the components in order; if all calls return, for all of them;
otherwise up to and including the first call that does not. -/
theorem C90_forEach {σ : Type} (f : σ → List Byte → Outcome σ) (cs : List (List Byte)) : ∀ s,
    (∃ t, (forEach f s cs).2 = .ok t ∧ (forEach f s cs).1 = cs) ∨
    (∃ before c rest t, cs = before ++ c :: rest ∧ (forEach f s before).2 = .ok t ∧ (∀ u, f t c ≠ .ok u) ∧
      (forEach f s cs).1 = before ++ [c] ∧ (forEach f s cs).2 = f t c) := by
  induction cs with
  | nil => intro s; exact .inl ⟨s, rfl, rfl⟩
  | cons c cs ih =>
    intro s
    cases hf : f s c with
    | ok s' =>
      have e1 : ∀ l, forEach f s (c :: l) = (c :: (forEach f s' l).1, (forEach f s' l).2) := by
        intro l; rw [forEach, hf]
      rcases ih s' with ⟨t, h1, h2⟩ | ⟨b, x, r, t, h1, h2, h3, h4, h5⟩
      · exact .inl ⟨t, by rw [e1, h1], by rw [e1, h2]⟩
      · exact .inr ⟨c :: b, x, r, t, by rw [h1]; rfl, by rw [e1, h2], h3, by rw [e1, h4]; rfl, by rw [e1, h5]⟩
    | throws => exact .inr ⟨[], c, cs, s, rfl, rfl, by rw [hf]; simp, by rw [forEach, hf]; rfl, by rw [forEach, hf]⟩
    | terminate => exact .inr ⟨[], c, cs, s, rfl, rfl, by rw [hf]; simp, by rw [forEach, hf]; rfl, by rw [forEach, hf]⟩
    | ub => exact .inr ⟨[], c, cs, s, rfl, rfl, by rw [hf]; simp, by rw [forEach, hf]; rfl, by rw [forEach, hf]⟩

/-- **C90**, `forEach` on an rvalue (full): the components are handed over in order, and the path is left with as many
components, all empty. A relative path has become an absolute one; only one without components stays as it was. -/
theorem C90_forEach_moved (p : Path) :
    (forEachMoved p).1 = p.comps ∧ (forEachMoved p).2.comps = List.replicate p.comps.length [] ∧
    (p.noBuffer = false → p.comps ≠ [] → isAbsolute (forEachMoved p).2 = .ok true) ∧
    (p = Path.none → (forEachMoved p).2 = p) := by
  refine ⟨rfl, ?_, ?_, ?_⟩
  · rw [forEachMoved]
    simp only
    induction p.comps with
    | nil => rfl
    | cons c cs ih => rw [List.map_cons, ih]; rfl
  · obtain ⟨nb, cs⟩ := p
    intro h1 h2
    simp only at h1 h2
    subst h1
    cases cs with
    | nil => exact absurd rfl h2
    | cons c cs => rfl
  · rintro rfl; rfl

/-! ### Queries on the text -/

/-- **C90**, text queries (partial: memory available, the text is shorter than 65536 characters, the path has components and
for `contains` the string is not empty): they are about the text of the path. Missing: see `C90_text_without_memory`,
`C90_text_too_long`, `C90_text_none`; the empty string in `contains` reads outside (C24). -/
theorem C90_text_partial (h : Plenty alloc vec) (cs : List (List Byte)) (hne : cs ≠ []) (hn : cs.length < 2 ^ 64)
    (ht : (meant [0x2F#8] cs).length < 2 ^ 16) (x after xAfter : List Byte) (hx : x ≠ []) :
    ∃ a b c, startsWithText alloc ⟨false, cs⟩ x = .ok a ∧ endsWithText alloc ⟨false, cs⟩ x = .ok b ∧
      containsText alloc ⟨false, cs⟩ after x xAfter = .ok c ∧
      (a = true ↔ x <+: meant [0x2F#8] cs) ∧ (b = true ↔ x <:+ meant [0x2F#8] cs) ∧
      (c = true ↔ ∃ l, OccursAt x (meant [0x2F#8] cs) l) := by
  have e := toString_eq h [0x2F#8] cs hne hn (by simp)
  rw [if_pos ht] at e
  obtain ⟨r, hr, hr'⟩ := C24_contains_partial (meant [0x2F#8] cs) after x xAfter ht hx
  refine ⟨_, _, r, by rw [startsWithText, e]; rfl, by rw [endsWithText, e]; rfl, by rw [containsText, e, Outcome.bind_ok, hr],
    C25_startsWith_iff _ _, C25_endsWith_iff _ _, hr'⟩

/-- **C90**, negation: without memory the text is "", and every query for a string that is not empty answers no. -/
theorem C90_text_without_memory (hx : ∀ n, ∃ e, alloc n = .error e) (cs : List (List Byte)) (hne : cs ≠ []) (x : List Byte) :
    startsWithText alloc ⟨false, cs⟩ x = .ok (x == []) ∧ endsWithText alloc ⟨false, cs⟩ x = .ok (x == []) := by
  have e := C49_print_without_memory (alloc := alloc) [0x2F#8] cs hne hx
  have h1 : StringView.startsWith [] x = (x == []) := by
    rw [Bool.eq_iff_iff, C25_startsWith_iff, beq_iff_eq, List.prefix_nil]
  have h2 : StringView.endsWith [] x = (x == []) := by
    rw [Bool.eq_iff_iff, C25_endsWith_iff, beq_iff_eq, List.suffix_nil]
  exact ⟨by rw [startsWithText, e, Outcome.bind_ok, h1]; rfl, by rw [endsWithText, e, Outcome.bind_ok, h2]; rfl⟩

/-- **C90**, negation: so it is for a path whose text has 65536 characters or more, whatever the text. -/
theorem C90_text_too_long (h : Plenty alloc vec) (cs : List (List Byte)) (hne : cs ≠ []) (hn : cs.length < 2 ^ 64)
    (ht : 2 ^ 16 ≤ (meant [0x2F#8] cs).length) (x : List Byte) :
    startsWithText alloc ⟨false, cs⟩ x = .ok (x == []) ∧ endsWithText alloc ⟨false, cs⟩ x = .ok (x == []) := by
  have e := toString_eq h [0x2F#8] cs hne hn (by simp)
  rw [if_neg (by omega)] at e
  have h1 : StringView.startsWith [] x = (x == []) := by
    rw [Bool.eq_iff_iff, C25_startsWith_iff, beq_iff_eq, List.prefix_nil]
  have h2 : StringView.endsWith [] x = (x == []) := by
    rw [Bool.eq_iff_iff, C25_endsWith_iff, beq_iff_eq, List.suffix_nil]
  exact ⟨by rw [startsWithText, e, Outcome.bind_ok, h1]; rfl, by rw [endsWithText, e, Outcome.bind_ok, h2]; rfl⟩

/-- **C90**, negation: for the path without components the answer is what uninitialised memory holds. -/
theorem C90_text_none (h : Plenty alloc vec) :
    ∃ v, alloc 65535 = .ok v ∧ v.bytes.length = 65535 ∧
      ∀ x, ∃ a, startsWithText alloc Path.none x = .ok a ∧ (a = true ↔ x <+: v.bytes) := by
  obtain ⟨v, hv, ht⟩ := (C49_all_delimiters h 0x2F#8 65536 (by omega)).2
  exact ⟨v, hv, (h.ok _ v hv).1, fun x => ⟨_, by rw [startsWithText, ht]; rfl, C25_startsWith_iff _ _⟩⟩

example : startsWithText mem7 ⟨false, [[], [0x61#8], [0x62#8]]⟩ [0x2F#8, 0x61#8] = .ok true ∧
    endsWithText mem7 ⟨false, [[], [0x61#8], [0x62#8]]⟩ [0x61#8] = .ok false ∧
    containsText mem7 ⟨false, [[], [0x61#8], [0x62#8]]⟩ [] [0x61#8, 0x2F#8] [] = .ok true := by decide +kernel

/-! ### Joining -/

/-- What an argument holds after it was used: a copied one what it held, a moved one empty strings. -/
def Piece.left : Piece → List (List Byte)
  | .str s => [s]
  | .path cs => cs
  | .strMoved _ => [[]]
  | .pathMoved cs => List.replicate cs.length []

theorem map_empty (cs : List (List Byte)) : (cs.map fun _ => ([] : List Byte)) = List.replicate cs.length [] := by
  induction cs with
  | nil => rfl
  | cons c cs ih => rw [List.map_cons, ih]; rfl

theorem joinLoop_cases (ha : AllocOk alloc) (cap : Nat) (cs : List (List Byte)) : ∀ acc, acc.length + cs.length ≤ cap →
    (∃ e, joinLoop alloc cap acc cs = .error e) ∨ joinLoop alloc cap acc cs = .ok (acc ++ cs) := by
  induction cs with
  | nil => intro acc _; exact .inr (by rw [joinLoop, List.append_nil])
  | cons c cs ih =>
    intro acc hl
    rw [List.length_cons] at hl
    rw [joinLoop]
    rcases text_make ha c with ⟨e, he⟩ | he
    · exact .inl ⟨e, by rw [he]⟩
    · rw [he]
      simp only
      rw [if_neg (by omega)]
      rcases ih (acc ++ [c]) (by simp; omega) with h | h
      · exact .inl h
      · exact .inr (by rw [h, List.append_assoc]; rfl)

theorem pushMoved_all (cap : Nat) (cs : List (List Byte)) : ∀ acc, acc.length + cs.length ≤ cap →
    cs.foldl (pushMoved cap) acc = acc ++ cs := by
  induction cs with
  | nil => intro acc _; rw [List.foldl_nil, List.append_nil]
  | cons c cs ih =>
    intro acc hl
    rw [List.length_cons] at hl
    rw [List.foldl_cons, pushMoved, if_neg (by omega), ih _ (by simp; omega), List.append_assoc]
    rfl

theorem joinPieces_cases (ha : AllocOk alloc) (cap : Nat) (args : List Piece) : ∀ acc,
    acc.length + (args.flatMap Piece.comps).length ≤ cap →
    (∃ e, (joinPieces alloc cap acc args).1 = .error e) ∨
    ((joinPieces alloc cap acc args).1 = .ok (acc ++ args.flatMap Piece.comps) ∧
      (joinPieces alloc cap acc args).2 = args.map Piece.left) := by
  induction args with
  | nil => intro acc _; exact .inr ⟨by simp [joinPieces], rfl⟩
  | cons a as ih =>
    intro acc hl
    rw [List.flatMap_cons, List.length_append] at hl
    have copied : ∀ cs, a.comps = cs → (∃ e, joinLoop alloc cap acc cs = .error e) ∨
        joinLoop alloc cap acc cs = .ok (acc ++ cs) := by
      rintro cs rfl
      exact joinLoop_cases ha cap _ acc (by omega)
    have rest := ih (acc ++ a.comps) (by rw [List.length_append]; omega)
    cases a with
    | str s =>
      rw [joinPieces]
      rcases copied [s] rfl with ⟨e, he⟩ | he
      · exact .inl ⟨e, by simp only [he]⟩
      · simp only [he]
        rcases rest with h | ⟨h1, h2⟩
        · exact .inl h
        · exact .inr ⟨by rw [List.flatMap_cons, ← List.append_assoc]; exact h1, by rw [List.map_cons]; exact congrArg _ h2⟩
    | path cs =>
      rw [joinPieces]
      rcases copied cs rfl with ⟨e, he⟩ | he
      · exact .inl ⟨e, by simp only [he]⟩
      · simp only [he]
        rcases rest with h | ⟨h1, h2⟩
        · exact .inl h
        · exact .inr ⟨by rw [List.flatMap_cons, ← List.append_assoc]; exact h1, by rw [List.map_cons]; exact congrArg _ h2⟩
    | strMoved s =>
      have hp : pushMoved cap acc s = acc ++ [s] := pushMoved_all cap [s] acc (by exact Nat.le_trans (Nat.le_add_right _ _) (by rw [Nat.add_assoc]; exact hl))
      rw [joinPieces]
      simp only [hp]
      rcases rest with h | ⟨h1, h2⟩
      · exact .inl h
      · exact .inr ⟨by rw [List.flatMap_cons, ← List.append_assoc]; exact h1, by rw [List.map_cons]; exact congrArg _ h2⟩
    | pathMoved cs =>
      have hp : cs.foldl (pushMoved cap) acc = acc ++ cs := pushMoved_all cap cs acc (by exact Nat.le_trans (Nat.le_add_right _ _) (by rw [Nat.add_assoc]; exact hl))
      rw [joinPieces]
      simp only [hp, map_empty]
      rcases rest with h | ⟨h1, h2⟩
      · exact .inl h
      · exact .inr ⟨by rw [List.flatMap_cons, ← List.append_assoc]; exact h1, by rw [List.map_cons]; exact congrArg _ h2⟩

theorem countOne_eq (fuel : Nat) (a : Piece) (h : ∀ s, a ≠ .strMoved s) : countOne fuel a = some a.comps.length := by
  cases a with
  | strMoved s => exact absurd rfl (h s)
  | _ => cases fuel <;> rfl

theorem countOne_moved (fuel : Nat) (s : List Byte) : countOne fuel (.strMoved s) = .none := by
  induction fuel with
  | zero => rfl
  | succ n ih => rw [countOne, ih]

theorem countAll_eq (fuel : Nat) (args : List Piece) (h : ∀ s, .strMoved s ∉ args)
    (hn : (args.flatMap Piece.comps).length < 2 ^ 64) : countAll fuel args = some (args.flatMap Piece.comps).length := by
  induction args with
  | nil => rfl
  | cons a as ih =>
    rw [List.flatMap_cons, List.length_append] at hn ⊢
    rw [countAll, countOne_eq fuel a (fun s e => h s (by rw [e]; simp)), ih (fun s hs => h s (by simp [hs])) (by omega)]
    simp only
    rw [wrap64_of_lt hn]

/-- **C90**, joining with moved paths (full for arguments without an rvalue string; see `C90_moved_string`): an error, or
the path with all the components of the arguments in order; then the copied arguments are as they were, and the moved paths
are left with as many components, all empty. -/
theorem C90_join (ha : AllocOk alloc) (args : List Piece) (h : ∀ s, .strMoved s ∉ args)
    (hn : (args.flatMap Piece.comps).length < 2 ^ 64) (fuel : Nat) :
    (∃ e left, makeMoved alloc vec fuel args = some (.error e, left)) ∨
    ∃ p, makeMoved alloc vec fuel args = some (.ok p, args.map Piece.left) ∧ p.comps = args.flatMap Piece.comps := by
  rw [makeMoved, countAll_eq fuel args h hn]
  simp only
  cases vec (args.flatMap Piece.comps).length with
  | error e => exact .inl ⟨e, _, rfl⟩
  | ok _ =>
    simp only
    rcases joinPieces_cases ha (args.flatMap Piece.comps).length args [] (by rw [List.length_nil, Nat.zero_add]; exact Nat.le_refl _) with ⟨e, he⟩ | ⟨h1, h2⟩
    · rw [he]; exact .inl ⟨e, _, rfl⟩
    · rw [h1, h2]; exact .inr ⟨_, rfl, rfl⟩

/-- **C90** (full): joining moved paths needs no memory for strings. -/
theorem C90_join_moved (paths : List (List (List Byte))) (hn : (paths.flatten).length < 2 ^ 64) (fuel : Nat)
    (hv : vec paths.flatten.length = .ok ()) :
    ∃ p, makeMoved alloc vec fuel (paths.map .pathMoved) = some (.ok p, paths.map fun cs => List.replicate cs.length []) ∧
      p.comps = paths.flatten := by
  have hfl : (paths.map Piece.pathMoved).flatMap Piece.comps = paths.flatten := by
    rw [List.flatMap_map]; exact List.flatMap_id'
  have key : ∀ (ps : List (List (List Byte))) (cap : Nat) (acc : List (List Byte)), acc.length + ps.flatten.length ≤ cap →
      joinPieces alloc cap acc (ps.map .pathMoved) = (.ok (acc ++ ps.flatten), ps.map fun cs => List.replicate cs.length []) := by
    intro ps cap
    induction ps with
    | nil => intro acc _; simp [joinPieces]
    | cons p ps ih =>
      intro acc hl
      rw [List.flatten_cons, List.length_append] at hl
      rw [List.map_cons, joinPieces, pushMoved_all cap p acc (by omega), ih _ (by rw [List.length_append]; omega), map_empty,
        List.flatten_cons, List.append_assoc]
      rfl
  rw [makeMoved, countAll_eq fuel _ (by simp) (by rw [hfl]; exact hn), hfl]
  simp only [hv]
  rw [key paths _ [] (by simp)]
  exact ⟨_, rfl, rfl⟩

/-- **C90**, negation: with an rvalue `String` among the arguments `makePath` never returns (`countPathComponents` calls
itself for ever). -/
theorem C90_moved_string (fuel : Nat) (s : List Byte) (args : List Piece) (h : .strMoved s ∈ args) :
    makeMoved alloc vec fuel args = .none := by
  have hc : countAll fuel args = .none := by
    induction args with
    | nil => cases h
    | cons a as ih =>
      rw [countAll]
      rcases List.mem_cons.mp h with rfl | h
      · rw [countOne_moved]
      · cases countOne fuel a with
        | none => rfl
        | some n => simp only [ih h]
  rw [makeMoved, hc]

example : makeMoved mem7 (fun _ => .ok ()) 0 [.pathMoved [[], [0x61#8]], .str [0x62#8], .path [[0x63#8]]] =
    some (.ok ⟨false, [[], [0x61#8], [0x62#8], [0x63#8]]⟩, [[[], []], [[0x62#8]], [[0x63#8]]]) := by decide +kernel
example : makeMoved mem7 (fun _ => .ok ()) 5 [.strMoved [0x61#8]] = .none := by decide +kernel

end Solace.Path
