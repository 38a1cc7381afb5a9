import Verif.Props.C48_C50_PathText
import Verif.Props.C21_C28_StringView
/-
C53 (parent, base name, sub-paths), C54 (comparison of paths).
-/
namespace Solace.Path
open Strings StringView Str

variable {alloc : Nat → Except Err MutView} {vec : Nat → Except Err Unit}

/-! ### C53 -/

theorem ofVector_eq (cs : List (List Byte)) (h : cs ≠ []) : ofVector cs.length cs = ⟨false, cs⟩ := by
  have : cs.length ≠ 0 := fun e => h (List.length_eq_zero_iff.mp e)
  rw [ofVector, beq_eq_false_iff_ne.mpr this]

/-- **C53** (full; memory available): for a path with at least two components, the parent is all but the last, the base name
is the last, and joining them gives the path. -/
theorem C53_parent_basename (h : Plenty alloc vec) (cs : List (List Byte)) (c : List Byte) (hc : cs ≠ []) :
    ∃ parent, getParent alloc vec ⟨false, cs ++ [c]⟩ = .ok parent ∧ parent = ⟨false, cs⟩ ∧ getBasename ⟨false, cs ++ [c]⟩ = c ∧
    Path.make alloc vec [.path parent, .str (getBasename ⟨false, cs ++ [c]⟩)] = .ok ⟨false, cs ++ [c]⟩ := by
  have hpos := List.length_pos_iff.mpr hc
  have e1 : getParent alloc vec ⟨false, cs ++ [c]⟩ = .ok ⟨false, cs⟩ := by
    have hl : (cs ++ [c]).length - 1 = cs.length := by simp
    rw [getParent]
    simp only [h.vec, hl]
    rw [if_neg (by simp; omega), List.take_left, copyAll_plenty h _ _ [] (by simp), List.nil_append, ofVector_eq cs hc]
  have e2 : getBasename ⟨false, cs ++ [c]⟩ = c := by
    rw [getBasename, List.getLast?_concat]
    simp only
    rw [if_neg]
    rintro ⟨h1, _⟩
    simp at h1
    exact hc h1
  refine ⟨_, e1, rfl, e2, ?_⟩
  have he : ([.path ⟨false, cs⟩, .str c] : List Arg).flatMap Arg.comps = cs ++ [c] := by simp [Arg.comps]
  rw [e2, make_plenty h, he, ofVector_eq _ (by simp)]

/-- **C53**, short paths (full; memory available): the parent of a path with fewer than two components is that path; the
base name of the root is "/", of the path without components "". -/
theorem C53_short (h : Plenty alloc vec) (c : List Byte) :
    getParent alloc vec ⟨false, [c]⟩ = .ok ⟨false, [c]⟩ ∧ getParent alloc vec Path.none = .ok Path.none ∧
    getBasename ⟨false, [c]⟩ = (if c = [] then [0x2F#8] else c) ∧ getBasename Path.none = [] := by
  refine ⟨?_, ?_, ?_, rfl⟩
  · rw [getParent, if_pos (by simp), h.vec]
    simp only [copyArray, text_make_plenty h]; rfl
  · rw [getParent, if_pos (by simp [Path.none]), h.vec]; rfl
  · simp [getBasename]

/-- **C53**, sub-paths (full; memory available): the components with index from `a` to `b`, both clamped. -/
theorem C53_subpath (h : Plenty alloc vec) (p : Path) (a b : Nat) :
    ∃ q, subpath alloc vec p a b = .ok q ∧ q.comps.length = min b p.comps.length - min a p.comps.length ∧
      ∀ i, i < q.comps.length → q.comps[i]? = p.comps[a + i]? := by
  rw [subpath]
  simp only [h.vec]
  refine ⟨_, rfl, ?_, ?_⟩
  all_goals
    simp only [ofVector]
    rw [copyAll_plenty h _ _ [] (by simp; omega), List.nil_append]
  · rw [List.length_take, List.length_drop]; omega
  · intro i hi
    rw [List.length_take, List.length_drop] at hi
    rw [List.getElem?_take_of_lt (by omega), List.getElem?_drop]
    congr 1
    omega

theorem subpath_comps (h : Plenty alloc vec) (p : Path) (a b : Nat) (hab : a ≤ b) (hb : b ≤ p.comps.length) :
    ∃ q, subpath alloc vec p a b = .ok q ∧ q.comps = (p.comps.drop a).take (b - a) := by
  have e1 : min a p.comps.length = a := by omega
  have e2 : max a (min b p.comps.length) = b := by omega
  rw [subpath]
  simp only [h.vec, e1, e2]
  refine ⟨_, rfl, ?_⟩
  simp only [ofVector]
  rw [copyAll_plenty h _ _ [] (by simp; omega), List.nil_append]

/-- **C53**, joining (full; memory available): the sub-paths before and from index `k` on join to the path. -/
theorem C53_join_subpaths (h : Plenty alloc vec) (cs : List (List Byte)) (hc : cs ≠ []) (k : Nat) (hk : k ≤ cs.length) :
    ∃ x y, subpath alloc vec ⟨false, cs⟩ 0 k = .ok x ∧ subpath alloc vec ⟨false, cs⟩ k cs.length = .ok y ∧
      Path.make alloc vec [.path x, .path y] = .ok ⟨false, cs⟩ := by
  obtain ⟨x, hx1, hx2⟩ := subpath_comps h ⟨false, cs⟩ 0 k (Nat.zero_le _) hk
  obtain ⟨y, hy1, hy2⟩ := subpath_comps h ⟨false, cs⟩ k cs.length hk (Nat.le_refl _)
  refine ⟨x, y, hx1, hy1, ?_⟩
  have he : ([.path x, .path y] : List Arg).flatMap Arg.comps = cs := by
    simp only [List.flatMap_cons, List.flatMap_nil, List.append_nil, Arg.comps, hx2, hy2, Nat.sub_zero, List.drop_zero]
    have : (cs.drop k).take (cs.length - k) = cs.drop k := List.take_of_length_le (by simp)
    rw [this, List.take_append_drop]
  rw [make_plenty h, he, ofVector_eq cs hc]

/-- **C53**, joining in general (full): an error, or a path with all the components of the arguments. -/
theorem C53_make (ha : AllocOk alloc) (args : List Arg) :
    (∃ e, Path.make alloc vec args = .error e) ∨
    ∃ p, Path.make alloc vec args = .ok p ∧ p.comps = args.flatMap Arg.comps := by
  have hl : ∀ (cap : Nat) (cs acc : List (List Byte)), acc.length + cs.length ≤ cap →
      (∃ e, joinLoop alloc cap acc cs = .error e) ∨ joinLoop alloc cap acc cs = .ok (acc ++ cs) := by
    intro cap cs
    induction cs with
    | nil => intro acc _; exact .inr (by rw [joinLoop, List.append_nil])
    | cons c cs ih =>
      intro acc hl
      rw [List.length_cons] at hl
      rw [joinLoop]
      rcases text_make ha c with ⟨e, he⟩ | he
      · exact .inl ⟨e, by rw [he]⟩
      · rw [he]
        simp only
        rw [if_neg (by omega)]
        rcases ih (acc ++ [c]) (by simp; omega) with h | h
        · exact .inl h
        · exact .inr (by rw [h, List.append_assoc]; rfl)
  have hc : (args.map fun a => a.comps.length).sum = (args.flatMap Arg.comps).length := by
    rw [List.length_flatMap]
  rw [Path.make]
  simp only [hc]
  cases vec (args.flatMap Arg.comps).length with
  | error e => exact .inl ⟨e, rfl⟩
  | ok _ =>
    rcases hl (args.flatMap Arg.comps).length (args.flatMap Arg.comps) [] (by simp) with ⟨e, he⟩ | he
    · simp only [he]; exact .inl ⟨e, rfl⟩
    · simp only [he]; exact .inr ⟨_, rfl, rfl⟩

example : getParent mem7 (fun _ => .ok ()) ⟨false, [[], [0x61#8], [0x62#8]]⟩ = .ok ⟨false, [[], [0x61#8]]⟩ ∧
    subpath mem7 (fun _ => .ok ()) ⟨false, [[1#8], [2#8], [3#8]]⟩ 1 9 = .ok ⟨false, [[2#8], [3#8]]⟩ ∧
    subpath mem7 (fun _ => .ok ()) ⟨false, [[1#8], [2#8], [3#8]]⟩ 2 1 = .ok ⟨true, []⟩ := by decide +kernel

/-- **C53**, memory: when no vector can be made `subpath` terminates the program, and the parent is silently the path without
components. -/
theorem C53_without_memory (p : Path) (a b : Nat) (hx : ∀ n, ∃ e, vec n = .error e) :
    subpath alloc vec p a b = .terminate ∧ getParent alloc vec p = .ok Path.none := by
  constructor
  · rw [subpath]
    obtain ⟨e, he⟩ := hx (max (min a p.comps.length) (min b p.comps.length) - min a p.comps.length)
    simp only [he]
  · rw [getParent]
    obtain ⟨e1, h1⟩ := hx p.comps.length
    obtain ⟨e2, h2⟩ := hx (p.comps.length - 1)
    rw [h1, h2]
    split <;> rfl

/-! ### C54 -/

/-- Component by component in shortlex order, a shorter path before its extensions. -/
def before : List (List Byte) → List (List Byte) → Prop
  | _, [] => False
  | [], _ :: _ => True
  | a :: as, b :: bs => shortlexLt a b ∨ (a = b ∧ before as bs)

theorem before_irrefl : ∀ a : List (List Byte), ¬before a a
  | [] => fun h => h
  | a :: as => by
    rintro (h | ⟨_, h⟩)
    · exact shortlex_irrefl _ h
    · exact before_irrefl as h

theorem before_trans : ∀ {a b c : List (List Byte)}, before a b → before b c → before a c
  | _, [], _, h, _ => by cases ‹List (List Byte)› <;> exact absurd h (by simp [before])
  | _, _ :: _, [], _, h => h.elim
  | [], _ :: _, _ :: _, _, _ => trivial
  | a :: as, b :: bs, c :: cs, h1, h2 => by
    rcases h1 with h1 | ⟨rfl, h1⟩ <;> rcases h2 with h2 | ⟨rfl, h2⟩
    · exact .inl (shortlex_trans h1 h2)
    · exact .inl h1
    · exact .inl h2
    · exact .inr ⟨rfl, before_trans h1 h2⟩

/-- **C54**, the order is a strict total order (with `before_irrefl` and `before_trans`). -/
theorem C54_before_total : ∀ a b : List (List Byte), before a b ∨ a = b ∨ before b a
  | [], [] => .inr (.inl rfl)
  | [], _ :: _ => .inl trivial
  | _ :: _, [] => .inr (.inr trivial)
  | a :: as, b :: bs => by
    rcases C22_shortlex_total a b with h | rfl | h
    · exact .inl (.inl h)
    · rcases C54_before_total as bs with h | rfl | h
      · exact .inl (.inr ⟨rfl, h⟩)
      · exact .inr (.inl rfl)
      · exact .inr (.inr (.inr ⟨rfl, h⟩))
    · exact .inr (.inr (.inl h))

/-- Components with characters 1..127 and fewer than 65536 of them. -/
def PlainAll (cs : List (List Byte)) : Prop := ∀ c ∈ cs, Plain c ∧ c.length < 2 ^ 16

/-- No non-empty component of the first path stands where the second has an empty one. -/
def Comparable : List (List Byte) → List (List Byte) → Prop
  | a :: as, b :: bs => (b ≠ [] ∨ a = []) ∧ Comparable as bs
  | _, _ => True

theorem compareLoop_spec : ∀ (ps qs : List (List Byte)), PlainAll ps → PlainAll qs → Comparable ps qs →
    ∃ r, compareLoop ps qs = .ok r ∧
      ((r < 0 ∧ before ps qs) ∨ (0 < r ∧ before qs ps) ∨
        (r = 0 ∧ ((ps.length < qs.length ∧ before ps qs) ∨ ps = qs ∨ (qs.length < ps.length ∧ before qs ps))))
  | [], [], _, _, _ => ⟨0, rfl, .inr (.inr ⟨rfl, .inr (.inl rfl)⟩)⟩
  | [], _ :: _, _, _, _ => ⟨0, rfl, .inr (.inr ⟨rfl, .inl ⟨by simp, trivial⟩⟩)⟩
  | _ :: _, [], _, _, _ => ⟨0, rfl, .inr (.inr ⟨rfl, .inr (.inr ⟨by simp, trivial⟩)⟩)⟩
  | a :: as, b :: bs, hp, hq, hc => by
    obtain ⟨pa, la⟩ := hp a (by simp)
    obtain ⟨pb, lb⟩ := hq b (by simp)
    obtain ⟨r, h1, h2, h3, h4⟩ := C22_shortlex_partial a b pa pb la lb hc.1
    rw [compareLoop, h1, Outcome.bind_ok]
    by_cases hr : r = 0
    · have hab := h3.mp hr
      subst hab
      rw [if_neg (by simp [hr])]
      obtain ⟨r', g1, g2⟩ := compareLoop_spec as bs (fun c h => hp c (by simp [h])) (fun c h => hq c (by simp [h])) hc.2
      refine ⟨r', g1, ?_⟩
      rcases g2 with ⟨x, y⟩ | ⟨x, y⟩ | ⟨x, ⟨y, z⟩ | rfl | ⟨y, z⟩⟩
      · exact .inl ⟨x, .inr ⟨rfl, y⟩⟩
      · exact .inr (.inl ⟨x, .inr ⟨rfl, y⟩⟩)
      · exact .inr (.inr ⟨x, .inl ⟨by simpa using y, .inr ⟨rfl, z⟩⟩⟩)
      · exact .inr (.inr ⟨x, .inr (.inl rfl)⟩)
      · exact .inr (.inr ⟨x, .inr (.inr ⟨by simpa using y, .inr ⟨rfl, z⟩⟩)⟩)
    · rw [if_pos hr]
      refine ⟨r, rfl, ?_⟩
      rcases Int.lt_trichotomy r 0 with h | h | h
      · exact .inl ⟨h, .inl (h2.mp h)⟩
      · exact absurd h hr
      · exact .inr (.inl ⟨h, .inl (h4.mp h)⟩)

/-- **C54** (partial: characters 1..127, and no non-empty component compared with an empty one). The sign of `compareTo` is
negative, zero, positive exactly as the left path is before, equal to, after the right one in the total order above; zero
exactly when `equals` holds. Missing: other paths, where the property fails (below). -/
theorem C54_compare_partial (p q : Path) (hp : PlainAll p.comps) (hq : PlainAll q.comps) (hc : Comparable p.comps q.comps) :
    ∃ r, compareTo p q = .ok r ∧ (r < 0 ↔ before p.comps q.comps) ∧ (r = 0 ↔ equals p q = true) ∧
      (0 < r ↔ before q.comps p.comps) := by
  obtain ⟨r, h1, h2⟩ := compareLoop_spec p.comps q.comps hp hq hc
  have key : ∃ s : Int, compareTo p q = .ok s ∧ ((s < 0 ∧ before p.comps q.comps) ∨ (s = 0 ∧ p.comps = q.comps) ∨
      (0 < s ∧ before q.comps p.comps)) := by
    rw [compareTo, h1, Outcome.bind_ok]
    rcases h2 with ⟨x, y⟩ | ⟨x, y⟩ | ⟨x, ⟨y, z⟩ | y | ⟨y, z⟩⟩
    · rw [if_pos (by omega)]; exact ⟨r, rfl, .inl ⟨x, y⟩⟩
    · rw [if_pos (by omega)]; exact ⟨r, rfl, .inr (.inr ⟨x, y⟩)⟩
    · rw [if_neg (by omega)]; exact ⟨_, rfl, .inl ⟨by omega, z⟩⟩
    · rw [if_neg (by omega)]; exact ⟨_, rfl, .inr (.inl ⟨by rw [y]; omega, y⟩)⟩
    · rw [if_neg (by omega)]; exact ⟨_, rfl, .inr (.inr ⟨by omega, z⟩)⟩
  obtain ⟨s, hs, hk⟩ := key
  refine ⟨s, hs, ?_⟩
  rw [equals_iff_comps]
  have asym : ∀ {a b}, before a b → ¬before b a := fun x y => before_irrefl _ (before_trans x y)
  rcases hk with ⟨x, y⟩ | ⟨x, y⟩ | ⟨x, y⟩
  · refine ⟨⟨fun _ => y, fun _ => x⟩, ⟨fun h => (by omega), fun h => ?_⟩, ⟨fun h => (by omega), fun h => absurd h (asym y)⟩⟩
    rw [h] at y
    exact absurd y (before_irrefl _)
  · rw [y]
    exact ⟨⟨fun h => (by omega), fun h => absurd h (before_irrefl _)⟩, ⟨fun _ => rfl, fun _ => x⟩,
      ⟨fun h => (by omega), fun h => absurd h (before_irrefl _)⟩⟩
  · refine ⟨⟨fun h => (by omega), fun h => absurd h (asym y)⟩, ⟨fun h => (by omega), fun h => ?_⟩, ⟨fun _ => y, fun _ => x⟩⟩
    rw [h] at y
    exact absurd y (before_irrefl _)

example : compareTo ⟨false, [[0x61#8], [0x62#8]]⟩ ⟨false, [[0x61#8], [0x63#8]]⟩ = .ok (-1) ∧
    compareTo ⟨false, [[0x61#8], [0x62#8]]⟩ ⟨false, [[0x61#8]]⟩ = .ok 1 ∧
    Comparable [[0x61#8], [0x62#8]] [[0x61#8]] := by
  refine ⟨by decide +kernel, by decide +kernel, .inl (by simp), trivial⟩

/-- **C54, negation**: comparing a relative path with an absolute one terminates the program. -/
theorem C54_relative_absolute (c : List Byte) (cs ds : List (List Byte)) (hc : c ≠ []) (hl : c.length < 2 ^ 16) :
    compareTo ⟨false, c :: cs⟩ ⟨false, [] :: ds⟩ = .terminate := by
  rw [compareTo, compareLoop, C22_empty_terminates c hc hl]
  rfl

/-- **C54, negation**: zero for different paths. -/
theorem C54_zero_for_different : ∃ p q, compareTo p q = .ok 0 ∧ equals p q = false :=
  ⟨⟨false, [[0x61#8, 0x00#8, 0x62#8]]⟩, ⟨false, [[0x61#8, 0x00#8, 0x63#8]]⟩, by decide +kernel⟩

theorem compareLoop_exact (as : List (List Byte)) : ∀ bs : List (List Byte),
    (∃ (i : Nat) (a b : List Byte), as[i]? = some a ∧ bs[i]? = some b ∧
      (∀ (j : Nat) (x y : List Byte), j < i → as[j]? = some x → bs[j]? = some y → StringView.compareTo x y = .ok 0) ∧
      StringView.compareTo a b ≠ .ok 0 ∧ compareLoop as bs = StringView.compareTo a b) ∨
    ((∀ (j : Nat) (x y : List Byte), as[j]? = some x → bs[j]? = some y → StringView.compareTo x y = .ok 0) ∧
      compareLoop as bs = .ok 0) := by
  induction as with
  | nil => intro bs; exact .inr ⟨fun j x y h => by simp at h, by cases bs <;> rfl⟩
  | cons a as ih =>
    intro bs
    cases bs with
    | nil => exact .inr ⟨fun j x y _ h => by simp at h, rfl⟩
    | cons b bs =>
      by_cases h0 : StringView.compareTo a b = .ok 0
      · have hl : compareLoop (a :: as) (b :: bs) = compareLoop as bs := by
          rw [compareLoop, h0, Outcome.bind_ok, if_neg (by decide)]
        rw [hl]
        rcases ih bs with ⟨i, x, y, h1, h2, h3, h4, h5⟩ | ⟨h1, h2⟩
        · refine .inl ⟨i + 1, x, y, by simpa using h1, by simpa using h2, ?_, h4, h5⟩
          intro j u v hj hu hv
          cases j with
          | zero => simp at hu hv; rw [← hu, ← hv]; exact h0
          | succ j => exact h3 j u v (by omega) (by simpa using hu) (by simpa using hv)
        · refine .inr ⟨?_, h2⟩
          intro j u v hu hv
          cases j with
          | zero => simp at hu hv; rw [← hu, ← hv]; exact h0
          | succ j => exact h1 j u v (by simpa using hu) (by simpa using hv)
      · refine .inl ⟨0, a, b, rfl, rfl, fun j x y hj => absurd hj (Nat.not_lt_zero _), h0, ?_⟩
        rw [compareLoop]
        cases hc : StringView.compareTo a b with
        | ok d =>
          rw [Outcome.bind_ok, if_pos (by rintro rfl; exact h0 hc)]
          rfl
        | throws => rfl
        | terminate => rfl
        | ub => rfl

/-- **C54, exactly**, for all paths: the outcome of the first comparison of components (C22_exact) that is not zero, whether a
number or the end of the program; if there is none, the difference of the numbers of components. -/
theorem C54_exact (p q : Path) :
    (∃ (i : Nat) (a b : List Byte), p.comps[i]? = some a ∧ q.comps[i]? = some b ∧
      (∀ (j : Nat) (x y : List Byte), j < i → p.comps[j]? = some x → q.comps[j]? = some y → StringView.compareTo x y = .ok 0) ∧
      StringView.compareTo a b ≠ .ok 0 ∧ compareTo p q = StringView.compareTo a b) ∨
    ((∀ (j : Nat) (x y : List Byte), p.comps[j]? = some x → q.comps[j]? = some y → StringView.compareTo x y = .ok 0) ∧
      compareTo p q = .ok ((p.comps.length : Int) - q.comps.length)) := by
  rcases compareLoop_exact p.comps q.comps with ⟨i, a, b, h1, h2, h3, h4, h5⟩ | ⟨h1, h2⟩
  · refine .inl ⟨i, a, b, h1, h2, h3, h4, ?_⟩
    rw [compareTo, h5]
    cases hc : StringView.compareTo a b with
    | ok d =>
      rw [Outcome.bind_ok, if_pos (by rintro rfl; exact h4 hc)]
      rfl
    | throws => rfl
    | terminate => rfl
    | ub => rfl
  · refine .inr ⟨h1, ?_⟩
    rw [compareTo, h2, Outcome.bind_ok, if_neg (by decide)]
    rfl

/-- **C53**, whatever memory there is: `getParent` throws exactly when the path has a single component, the block for the copy is
there and the memory for the component is not; in every other case it returns. -/
theorem C53_parent_throws (alloc : Nat → Except Err MutView) (vec : Nat → Except Err Unit) (p : Path) :
    ((∃ q, getParent alloc vec p = .ok q) ∨ getParent alloc vec p = .throws) ∧
    (getParent alloc vec p = .throws ↔
      ∃ c e, p.comps = [c] ∧ vec 1 = .ok () ∧ text (Str.make alloc c) = .error e) := by
  rw [getParent]
  match hp : p.comps with
  | [] =>
    rw [if_pos (by simp)]
    cases vec ([] : List (List Byte)).length with
    | error e => exact ⟨.inl ⟨_, rfl⟩, fun h => (by cases h), fun ⟨c, e, h, _⟩ => by cases h⟩
    | ok u => exact ⟨.inl ⟨_, rfl⟩, fun h => (by cases h), fun ⟨c, e, h, _⟩ => by cases h⟩
  | [c] =>
    rw [if_pos (by simp)]
    cases hv : vec 1 with
    | error e =>
      exact ⟨.inl ⟨_, rfl⟩, fun h => (by cases h), fun ⟨_, _, _, h, _⟩ => by cases h⟩
    | ok u =>
      dsimp only
      rw [copyArray]
      cases ht : text (Str.make alloc c) with
      | error e => exact ⟨.inr rfl, fun _ => ⟨c, e, rfl, rfl, ht⟩, fun _ => rfl⟩
      | ok s =>
        exact ⟨.inl ⟨_, rfl⟩, fun h => (by cases h), fun ⟨d, e, h, _, he⟩ => by cases h; rw [ht] at he; cases he⟩
  | a :: b :: l =>
    rw [if_neg (by simp)]
    cases vec ((a :: b :: l).length - 1) with
    | error e => exact ⟨.inl ⟨_, rfl⟩, fun h => (by cases h), fun ⟨c, e, h, _⟩ => by cases h⟩
    | ok u => exact ⟨.inl ⟨_, rfl⟩, fun h => (by cases h), fun ⟨c, e, h, _⟩ => by cases h⟩

example : getParent (fun _ => .error .nomem) (fun _ => .ok ()) ⟨false, [[0x61#8]]⟩ = .throws :=
  (C53_parent_throws _ _ _).2.mpr ⟨_, .nomem, rfl, rfl, rfl⟩

end Solace.Path
