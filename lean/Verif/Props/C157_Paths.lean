import Verif.Model.PathOrder
import Verif.Props.C157_Heap
import Verif.Props.C53_C54_PathParts
/-
C156 and C157 for paths, compared with `compareTo`.
-/
namespace Solace.Sorting
open Ordered

/-- All relative, or all absolute, with names as components. -/
def Route (absolute : Bool) (p : Path) : Prop :=
  if absolute then ∃ cs, p.comps = [] :: cs ∧ ∀ c ∈ cs, Name c else ∀ c ∈ p.comps, Name c

theorem names_comparable : ∀ as bs : List (List Byte), (∀ b ∈ bs, Name b) → Path.Comparable as bs
  | [], _, _ => by unfold Path.Comparable; trivial
  | _ :: _, [], _ => by unfold Path.Comparable; trivial
  | _ :: as, b :: bs, h => ⟨.inl (h b List.mem_cons_self).2.1, names_comparable as bs fun c hc => h c (List.mem_cons_of_mem _ hc)⟩

theorem route_plain {absolute : Bool} {p : Path} (h : Route absolute p) : Path.PlainAll p.comps := by
  cases absolute with
  | false => exact fun c hc => ⟨(h c hc).1, (h c hc).2.2⟩
  | true =>
    obtain ⟨cs, e, hc⟩ := h
    intro c h
    rw [e] at h
    rcases List.mem_cons.mp h with rfl | h
    · exact ⟨by simp [StringView.Plain], by decide⟩
    · exact ⟨(hc c h).1, (hc c h).2.2⟩

theorem route_comparable {absolute : Bool} {p q : Path} (hp : Route absolute p) (hq : Route absolute q) : Path.Comparable p.comps q.comps := by
  cases absolute with
  | false => exact names_comparable _ _ hq
  | true =>
    obtain ⟨cs, e, _⟩ := hp
    obtain ⟨ds, f, hd⟩ := hq
    rw [e, f]
    exact ⟨.inr rfl, names_comparable _ _ hd⟩

theorem path_weak (absolute : Bool) : StrictWeak pathLess (Route absolute) fun p q => Path.before p.comps q.comps where
  answers p q hp hq := by
    obtain ⟨r, e, h, _⟩ := Path.C54_compare_partial p q (route_plain hp) (route_plain hq) (route_comparable hp hq)
    exact ⟨decide (r < 0), by rw [pathLess, e]; rfl, by rw [decide_eq_true_iff, h]⟩
  irrefl p _ := Path.before_irrefl _
  trans _ _ _ _ _ _ := Path.before_trans
  negTrans p q r _ _ _ h1 h2 h := by
    rcases Path.C54_before_total p.comps q.comps with e | e | e
    · exact h1 e
    · rw [e] at h
      exact h2 h
    · exact h2 (Path.before_trans e h)

theorem path_same {p q : Path} (h : Same (fun p q : Path => Path.before p.comps q.comps) p q) : p.comps = q.comps := by
  rcases Path.C54_before_total p.comps q.comps with e | e | e
  · exact absurd e h.1
  · exact e
  · exact absurd e h.2

/-- **C156** (partial: relative paths or absolute ones, not both, with names of characters 1 to 127 as components). A set of paths that are compared with `compareTo` finds
a path exactly when one with the same components was put in. Missing: other paths, see below. -/
theorem C156_path_partial (absolute : Bool) (ks : List Path) (hk : ∀ k ∈ ks, Route absolute k) :
    (∃ t, Built pathLess ks t) ∧ ∀ t, Built pathLess ks t → (t.keys.Pairwise fun p q => Path.before p.comps q.comps) ∧ ∀ k, Route absolute k →
      ∃ r, find pathLess k t = .ok r ∧ (r = none ↔ ∀ k' ∈ ks, k'.comps ≠ k.comps) ∧ ∀ j, r = some j → j ∈ ks ∧ j.comps = k.comps := by
  obtain ⟨e, h⟩ := C156_container (path_weak absolute) ks hk
  refine ⟨e, fun t ht => ⟨(h t ht).1, fun k hk' => ?_⟩⟩
  obtain ⟨r, e1, e2, e3⟩ := ((h t ht).2.2 k hk').1
  refine ⟨r, e1, ?_, fun j hj => ⟨(e3 j hj).1, path_same (e3 j hj).2⟩⟩
  rw [e2]
  constructor
  · intro hn k' hk'' he
    exact hn ⟨k', hk'', by rw [Same, he]; exact ⟨Path.before_irrefl _, Path.before_irrefl _⟩⟩
  · rintro hn ⟨k', hk'', hs⟩
    exact hn k' hk'' (path_same hs)

/-- **C157** (partial: the same paths). `std::sort` of an array of paths with `compareTo`: the same paths, each not after the next ones. Missing: other paths, see below. -/
theorem C157_path_partial (absolute : Bool) (xs : List Path) (hp : ∀ x ∈ xs, Route absolute x) :
    ∃ ys, sort pathLess (heapSort pathLess) xs = .ok ys ∧ ys.Perm xs ∧ ys.Pairwise fun p q => ¬Path.before q.comps p.comps :=
  C157_std_sort (path_weak absolute) xs hp

example : Route true ⟨false, [[], [0x61#8]]⟩ ∧ Route false ⟨false, [[0x61#8], [0x62#8]]⟩ := by
  constructor
  · exact ⟨[[0x61#8]], rfl, by simp [Name, StringView.Plain]⟩
  · simp [Route, Name, StringView.Plain]

/-- **C157, negation**: to sort an absolute path and a relative one that stand in this order ends the program. -/
theorem C157_path_mixed (heap : List Path → Nat → Nat → Outcome (List Path)) (c : List Byte) (cs ds : List (List Byte)) (hc : c ≠ []) (hl : c.length < 2 ^ 16) :
    sort pathLess heap [⟨false, [] :: ds⟩, ⟨false, c :: cs⟩] = .terminate := by
  have e : pathLess ⟨false, c :: cs⟩ ⟨false, [] :: ds⟩ = .terminate := by
    rw [pathLess, Path.C54_relative_absolute c cs ds hc hl]
    rfl
  have i : introsort pathLess heap (2 * Nat.log2 2) 0 2 [⟨false, [] :: ds⟩, ⟨false, c :: cs⟩] = .ok [⟨false, [] :: ds⟩, ⟨false, c :: cs⟩] := by
    cases 2 * Nat.log2 2 <;> rw [introsort, if_pos (by omega)] <;> rfl
  rw [sort, show ([⟨false, [] :: ds⟩, ⟨false, c :: cs⟩] : List Path).length = 2 from rfl, i, Outcome.bind_ok, finalSort, if_neg (by simp)]
  simp only [insertionSort, insertStep, Outcome.pure_def, Outcome.bind_ok, e]
  rfl

/-- **C156, negation**: to put a relative path into a set whose root is an absolute one ends the program, whatever else the set holds. -/
theorem C156_path_mixed (l r : Tree Path) (c : List Byte) (cs ds : List (List Byte)) (hc : c ≠ []) (hl : c.length < 2 ^ 16) :
    insert pathLess ⟨false, c :: cs⟩ (.node l ⟨false, [] :: ds⟩ r) none = .terminate := by
  have e : pathLess ⟨false, c :: cs⟩ ⟨false, [] :: ds⟩ = .terminate := by
    rw [pathLess, Path.C54_relative_absolute c cs ds hc hl]
    rfl
  rw [Ordered.insert, e]
  rfl

end Solace.Sorting
