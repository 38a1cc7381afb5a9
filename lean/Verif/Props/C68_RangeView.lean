import Verif.Model.RangeView
/-
C68: iterating a `RangeView`. The specification is `List.filter`.
-/
namespace Solace.RangeView
variable {α : Type}

theorem deref_lt (xs : List α) (i : Nat) (x : α) (h : xs[i]? = some x) : deref xs i = .ok x := by rw [deref, h]

theorem drop_cons_of_get (xs : List α) (i : Nat) (x : α) (h : xs[i]? = some x) : xs.drop i = x :: xs.drop (i + 1) := by
  obtain ⟨hi, rfl⟩ := List.getElem?_eq_some_iff.mp h
  exact List.drop_eq_getElem_cons hi

/-- `++` moves to the next matching element, or to the end when there is none. -/
theorem skip_spec (xs : List α) (pred : α → Bool) : ∀ fuel current, xs.length ≤ current + fuel → current < xs.length →
    ∃ n, skip xs pred fuel current = some (.ok n) ∧ current < n ∧ n ≤ xs.length ∧
      (xs.drop (current + 1)).filter pred = (xs.drop n).filter pred ∧
      (∀ x, xs[n]? = some x → pred x = true) := by
  intro fuel
  induction fuel with
  | zero => intro current h1 h2; omega
  | succ fuel ih =>
    intro current h1 h2
    rw [skip]
    by_cases he : current + 1 = xs.length
    · rw [if_neg (by omega)]
      refine ⟨current + 1, rfl, by omega, by omega, rfl, fun x hx => ?_⟩
      rw [List.getElem?_eq_none (by omega)] at hx
      cases hx
    · rw [if_pos he]
      have hx : xs[current + 1]? = some xs[current + 1] := List.getElem?_eq_getElem (by omega)
      rw [deref_lt _ _ _ hx]
      simp only
      by_cases hp : pred xs[current + 1] = true
      · rw [if_pos hp]
        refine ⟨current + 1, rfl, by omega, by omega, rfl, fun x hx' => ?_⟩
        rw [hx] at hx'
        cases hx'
        exact hp
      · rw [if_neg hp]
        obtain ⟨n, g1, g2, g3, g4, g5⟩ := ih (current + 1) (by omega) (by omega)
        refine ⟨n, g1, by omega, g3, ?_, g5⟩
        rw [drop_cons_of_get _ _ _ hx, List.filter_cons_of_neg hp, g4]

/-- The elements an iteration from `current` visits. -/
def expected (xs : List α) (pred : α → Bool) (current : Nat) : List α :=
  match xs.drop current with
  | [] => []
  | x :: rest => x :: rest.filter pred

theorem visit_spec (xs : List α) (pred : α → Bool) : ∀ fuel current, xs.length + 1 ≤ current + fuel → current ≤ xs.length →
    visit xs pred fuel current = some (.ok (expected xs pred current)) := by
  intro fuel
  induction fuel with
  | zero => intro current h1 h2; omega
  | succ fuel ih =>
    intro current h1 h2
    rw [visit]
    by_cases he : current = xs.length
    · rw [if_neg (by omega), expected, he, List.drop_length]
    · rw [if_pos he]
      have hx : xs[current]? = some xs[current] := List.getElem?_eq_getElem (by omega)
      rw [deref_lt _ _ _ hx]
      simp only
      obtain ⟨n, g1, g2, g3, g4, g5⟩ := skip_spec xs pred fuel current (by omega) (by omega)
      rw [next, if_neg he, g1]
      simp only
      have hcur : expected xs pred current = xs[current] :: (xs.drop n).filter pred := by
        rw [expected, drop_cons_of_get _ _ _ hx, ← g4]
      rw [ih n (by omega) g3, hcur]
      simp only [Option.map_some, Outcome.bind_ok]
      congr 3
      rw [expected]
      cases hd : xs.drop n with
      | nil => rfl
      | cons y ys =>
        have hy : xs[n]? = some y := by
          have := congrArg List.head? hd
          rwa [List.head?_drop, List.head?_cons] at this
        rw [List.filter_cons_of_pos (g5 y hy)]

/-- **C68** (what the code does): the iteration ends and visits the first element of the range, whatever it is, and then
exactly the matching ones among the others, in order. -/
theorem C68_visits (xs : List α) (pred : α → Bool) (fuel : Nat) (h : xs.length < fuel) :
    iterate xs pred fuel = some (.ok (xs.take 1 ++ (xs.drop 1).filter pred)) := by
  rw [iterate, visit_spec xs pred fuel 0 (by omega) (Nat.zero_le _)]
  cases xs <;> rfl

/-- **C68** (partial: the range is empty or its first element satisfies the predicate): exactly the matching elements, in
order. -/
theorem C68_filter_partial (xs : List α) (pred : α → Bool) (fuel : Nat) (h : xs.length < fuel)
    (h0 : ∀ x, xs.head? = some x → pred x = true) : iterate xs pred fuel = some (.ok (xs.filter pred)) := by
  rw [C68_visits xs pred fuel h]
  cases xs with
  | nil => rfl
  | cons x rest => rw [List.filter_cons_of_pos (h0 x rfl)]; rfl

/-- **C68** fails whenever the first element does not satisfy the predicate: it is visited all the same, so one element too
many is. -/
theorem C68_first_not_skipped (x : α) (rest : List α) (pred : α → Bool) (hx : pred x = false) (fuel : Nat)
    (h : rest.length + 1 < fuel) :
    iterate (x :: rest) pred fuel = some (.ok (x :: (x :: rest).filter pred)) := by
  rw [C68_visits _ pred fuel (by simpa using h), List.filter_cons_of_neg (by simp [hx])]
  rfl

/-- **C68, exactly**: the matching elements are visited, and no others, exactly if the range is empty or its first element matches. -/
theorem C68_iff (xs : List α) (pred : α → Bool) (fuel : Nat) (h : xs.length < fuel) :
    iterate xs pred fuel = some (.ok (xs.filter pred)) ↔ ∀ x, xs.head? = some x → pred x = true := by
  refine ⟨fun e x hx => ?_, C68_filter_partial xs pred fuel h⟩
  cases xs with
  | nil => cases hx
  | cons y rest =>
    cases hx
    cases hp : pred x with
    | true => rfl
    | false =>
      rw [C68_first_not_skipped x rest pred hp fuel (by simpa using h)] at e
      simp only [Option.some.injEq, Outcome.ok.injEq] at e
      exact absurd (congrArg List.length e) (by simp)

example : iterate [1, 2, 3, 4] (fun n => n % 2 == 0) 10 = some (.ok [1, 2, 4]) := by decide +kernel
example : ∀ x, [2, 3, 4].head? = some x → (fun n => n % 2 == 0) x = true := by
  intro x hx; cases hx; rfl

end Solace.RangeView
