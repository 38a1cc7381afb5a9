import Verif.Model.Array
import Verif.Lemmas.Lifetime
/-
C46: construction is exception safe.
-/
namespace Solace.Guard
open Lifetime

theorem dtor_self (p : Nat) : dtor p p = [] := by
  cases p with
  | zero => rfl
  | succ n => rw [dtor, if_neg (by omega)]

theorem dtor_zero (p : Nat) : dtor 0 p = (List.range p).reverse := by
  induction p with
  | zero => rfl
  | succ n ih => rw [dtor, if_pos (by omega), ih, List.range_succ, List.reverse_append]; rfl

theorem loop_ok (throwsAt : Nat → Bool) (size : Nat) (left : Nat) : ∀ (pos : Nat) (log : List Event), pos + left ≤ size →
    (∀ j, j < left → throwsAt (pos + j) = false) →
    loop throwsAt size left pos log = (log ++ (List.range left).map fun i => .construct (pos + i), .ok ()) := by
  induction left with
  | zero => intro pos log _ _; rw [loop, dtor_self]; simp
  | succ k ih =>
    intro pos log hs ht
    rw [loop, if_neg (by omega), if_neg (by simpa using ht 0 (by omega)), ih (pos + 1) _ (by omega)]
    · rw [List.range_succ_eq_map]
      simp [Nat.add_assoc, Nat.add_comm 1]
    · intro j hj
      rw [Nat.add_assoc, Nat.add_comm 1]
      exact ht (j + 1) (by omega)

theorem loop_throws (throwsAt : Nat → Bool) (size : Nat) (k : Nat) : ∀ (left pos : Nat) (log : List Event), k < left →
    pos + left ≤ size → (∀ j, j < k → throwsAt (pos + j) = false) → throwsAt (pos + k) = true →
    loop throwsAt size left pos log =
      (log ++ (List.range k).map (fun i => .construct (pos + i)) ++ (List.range (pos + k)).reverse.map .destroy, .throws) := by
  induction k with
  | zero =>
    intro left pos log hk hs _ ht
    match left, hk with
    | l + 1, _ =>
      rw [loop, if_neg (by omega), if_pos (by simpa using ht), dtor_zero]
      simp
  | succ k ih =>
    intro left pos log hk hs hno ht
    match left, hk with
    | l + 1, hk =>
      rw [loop, if_neg (by omega), if_neg (by simpa using hno 0 (by omega)), ih l (pos + 1) _ (by omega) (by omega)]
      · rw [List.range_succ_eq_map (n := k)]
        simp [Nat.add_assoc, Nat.add_comm 1]
      · intro j hj
        rw [Nat.add_assoc, Nat.add_comm 1]
        exact hno (j + 1) (by omega)
      · rw [Nat.add_assoc, Nat.add_comm 1]; exact ht

/-- **C46** (full), an exception: when element `k` is the first whose constructor throws, elements `0 .. k-1` have been
constructed in this order, they are destroyed in reverse order, and the exception leaves the call. -/
theorem C46_throws (throwsAt : Nat → Bool) (size n k : Nat) (hn : n ≤ size) (hk : k < n) (ht : throwsAt k = true)
    (hfirst : ∀ j, j < k → throwsAt j = false) :
    build throwsAt size n = ((List.range k).map .construct ++ (List.range k).reverse.map .destroy, .throws) := by
  rw [build, loop_throws throwsAt size k n 0 [] hk (by omega) (by simpa using hfirst) (by simpa using ht)]
  simp

/-- **C46** (full), no exception: all elements are constructed in order and none is destroyed. -/
theorem C46_completes (throwsAt : Nat → Bool) (size n : Nat) (hn : n ≤ size) (ht : ∀ j, j < n → throwsAt j = false) :
    build throwsAt size n = ((List.range n).map .construct, .ok ()) := by
  rw [build, loop_ok throwsAt size n 0 [] (by omega) (by simpa using ht)]
  simp

/-- **C46** (full): an exception leaves the call exactly if some constructor throws, and then every element that was
constructed has been destroyed exactly once. -/
theorem C46_exception_safe (throwsAt : Nat → Bool) (size n : Nat) (hn : n ≤ size) :
    ((build throwsAt size n).2 = .throws ↔ ∃ k, k < n ∧ throwsAt k = true) ∧
    ((build throwsAt size n).2 = .throws → Clean (build throwsAt size n).1) ∧
    ((build throwsAt size n).2 ≠ .throws → (build throwsAt size n).2 = .ok ()) := by
  by_cases h : ∃ k, k < n ∧ throwsAt k = true
  · obtain ⟨k, hk, ht, hfirst⟩ : ∃ k, k < n ∧ throwsAt k = true ∧ ∀ j, j < k → throwsAt j = false := by
      obtain ⟨k, hk, ht⟩ := h
      induction k using Nat.strongRecOn with
      | ind k ih =>
        by_cases he : ∃ j, j < k ∧ throwsAt j = true
        · obtain ⟨j, hj, htj⟩ := he
          exact ih j hj (by omega) htj
        · exact ⟨k, hk, ht, fun j hj => Bool.eq_false_iff.mpr fun hc => he ⟨j, hj, hc⟩⟩
    rw [C46_throws throwsAt size n k hn hk ht hfirst]
    refine ⟨⟨fun _ => h, fun _ => rfl⟩, fun _ => ?_, fun hc => absurd rfl hc⟩
    have h1 := Leaves.constructAll Leaves.nil k
    simp only [Nat.zero_add, List.append_nil, List.nil_append, List.map_id'] at h1
    have h2 := Leaves.destroyAll (List.range k).reverse
      (Leaves.perm h1 (b := (List.range k).reverse ++ []) (by rw [List.append_nil]; exact (List.reverse_perm _).symm))
    exact h2.clean
  · have hno : ∀ j, j < n → throwsAt j = false := fun j hj => Bool.eq_false_iff.mpr fun hc => h ⟨j, hj, hc⟩
    rw [C46_completes throwsAt size n hn hno]
    exact ⟨⟨fun hc => (by cases hc), fun hc => absurd hc h⟩, fun hc => (by cases hc), fun _ => rfl⟩

example : build (· == 2) 4 4 =
    ([.construct 0, .construct 1, .destroy 1, .destroy 0], .throws) := by decide

/-- The size is not checked: more values than cells are written out of bounds. -/
theorem C46_too_many : (build (fun _ => false) 1 2).2 = .ub := by decide

end Solace.Guard
