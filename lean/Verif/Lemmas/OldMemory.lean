import Verif.Spec.OldMemory
import Verif.Spec.Strings
/-
Lemmas for C136.
-/
namespace Solace.OldMemory
open Strings

theorem filled_ok (c : Byte) : Str.AllocOk (filled c) := by
  intro n v h
  rw [filled, Except.ok.injEq] at h
  subst h
  exact ⟨List.length_replicate .., fun h => absurd h (by simp)⟩

theorem filled_same (c d : Byte) : SameShape (filled c) (filled d) := fun n => by
  show _ ∧ _
  exact ⟨rfl, by rw [List.length_replicate, List.length_replicate]⟩

theorem alike_cases {x y : Except Err MutView} (h : Alike x y) :
    (∃ e, x = .error e ∧ y = .error e) ∨ ∃ v w, x = .ok v ∧ y = .ok w ∧ v.null = w.null ∧ v.bytes.length = w.bytes.length := by
  cases x with
  | error e =>
    cases y with
    | error f => exact .inl ⟨e, rfl, by rw [show e = f from h]⟩
    | ok w => exact absurd h id
  | ok v =>
    cases y with
    | error f => exact absurd h id
    | ok w => exact .inr ⟨v, w, rfl, rfl, h⟩

/-- A function that asks for `n` bytes and shows `x` followed by the old content shows nothing exactly when `x` fills them. -/
theorem tail_iff {β : Type} (F : (Nat → Except Err MutView) → β) (n : Nat) (x : List Byte) (g : Err → β) (k : List Byte → β)
    (hk : ∀ p q, k p = k q → p = q) (hx : x.length ≤ n)
    (he : ∀ a, Str.AllocOk a → ∀ e, a n = .error e → F a = g e)
    (ho : ∀ a, Str.AllocOk a → ∀ v, a n = .ok v → F a = k (x ++ v.bytes.drop x.length)) :
    Hidden F ↔ x.length = n := by
  constructor
  · intro h
    have e := h (filled 0#8) (filled 1#8) (filled_ok _) (filled_ok _) (filled_same _ _)
    rw [ho _ (filled_ok _) _ rfl, ho _ (filled_ok _) _ rfl] at e
    have e := List.append_cancel_left (hk _ _ e)
    simp only [List.drop_replicate] at e
    match hn : n - x.length with
    | 0 => omega
    | m + 1 =>
      rw [hn, List.replicate_succ, List.replicate_succ, List.cons.injEq] at e
      exact absurd e.1 (by decide)
  · intro hl a b ha hb hs
    rcases alike_cases (hs n) with ⟨e, h1, h2⟩ | ⟨v, w, h1, h2, -, -⟩
    · rw [he a ha e h1, he b hb e h2]
    · rw [ho a ha v h1, ho b hb w h2, List.drop_eq_nil_of_le (by have := (ha n v h1).1; omega),
        List.drop_eq_nil_of_le (by have := (hb n w h2).1; omega)]

/-- A function whose answer depends on the answer for `n` bytes only in whether there is memory, and null. -/
theorem hidden_of {β : Type} (F : (Nat → Except Err MutView) → β) (n : Nat) (g : Err → β) (k : Bool → β)
    (he : ∀ a, Str.AllocOk a → ∀ e, a n = .error e → F a = g e)
    (ho : ∀ a, Str.AllocOk a → ∀ v, a n = .ok v → F a = k v.null) : Hidden F := by
  intro a b ha hb hs
  rcases alike_cases (hs n) with ⟨e, h1, h2⟩ | ⟨v, w, h1, h2, hn, -⟩
  · rw [he a ha e h1, he b hb e h2]
  · rw [ho a ha v h1, ho b hb w h2, hn]

theorem storedUntil_le : ∀ (args : List (List Byte)) (n : Nat), (storedUntil n args).length ≤ n
  | [], n => by rw [storedUntil]; exact Nat.zero_le _
  | p :: ps, n => by
    rw [storedUntil]
    split
    · have := storedUntil_le ps (n - p.length)
      rw [List.length_append]; omega
    · exact Nat.zero_le _

/-- What is stored fills the room exactly when some of the first arguments do. -/
theorem storedUntil_full : ∀ (args : List (List Byte)) (n : Nat),
    (storedUntil n args).length = n ↔ ∃ k, (args.take k).flatten.length = n
  | [], n => by simp [storedUntil]
  | p :: ps, n => by
    rw [storedUntil]
    by_cases h : p.length ≤ n
    · rw [if_pos h, List.length_append]
      have ih := storedUntil_full ps (n - p.length)
      constructor
      · intro e
        obtain ⟨k, hk⟩ := ih.mp (by omega)
        exact ⟨k + 1, by rw [List.take_succ_cons, List.flatten_cons, List.length_append, hk]; omega⟩
      · rintro ⟨k, hk⟩
        match k, hk with
        | 0, hk =>
          rw [List.take_zero, List.flatten_nil, List.length_nil] at hk
          have := storedUntil_le ps (n - p.length)
          omega
        | k + 1, hk =>
          rw [List.take_succ_cons, List.flatten_cons, List.length_append] at hk
          rw [ih.mpr ⟨k, by omega⟩]; omega
    · rw [if_neg h]
      constructor
      · intro e; exact ⟨0, e⟩
      · rintro ⟨k, hk⟩
        match k, hk with
        | 0, hk => exact hk
        | k + 1, hk =>
          rw [List.take_succ_cons, List.flatten_cons, List.length_append] at hk
          omega

theorem storedAll_le : ∀ (ps : List (Bool × List Byte)) (n : Nat) (x : List Byte), storedAll n ps = some x → x.length ≤ n
  | [], n, x, h => by
    rw [storedAll, Option.some.injEq] at h
    subst h; exact Nat.zero_le _
  | (b, p) :: ps, n, x, h => by
    rw [storedAll] at h
    split at h
    · rw [Option.map_eq_some_iff] at h
      obtain ⟨y, hy, rfl⟩ := h
      have := storedAll_le ps _ y hy
      rw [List.length_append]; omega
    · split at h
      · cases h
      · exact storedAll_le ps _ x h

end Solace.OldMemory
