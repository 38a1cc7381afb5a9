import Verif.Model.StringView
import Verif.Spec.Strings
/- Helper lemmas about the string view model. -/
namespace Solace.StringView
open Strings

theorem equals_iff (a b : List Byte) : equals a b = true ↔ a = b := by
  rw [equals]
  split
  · rename_i h
    constructor
    · intro h'; cases h'
    · rintro rfl; exact absurd rfl h
  · rename_i h
    have h : a.length = b.length := by omega
    simp only [List.all_eq_true, List.mem_range, beq_iff_eq]
    constructor
    · intro hall
      apply List.ext_getElem? 
      intro i
      by_cases hi : i < a.length
      · exact hall i hi
      · rw [List.getElem?_eq_none (by omega), List.getElem?_eq_none (by omega)]
    · rintro rfl i _; rfl

theorem equals_self (a : List Byte) : equals a a = true := (equals_iff a a).mpr rfl

theorem substring_eq (s : List Byte) {i j : Nat} (hij : i ≤ j) (hj : j ≤ s.length) :
    substring s i j = (s.drop i).take (j - i) := by
  have h1 : min i s.length = i := by omega
  have h2 : min s.length (max j i) = j := by omega
  rw [substring]
  simp only [h1, h2]

theorem substring_end (s : List Byte) {i : Nat} (hi : i ≤ s.length) : substring s i s.length = s.drop i := by
  rw [substring_eq s hi (Nat.le_refl _), ← List.length_drop, List.take_length]

theorem substring_length_le (s : List Byte) (i j : Nat) : (substring s i j).length ≤ s.length := by
  rw [substring]; simp only [List.length_take, List.length_drop]; omega

theorem occursAt_iff (x s : List Byte) (i : Nat) :
    OccursAt x s i ↔ i + x.length ≤ s.length ∧ (s.drop i).take x.length = x := by
  constructor
  · rintro ⟨a, b, rfl, rfl⟩
    refine ⟨by simp, ?_⟩
    rw [List.append_assoc, List.drop_left, List.take_left]
  · rintro ⟨h, he⟩
    refine ⟨s.take i, (s.drop i).drop x.length, ?_, by simp; omega⟩
    conv => rhs; rw [List.append_assoc]; arg 2; arg 1; rw [← he]
    rw [List.take_append_drop, List.take_append_drop]

theorem prefix_iff_occurs (x s : List Byte) (i : Nat) (hi : i ≤ s.length) :
    x <+: s.drop i ↔ OccursAt x s i := by
  constructor
  · rintro ⟨b, hb⟩
    refine ⟨s.take i, b, ?_, by simp; omega⟩
    rw [List.append_assoc, hb, List.take_append_drop]
  · rintro ⟨a, b, rfl, rfl⟩
    exact ⟨b, by rw [List.append_assoc, List.drop_left]⟩

theorem equals_substring (s x : List Byte) (i : Nat) (h : i + x.length ≤ s.length) :
    equals x (substring s i (i + x.length)) = true ↔ OccursAt x s i := by
  rw [equals_iff, substring_eq s (by omega) h, occursAt_iff, Nat.add_sub_cancel_left]
  constructor
  · intro he; exact ⟨h, he.symm⟩
  · intro he; exact he.2.symm

theorem not_occurs_of_short {x s : List Byte} {i : Nat} (h : s.length < i + x.length) : ¬OccursAt x s i := by
  intro ho
  have := ((occursAt_iff x s i).mp ho).1
  omega

/-! ### Searching -/

theorem indexOfCharLoop_spec (s : List Byte) (c : Byte) (k i : Nat) :
    (∀ j, indexOfCharLoop s c k i = some j → i ≤ j ∧ j < i + k ∧ s[j]? = some c ∧ ∀ l, i ≤ l → l < j → s[l]? ≠ some c) ∧
    (indexOfCharLoop s c k i = none → ∀ l, i ≤ l → l < i + k → s[l]? ≠ some c) := by
  induction k generalizing i with
  | zero => exact ⟨fun j h => (by cases h), fun _ l h1 h2 => (by omega)⟩
  | succ k ih =>
    rw [indexOfCharLoop]
    by_cases h : s[i]? = some c
    · rw [if_pos h]
      refine ⟨?_, fun h' => by cases h'⟩
      intro j hj
      cases hj
      exact ⟨Nat.le_refl _, by omega, h, fun l h1 h2 => by omega⟩
    · rw [if_neg h]
      obtain ⟨h1, h2⟩ := ih (i + 1)
      refine ⟨?_, ?_⟩
      · intro j hj
        obtain ⟨a, b, c', d⟩ := h1 j hj
        refine ⟨by omega, by omega, c', fun l hl hlj => ?_⟩
        by_cases hli : l = i
        · subst hli; exact h
        · exact d l (by omega) hlj
      · intro hn l hl hlk
        by_cases hli : l = i
        · subst hli; exact h
        · exact h2 hn l (by omega) (by omega)

theorem lastIndexOfCharLoop_spec (s : List Byte) (c : Byte) (k i : Nat) (r : Option Nat) :
    (∃ j, lastIndexOfCharLoop s c k i r = some j ∧ i ≤ j ∧ j < i + k ∧ s[j]? = some c ∧
      ∀ l, j < l → l < i + k → s[l]? ≠ some c) ∨
    (lastIndexOfCharLoop s c k i r = r ∧ ∀ l, i ≤ l → l < i + k → s[l]? ≠ some c) := by
  induction k generalizing i r with
  | zero => exact .inr ⟨rfl, fun l h1 h2 => by omega⟩
  | succ k ih =>
    rw [lastIndexOfCharLoop]
    rcases ih (i + 1) (if s[i]? = some c then some i else r) with ⟨j, hj, h1, h2, h3, h4⟩ | ⟨he, hn⟩
    · exact .inl ⟨j, hj, by omega, by omega, h3, fun l a b => h4 l a (by omega)⟩
    · by_cases h : s[i]? = some c
      · rw [if_pos h] at he ⊢
        exact .inl ⟨i, he, Nat.le_refl _, by omega, h, fun l a b => hn l (by omega) (by omega)⟩
      · rw [if_neg h] at he ⊢
        refine .inr ⟨he, fun l a b => ?_⟩
        by_cases hli : l = i
        · subst hli; exact h
        · exact hn l (by omega) (by omega)

theorem matchAt_eq (s after x xAfter : List Byte) (i : Nat) (hs : s.length < 2 ^ 16) (hx : x ≠ [])
    (h : i + x.length ≤ s.length) :
    ∃ b, matchAt s after x xAfter i = .ok b ∧ (b = true ↔ OccursAt x s i) := by
  obtain ⟨y, ys, rfl⟩ := List.exists_cons_of_ne_nil hx
  have hi : i < s.length := by simp only [List.length_cons] at h; omega
  have h1 : (s ++ after)[i]? = some s[i] := by
    rw [List.getElem?_append_left hi, List.getElem?_eq_getElem hi]
  have h2 : ((y :: ys) ++ xAfter)[0]? = some y := rfl
  rw [matchAt, h1, h2, wrap16_of_lt (by omega)]
  refine ⟨_, rfl, ?_⟩
  split
  · exact equals_substring s (y :: ys) i h
  · rename_i hne
    refine ⟨fun h => (by cases h), fun ho => ?_⟩
    have := ((occursAt_iff _ _ _).mp ho).2
    rw [List.drop_eq_getElem_cons hi, List.length_cons, List.take_succ_cons] at this
    exact absurd (List.cons.inj this).1 hne

theorem indexOfLoop_spec (s after x xAfter : List Byte) (hs : s.length < 2 ^ 16) (hx : x ≠ []) (k i : Nat)
    (h : ∀ j, j < i + k → j + x.length ≤ s.length) :
    ∃ r, indexOfLoop s after x xAfter k i = .ok r ∧
      (∀ j, r = some j → i ≤ j ∧ OccursAt x s j ∧ ∀ l, i ≤ l → l < j → ¬OccursAt x s l) ∧
      (r = none → ∀ l, i ≤ l → l < i + k → ¬OccursAt x s l) := by
  induction k generalizing i with
  | zero => exact ⟨none, rfl, fun j h => (by cases h), fun _ l _ _ => (by omega)⟩
  | succ k ih =>
    rw [indexOfLoop]
    obtain ⟨b, hb, hbo⟩ := matchAt_eq s after x xAfter i hs hx (h i (by omega))
    rw [hb]
    cases b with
    | true =>
      refine ⟨some i, rfl, ?_, fun h => by cases h⟩
      intro j hj
      cases hj
      exact ⟨Nat.le_refl _, hbo.mp rfl, fun l _ _ => (by omega)⟩
    | false =>
      have hno : ¬OccursAt x s i := fun ho => by cases hbo.mpr ho
      obtain ⟨r, hr, h1, h2⟩ := ih (i + 1) (fun j hj => h j (by omega))
      refine ⟨r, hr, ?_, ?_⟩
      · intro j hj
        obtain ⟨a, b, c⟩ := h1 j hj
        refine ⟨by omega, b, fun l hl hlj => ?_⟩
        by_cases hli : l = i
        · subst hli; exact hno
        · exact c l (by omega) hlj
      · intro hn l hl hlk
        by_cases hli : l = i
        · subst hli; exact hno
        · exact h2 hn l (by omega) (by omega)

theorem lastIndexOfLoop_spec (s after x xAfter : List Byte) (hs : s.length < 2 ^ 16) (hx : x ≠ []) (k i : Nat)
    (r0 : Option Nat) (h : ∀ j, j < i + k → j + x.length ≤ s.length) :
    ∃ r, lastIndexOfLoop s after x xAfter k i r0 = .ok r ∧
      ((∃ j, r = some j ∧ i ≤ j ∧ OccursAt x s j ∧ ∀ l, j < l → l < i + k → ¬OccursAt x s l) ∨
       (r = r0 ∧ ∀ l, i ≤ l → l < i + k → ¬OccursAt x s l)) := by
  induction k generalizing i r0 with
  | zero => exact ⟨r0, rfl, .inr ⟨rfl, fun l _ _ => (by omega)⟩⟩
  | succ k ih =>
    rw [lastIndexOfLoop]
    obtain ⟨b, hb, hbo⟩ := matchAt_eq s after x xAfter i hs hx (h i (by omega))
    rw [hb]
    cases b with
    | true =>
      obtain ⟨r, hr, hc⟩ := ih (i + 1) (some i) (fun j hj => h j (by omega))
      refine ⟨r, hr, .inl ?_⟩
      rcases hc with ⟨j, h1, h2, h3, h4⟩ | ⟨h1, h2⟩
      · exact ⟨j, h1, by omega, h3, fun l a b => h4 l a (by omega)⟩
      · exact ⟨i, h1, Nat.le_refl _, hbo.mp rfl, fun l a b => h2 l (by omega) (by omega)⟩
    | false =>
      have hno : ¬OccursAt x s i := fun ho => by cases hbo.mpr ho
      obtain ⟨r, hr, hc⟩ := ih (i + 1) r0 (fun j hj => h j (by omega))
      refine ⟨r, hr, ?_⟩
      rcases hc with ⟨j, h1, h2, h3, h4⟩ | ⟨h1, h2⟩
      · exact .inl ⟨j, h1, by omega, h3, fun l a b => h4 l a (by omega)⟩
      · refine .inr ⟨h1, fun l a b => ?_⟩
        by_cases hli : l = i
        · subst hli; exact hno
        · exact h2 l (by omega) (by omega)

/-! ### Trimming -/

theorem trimFrom_spec (s : List Byte) (p : Byte → Bool) (k i : Nat) (h : i + k = s.length) :
    i ≤ trimFrom s p k i ∧ trimFrom s p k i ≤ s.length ∧
    (∀ j c, i ≤ j → j < trimFrom s p k i → s[j]? = some c → p c = true) ∧
    (∀ c, s[trimFrom s p k i]? = some c → p c = false) := by
  induction k generalizing i with
  | zero =>
    refine ⟨Nat.le_refl _, by simp only [trimFrom]; omega, fun j c h1 h2 => ?_, fun c hc => ?_⟩
    · simp only [trimFrom] at h2; omega
    · rw [trimFrom, List.getElem?_eq_none (by omega)] at hc; cases hc
  | succ k ih =>
    have hi : i < s.length := by omega
    rw [trimFrom, List.getElem?_eq_getElem hi]
    simp only
    by_cases hp : p s[i] = true
    · rw [if_pos hp]
      obtain ⟨h1, h2, h3, h4⟩ := ih (i + 1) (by omega)
      refine ⟨by omega, h2, fun j c hj hlt hc => ?_, h4⟩
      by_cases hji : j = i
      · subst hji
        rw [List.getElem?_eq_getElem hi] at hc
        cases hc; exact hp
      · exact h3 j c (by omega) hlt hc
    · rw [if_neg hp]
      refine ⟨Nat.le_refl _, by omega, fun j c hj hlt => by omega, fun c hc => ?_⟩
      rw [List.getElem?_eq_getElem hi] at hc
      cases hc
      simpa using hp

theorem trimTo_spec (s : List Byte) (p : Byte → Bool) (f t : Nat) (ht : t ≤ s.length) :
    trimTo s p f t ≤ t ∧
    (∀ j c, trimTo s p f t ≤ j → j < t → s[j]? = some c → p c = true) ∧
    (f < t → f < trimTo s p f t ∧ (f + 1 < trimTo s p f t → ∀ c, s[trimTo s p f t - 1]? = some c → p c = false)) := by
  induction t with
  | zero =>
    refine ⟨Nat.le_refl _, fun j c _ h => by omega, fun h => by omega⟩
  | succ t ih =>
    rw [trimTo]
    have hi : t < s.length := by omega
    by_cases hf : f + 1 < t + 1
    · rw [if_pos hf, List.getElem?_eq_getElem hi]
      simp only
      by_cases hp : p s[t] = true
      · rw [if_pos hp]
        obtain ⟨h1, h2, h3⟩ := ih (by omega)
        refine ⟨by omega, fun j c hj hlt hc => ?_, fun hft => ?_⟩
        · by_cases hjt : j = t
          · subst hjt
            rw [List.getElem?_eq_getElem hi] at hc
            cases hc; exact hp
          · exact h2 j c hj (by omega) hc
        · exact h3 (by omega)
      · rw [if_neg hp]
        refine ⟨Nat.le_refl _, fun j c hj hlt => by omega, fun hft => ⟨by omega, fun _ c hc => ?_⟩⟩
        rw [Nat.add_sub_cancel, List.getElem?_eq_getElem hi] at hc
        cases hc
        simpa using hp
    · rw [if_neg hf]
      refine ⟨Nat.le_refl _, fun j c hj hlt => by omega, fun hft => ⟨by omega, fun h => by omega⟩⟩

theorem trimBy_isTrim (p : Byte → Bool) (s : List Byte) : IsTrim p s (trimBy p s) := by
  rw [trimBy]
  obtain ⟨_, h2, h3, h4⟩ := trimFrom_spec s p s.length 0 (by omega)
  generalize trimFrom s p s.length 0 = f at *
  obtain ⟨g1, g2, g3⟩ := trimTo_spec s p f s.length (Nat.le_refl _)
  by_cases hf : f < s.length
  · obtain ⟨g4, g5⟩ := g3 hf
    generalize trimTo s p f s.length = t at *
    rw [substring_eq s (by omega) g1]
    refine ⟨s.take f, s.drop t, ?_, ?_, ?_, ?_, ?_⟩
    · have : s.drop t = (s.drop f).drop (t - f) := by rw [List.drop_drop]; congr 1; omega
      rw [this, List.append_assoc, List.take_append_drop, List.take_append_drop]
    · intro c hc
      obtain ⟨j, hj, he⟩ := List.getElem_of_mem hc
      rw [List.length_take] at hj
      refine h3 j c (Nat.zero_le _) (by omega) ?_
      rw [List.getElem_take] at he
      rw [List.getElem?_eq_getElem (by omega), he]
    · intro c hc
      obtain ⟨j, hj, he⟩ := List.getElem_of_mem hc
      rw [List.length_drop] at hj
      refine g2 (t + j) c (by omega) (by omega) ?_
      rw [List.getElem_drop] at he
      rw [List.getElem?_eq_getElem (by omega), he]
    · intro c hc
      apply h4
      rw [List.head?_eq_getElem?, List.getElem?_take_of_lt (by omega), List.getElem?_drop] at hc
      simpa using hc
    · intro c hc
      rw [List.getLast?_eq_getElem?, List.length_take, List.length_drop, List.getElem?_take_of_lt (by omega),
        List.getElem?_drop] at hc
      have he : f + (min (t - f) (s.length - f) - 1) = t - 1 := by omega
      rw [he] at hc
      by_cases hft : f + 1 < t
      · exact g5 hft c hc
      · have : t - 1 = f := by omega
        rw [this] at hc
        exact h4 c hc
  · have hfe : f = s.length := by omega
    subst hfe
    have hnil : substring s s.length (trimTo s p s.length s.length) = [] := by
      rw [substring]; simp
    rw [hnil]
    refine ⟨s, [], by simp, ?_, by simp, by simp, by simp⟩
    intro c hc
    obtain ⟨j, hj, he⟩ := List.getElem_of_mem hc
    exact h3 j c (Nat.zero_le _) hj (by rw [List.getElem?_eq_getElem hj, he])

/-! ### Splitting -/

/-- Reference splitting: `cur` is the piece being collected, `rest` what is still to be read. -/
def scan (d cur rest : List Byte) : List (List Byte) :=
  if _h : d ≠ [] ∧ d <+: rest then cur :: scan d [] (rest.drop d.length)
  else match rest with
    | [] => [cur]
    | c :: cs => scan d (cur ++ [c]) cs
termination_by rest.length
decreasing_by
  · obtain ⟨h1, h2⟩ := _h
    have := List.length_pos_iff.mpr h1
    have := h2.length_le
    simp only [List.length_drop]; omega
  · simp

theorem scan_match {d cur rest : List Byte} (hd : d ≠ []) (h : d <+: rest) :
    scan d cur rest = cur :: scan d [] (rest.drop d.length) := by
  rw [scan, dif_pos ⟨hd, h⟩]

theorem scan_nil (d cur : List Byte) (hd : d ≠ []) : scan d cur [] = [cur] := by
  rw [scan, dif_neg]
  rintro ⟨_, h⟩
  exact hd (List.prefix_nil.mp h)

theorem scan_cons {d cur : List Byte} {c : Byte} {cs : List Byte} (h : ¬d <+: c :: cs) :
    scan d cur (c :: cs) = scan d (cur ++ [c]) cs := by
  rw [scan, dif_neg (fun h' => h h'.2)]

theorem scan_short {d cur rest : List Byte} (hd : d ≠ []) (h : rest.length < d.length) : scan d cur rest = [cur ++ rest] := by
  induction rest generalizing cur with
  | nil => rw [scan_nil d cur hd, List.append_nil]
  | cons c cs ih =>
    have hn : ¬d <+: c :: cs := by
      intro hp
      have := hp.length_le
      omega
    rw [scan_cons hn, ih (by simp only [List.length_cons] at h; omega), List.append_assoc, List.singleton_append]

theorem scan_ne_nil (d cur rest : List Byte) (hd : d ≠ []) : scan d cur rest ≠ [] := by
  induction hn : rest.length using Nat.strongRecOn generalizing cur rest with
  | ind n ih =>
    subst hn
    by_cases h : d <+: rest
    · rw [scan_match hd h]; simp
    · match rest with
      | [] => rw [scan_nil d cur hd]; simp
      | c :: cs => rw [scan_cons h]; exact ih cs.length (by simp) _ _ rfl

theorem scan_length_le (d cur rest : List Byte) (hd : d ≠ []) : (scan d cur rest).length ≤ rest.length + 1 := by
  induction hn : rest.length using Nat.strongRecOn generalizing cur rest with
  | ind n ih =>
    subst hn
    have hpos := List.length_pos_iff.mpr hd
    by_cases h : d <+: rest
    · have hl := h.length_le
      rw [scan_match hd h, List.length_cons]
      have := ih (rest.drop d.length).length (by rw [List.length_drop]; omega) [] _ rfl
      rw [List.length_drop] at this
      omega
    · match rest with
      | [] => rw [scan_nil d cur hd]; simp
      | c :: cs =>
        rw [scan_cons h]
        have := ih cs.length (by simp) (cur ++ [c]) cs rfl
        simp only [List.length_cons]; omega

/-- No match starts inside the collected piece. -/
theorem scan_isSplit (d cur rest : List Byte) (hd : d ≠ [])
    (hcur : ∀ i, i < cur.length → ¬OccursAt d (cur ++ rest) i) :
    IsSplit d (cur ++ rest) (scan d cur rest) := by
  induction hn : rest.length using Nat.strongRecOn generalizing cur rest with
  | ind n ih =>
    subst hn
    have hpos := List.length_pos_iff.mpr hd
    by_cases h : d <+: rest
    · have hl := h.length_le
      obtain ⟨t, ht⟩ := h
      have hdrop : rest.drop d.length = t := by rw [← ht, List.drop_left]
      rw [scan_match hd ⟨t, ht⟩, hdrop]
      have hrec := ih t.length (by rw [← hdrop, List.length_drop]; omega) [] t (fun i hi => by simp at hi) rfl
      rw [List.nil_append] at hrec
      obtain ⟨q, qs, hq⟩ := List.exists_cons_of_ne_nil (scan_ne_nil d [] t hd)
      rw [hq] at hrec ⊢
      refine ⟨t, by rw [List.append_assoc, ht], ?_, hrec⟩
      intro i hi
      apply Nat.le_of_not_lt
      intro hlt
      apply hcur i hlt
      obtain ⟨a, b, hab, ha⟩ := hi
      exact ⟨a, b ++ t, by rw [← ht, ← List.append_assoc, hab, List.append_assoc (a ++ d)], ha⟩
    · match rest with
      | [] =>
        rw [scan_nil d cur hd]
        refine ⟨List.append_nil _, fun i hi => ?_⟩
        by_cases hlt : i < cur.length
        · exact hcur i hlt (by rw [List.append_nil]; exact hi)
        · exact not_occurs_of_short (by omega) hi
      | c :: cs =>
        rw [scan_cons h]
        have he : cur ++ c :: cs = (cur ++ [c]) ++ cs := by simp
        rw [he] at hcur ⊢
        refine ih cs.length (by simp) (cur ++ [c]) cs (fun i hi => ?_) rfl
        by_cases hlt : i < cur.length
        · exact hcur i hlt
        · have : i = cur.length := by simp at hi; omega
          subst this
          rw [← he]
          intro ho
          apply h
          have := (prefix_iff_occurs d (cur ++ c :: cs) cur.length (by simp)).mpr ho
          rwa [List.drop_left] at this

theorem isSplit_unique {d s : List Byte} {ps qs : List (List Byte)} (hp : IsSplit d s ps) (hq : IsSplit d s qs) :
    ps = qs := by
  induction ps generalizing s qs with
  | nil => exact hp.elim
  | cons p ps ih =>
    match ps, qs, hp, hq with
    | _, [], _, hq => exact hq.elim
    | [], [q], ⟨h1, _⟩, ⟨h2, _⟩ => rw [← h1, ← h2]
    | [], q :: q' :: qs, ⟨h1, h2⟩, ⟨t, h3, _⟩ =>
      exact absurd ⟨q, t, by rw [← h1, h3], rfl⟩ (h2 q.length)
    | p' :: ps, [q], ⟨t, h3, _⟩, ⟨h1, h2⟩ =>
      exact absurd ⟨p, t, by rw [← h1, h3], rfl⟩ (h2 p.length)
    | p' :: ps, q :: q' :: qs, ⟨t, h1, h2, h3⟩, ⟨t', h1', h2', h3'⟩ =>
      have key : ∀ (p q t t' : List Byte), p ++ d ++ t = q ++ d ++ t' → EndsAtFirst d p → EndsAtFirst d q →
          p.length ≤ q.length := by
        intro p q t t' he _ hq
        apply Nat.le_of_not_lt
        intro hlt
        rename EndsAtFirst d p => hp
        have hqp : q <+: p := by
          apply List.prefix_of_prefix_length_le (l₃ := p ++ d ++ t)
          · rw [he, List.append_assoc]; exact List.prefix_append _ _
          · rw [List.append_assoc]; exact List.prefix_append _ _
          · omega
        have hqd : q ++ d <+: p ++ d := by
          apply List.prefix_of_prefix_length_le (l₃ := p ++ d ++ t)
          · rw [he]; exact List.prefix_append _ _
          · exact List.prefix_append _ _
          · simp; omega
        obtain ⟨b, hb⟩ := hqd
        have := hp q.length ⟨q, b, hb.symm, rfl⟩
        omega
      have hlen : p.length = q.length := Nat.le_antisymm
        (key p q t t' (by rw [← h1, h1']) h2 h2') (key q p t' t (by rw [← h1, h1']) h2' h2)
      have he : p ++ (d ++ t) = q ++ (d ++ t') := by rw [← List.append_assoc, ← List.append_assoc, ← h1, h1']
      obtain ⟨hpq, ht⟩ := List.append_inj he hlen
      have ht := List.append_cancel_left ht
      subst hpq ht
      rw [ih h3 h3']

theorem isSplit_join {d s : List Byte} {ps : List (List Byte)} (h : IsSplit d s ps) : d.intercalate ps = s := by
  induction ps generalizing s with
  | nil => exact h.elim
  | cons p ps ih =>
    match ps, h with
    | [], ⟨h1, _⟩ => rw [h1]; simp [List.intercalate]
    | q :: ps, ⟨t, h1, _, h3⟩ =>
      have := ih h3
      rw [h1, ← this]
      simp [List.intercalate, List.intersperse]

theorem isSplit_no_delim {d s : List Byte} (hd : d ≠ []) {ps : List (List Byte)} (h : IsSplit d s ps) (p : List Byte)
    (hp : p ∈ ps) (i : Nat) : ¬OccursAt d p i := by
  induction ps generalizing s with
  | nil => exact h.elim
  | cons p' ps ih =>
    match ps, h with
    | [], ⟨h1, h2⟩ =>
      rw [List.mem_singleton] at hp
      subst hp
      exact h2 i
    | q :: ps, ⟨t, h1, h2, h3⟩ =>
      rcases List.mem_cons.mp hp with rfl | hp
      · intro ho
        have hl := ((occursAt_iff _ _ _).mp ho).1
        obtain ⟨a, b, hab, ha⟩ := ho
        have := h2 i ⟨a, b ++ d, by rw [hab]; simp, ha⟩
        have := List.length_pos_iff.mpr hd
        omega
      · exact ih h3 hp

/-- A test made by the splitting loops. -/
theorem split_test (s d : List Byte) (i : Nat) (h : i + d.length ≤ s.length) (hs : s.length < 2 ^ 16) :
    equals d (substring s i (wrap16 (i + d.length))) = true ↔ d <+: s.drop i := by
  rw [wrap16_of_lt (by omega), equals_substring s d i h, prefix_iff_occurs d s i (by omega)]

theorem cur_step (s : List Byte) {f t : Nat} (hft : f ≤ t) (ht : t < s.length) :
    (s.drop f).take (t - f) ++ [s[t]] = (s.drop f).take (t + 1 - f) := by
  have : t + 1 - f = (t - f) + 1 := by omega
  rw [this, List.take_add_one, List.getElem?_drop]
  have : f + (t - f) = t := by omega
  rw [this, List.getElem?_eq_getElem ht]
  rfl

theorem cur_end (s : List Byte) {f t : Nat} (hft : f ≤ t) :
    (s.drop f).take (t - f) ++ s.drop t = s.drop f := by
  have : s.drop t = (s.drop f).drop (t - f) := by rw [List.drop_drop]; congr 1; omega
  rw [this, List.take_append_drop]

theorem wrap16_add (a b : Nat) : wrap16 (wrap16 a + b) = wrap16 (a + b) := by
  simp only [wrap16_def]; omega

theorem split1Loop_eq (s d : List Byte) (hd : d ≠ []) (hs : s.length < 2 ^ 16) (fuel t f count : Nat)
    (acc : List (List Byte)) (hft : f ≤ t) (ht : t ≤ s.length) (hfuel : s.length - t < fuel) (hc : 1 ≤ count) :
    split1Loop s d fuel t f (wrap16 count) acc =
      some (acc ++ scan d ((s.drop f).take (t - f)) (s.drop t),
        wrap16 (count + (scan d ((s.drop f).take (t - f)) (s.drop t)).length - 1)) := by
  have hpos := List.length_pos_iff.mpr hd
  induction fuel generalizing t f count acc with
  | zero => omega
  | succ fuel ih =>
    rw [split1Loop]
    by_cases hlt : t + d.length ≤ s.length
    · rw [if_pos hlt]
      have e1 : t + (d.length - 1) + 1 = t + d.length := by omega
      rw [wrap16_add, e1]
      by_cases hm : d <+: s.drop t
      · rw [if_pos ((split_test s d t hlt hs).mpr hm), scan_match hd hm, wrap16_add, wrap16_of_lt (n := t + d.length) (by omega)]
        rw [ih (t + d.length) (t + d.length) (count + 1) _ (Nat.le_refl _) hlt (by omega) (by omega)]
        rw [Nat.sub_self, List.take_zero, List.drop_drop, substring_eq s hft ht]
        simp only [List.append_assoc, List.singleton_append, List.length_cons]
        congr 2
        congr 1
        omega
      · rw [if_neg (fun h => hm ((split_test s d t hlt hs).mp h)), wrap16_of_lt (by omega)]
        rw [ih (t + 1) f count acc (by omega) (by omega) (by omega) hc]
        have ht' : t < s.length := by omega
        rw [← cur_step s hft ht', List.drop_eq_getElem_cons ht', scan_cons]
        rwa [← List.drop_eq_getElem_cons ht']
    · rw [if_neg hlt, scan_short hd (by rw [List.length_drop]; omega), substring_end s (by omega), cur_end s hft]
      simp

theorem split3Count_eq (s d : List Byte) (hd : d ≠ []) (hs : s.length < 2 ^ 16) (fuel t n : Nat) (cur : List Byte)
    (ht : t ≤ s.length) (hfuel : s.length - t < fuel) :
    split3Count s d fuel t (wrap16 n) = some (wrap16 (n + (scan d cur (s.drop t)).length - 1)) := by
  have hpos := List.length_pos_iff.mpr hd
  induction fuel generalizing t n cur with
  | zero => omega
  | succ fuel ih =>
    rw [split3Count]
    by_cases hlt : t + d.length ≤ s.length
    · rw [if_pos ⟨by omega, hlt⟩]
      by_cases hm : d <+: s.drop t
      · rw [if_pos ((split_test s d t hlt hs).mpr hm), scan_match hd hm, wrap16_add,
          sub16_of_le (by omega) (by omega), Nat.sub_add_cancel (by omega), wrap16_of_lt (n := t + d.length) (by omega)]
        rw [ih (t + d.length) (n + 1) [] hlt (by omega), List.drop_drop]
        simp only [List.length_cons]
        congr 2
        have := List.length_pos_iff.mpr (scan_ne_nil d [] (s.drop (t + d.length)) hd)
        omega
      · rw [if_neg (fun h => hm ((split_test s d t hlt hs).mp h)), wrap16_of_lt (by omega)]
        have ht' : t < s.length := by omega
        rw [ih (t + 1) n (cur ++ [s[t]]) (by omega) (by omega)]
        rw [List.drop_eq_getElem_cons ht', scan_cons]
        rwa [← List.drop_eq_getElem_cons ht']
    · rw [if_neg (fun h => hlt h.2), scan_short hd (by rw [List.length_drop]; omega)]
      simp

/-- The calls made for pieces `ps`, numbered from `i`, with total `n`. -/
def number (i n : Nat) : List (List Byte) → List (List Byte × Nat × Nat)
  | [] => []
  | p :: ps => (p, i, n) :: number (i + 1) n ps

theorem split3Loop_eq (s d : List Byte) (hd : d ≠ []) (hs : s.length < 2 ^ 16) (dc fuel t f i : Nat)
    (acc : List (List Byte × Nat × Nat)) (hft : f ≤ t) (ht : t ≤ s.length) (hfuel : s.length - t < fuel)
    (hi : i ≤ t) :
    ∃ from', from' ≤ s.length ∧
      split3Loop s d dc fuel t f i acc = some (acc ++ number i (wrap16 (dc + 1))
        (scan d ((s.drop f).take (t - f)) (s.drop t)).dropLast, from') ∧
      (scan d ((s.drop f).take (t - f)) (s.drop t)).getLast? = some (s.drop from') := by
  have hpos := List.length_pos_iff.mpr hd
  induction fuel generalizing t f i acc with
  | zero => omega
  | succ fuel ih =>
    rw [split3Loop]
    by_cases hlt : t + d.length ≤ s.length
    · rw [if_pos ⟨by omega, hlt⟩]
      by_cases hm : d <+: s.drop t
      · rw [if_pos ((split_test s d t hlt hs).mpr hm), scan_match hd hm,
          sub16_of_le (by omega) (by omega), Nat.sub_add_cancel (by omega), wrap16_of_lt (n := t + d.length) (by omega),
          wrap16_of_lt (n := i + 1) (by omega)]
        obtain ⟨from', h0, h1, h2⟩ := ih (t + d.length) (t + d.length) (i + 1)
          (acc ++ [(substring s f t, i, wrap16 (dc + 1))]) (Nat.le_refl _) hlt (by omega) (by omega)
        rw [Nat.sub_self, List.take_zero] at h1 h2
        refine ⟨from', h0, ?_, ?_⟩
        · rw [h1, List.drop_drop, substring_eq s hft ht, List.dropLast_cons_of_ne_nil (scan_ne_nil d [] _ hd)]
          simp [number]
        · rw [List.drop_drop, List.getLast?_cons, h2]; rfl
      · rw [if_neg (fun h => hm ((split_test s d t hlt hs).mp h)), wrap16_of_lt (n := t + 1) (by omega)]
        have ht' : t < s.length := by omega
        obtain ⟨from', h0, h1, h2⟩ := ih (t + 1) f i acc (by omega) (by omega) (by omega) (by omega)
        have he : scan d ((s.drop f).take (t - f)) (s.drop t) = scan d ((s.drop f).take (t + 1 - f)) (s.drop (t + 1)) := by
          rw [List.drop_eq_getElem_cons ht', scan_cons, cur_step s hft ht']
          rwa [← List.drop_eq_getElem_cons ht']
        rw [he]
        exact ⟨from', h0, h1, h2⟩
    · rw [if_neg (fun h => hlt h.2), scan_short hd (by rw [List.length_drop]; omega), cur_end s hft]
      exact ⟨f, by omega, by simp [number], by simp⟩

theorem number_append (i n : Nat) (ps qs : List (List Byte)) :
    number i n (ps ++ qs) = number i n ps ++ number (i + ps.length) n qs := by
  induction ps generalizing i with
  | nil => simp [number]
  | cons p ps ih =>
    simp only [List.cons_append, number, ih, List.length_cons]
    congr 3
    omega

theorem number_fst (i n : Nat) (ps : List (List Byte)) : (number i n ps).map Prod.fst = ps := by
  induction ps generalizing i with
  | nil => rfl
  | cons p ps ih => simp only [number, List.map_cons, ih]

theorem splitCharLoop_eq (s : List Byte) (c : Byte) (hs : s.length < 2 ^ 16) (k t f count : Nat) (acc : List (List Byte))
    (hft : f ≤ t) (ht : t + k = s.length) (hc : 1 ≤ count) :
    splitCharLoop s c k t f (wrap16 count) acc =
      (acc ++ scan [c] ((s.drop f).take (t - f)) (s.drop t),
        wrap16 (count + (scan [c] ((s.drop f).take (t - f)) (s.drop t)).length - 1)) := by
  induction k generalizing t f count acc with
  | zero =>
    have : t = s.length := by omega
    subst this
    rw [splitCharLoop, List.drop_length, scan_nil _ _ (by simp), substring_end s hft, ← List.length_drop,
      List.take_length]
    simp
  | succ k ih =>
    have ht' : t < s.length := by omega
    rw [splitCharLoop, List.getElem?_eq_getElem ht']
    by_cases hm : s[t] = c
    · have hp : [c] <+: s.drop t := ⟨s.drop (t + 1), by rw [List.drop_eq_getElem_cons ht', hm]; rfl⟩
      rw [if_pos (by rw [hm]), scan_match (by simp) hp, wrap16_add, wrap16_of_lt (n := t + 1) (by omega)]
      rw [ih (t + 1) (t + 1) (count + 1) _ (Nat.le_refl _) (by omega) (by omega)]
      rw [Nat.sub_self, List.take_zero, List.drop_drop, substring_eq s hft (by omega)]
      simp only [List.append_assoc, List.singleton_append, List.length_cons, List.length_nil, Nat.zero_add]
      congr 1
      congr 1
      omega
    · have hp : ¬[c] <+: s.drop t := by
        rintro ⟨r, hr⟩
        rw [List.drop_eq_getElem_cons ht'] at hr
        exact hm (List.cons.inj hr).1.symm
      rw [if_neg (fun h => hm (Option.some.inj h)), ih (t + 1) f count acc (by omega) (by omega) hc]
      rw [← cur_step s hft ht', List.drop_eq_getElem_cons ht', scan_cons]
      rwa [← List.drop_eq_getElem_cons ht']

/-- The splitting loop with a one-argument callback. -/
theorem split1_eq (s d : List Byte) (hd : d ≠ []) (hs : s.length < 2 ^ 16) (fuel : Nat) (hf : s.length < fuel) :
    split1 fuel s d = some (scan d [] s, wrap16 (scan d [] s).length) := by
  have hpos := List.length_pos_iff.mpr hd
  rw [split1]
  split
  · rw [scan_short hd (by omega), List.nil_append]
    simp [wrap16_def]
  · rw [if_neg (by omega)]
    have := split1Loop_eq s d hd hs fuel 0 0 1 [] (Nat.le_refl _) (Nat.zero_le _) (by omega) (Nat.le_refl _)
    rw [wrap16_of_lt (n := 1) (by omega)] at this
    rw [this]
    simp only [List.drop_zero, Nat.sub_zero, List.take_zero, List.nil_append]
    congr 2
    congr 1
    omega

theorem split3_eq (s d : List Byte) (hd : d ≠ []) (hs : s.length < 2 ^ 16) (fuel : Nat) (hf : s.length < fuel) :
    split3 fuel s d = some (number 0 (wrap16 (scan d [] s).length) (scan d [] s), wrap16 (scan d [] s).length) := by
  rw [split3]
  have h1 := split3Count_eq s d hd hs fuel 0 0 [] (Nat.zero_le _) (by omega)
  have hne := scan_ne_nil d [] s hd
  have hpos := List.length_pos_iff.mpr hne
  have hle := scan_length_le d [] s hd
  rw [wrap16_of_lt (n := 0) (by omega), List.drop_zero, Nat.zero_add, wrap16_of_lt (n := _ - 1) (by omega)] at h1
  rw [h1]
  simp only
  obtain ⟨from', h0, h2, h3⟩ := split3Loop_eq s d hd hs ((scan d [] s).length - 1) fuel 0 0 0 [] (Nat.le_refl _)
    (Nat.zero_le _) (by omega) (Nat.le_refl _)
  rw [List.drop_zero, Nat.sub_zero, List.take_zero] at h2 h3
  rw [h2]
  simp only [List.nil_append]
  rw [Nat.sub_add_cancel (by omega), substring_end s h0]
  have hlast : scan d [] s = (scan d [] s).dropLast ++ [s.drop from'] := by
    rw [List.getLast?_eq_some_getLast hne] at h3
    rw [← Option.some.inj h3, List.dropLast_concat_getLast]
  have hnum : ∀ n, number 0 n (scan d [] s).dropLast ++ [(s.drop from', (scan d [] s).length - 1, n)] =
      number 0 n (scan d [] s) := by
    intro n
    conv => rhs; rw [hlast]
    rw [number_append, List.length_dropLast, Nat.zero_add]
    rfl
  rw [hnum]

theorem splitChar_eq (s : List Byte) (c : Byte) (hs : s.length < 2 ^ 16) :
    splitChar s c = (scan [c] [] s, wrap16 (scan [c] [] s).length) := by
  have := splitCharLoop_eq s c hs s.length 0 0 1 [] (Nat.le_refl _) (by omega) (Nat.le_refl _)
  rw [wrap16_of_lt (n := 1) (by omega)] at this
  rw [splitChar, this]
  simp only [List.drop_zero, Nat.sub_zero, List.take_zero, List.nil_append]
  congr 2
  omega

theorem scan_spec (d s : List Byte) (hd : d ≠ []) : IsSplit d s (scan d [] s) :=
  scan_isSplit d [] s hd (fun i hi => by simp at hi)

end Solace.StringView
