import Verif.Spec.Reads
import Verif.Lemmas.StringView
/- Helper lemmas for C148. -/
namespace Solace.Reads
open StringView

theorem equalsLoop_fst (a b : List Byte) (k i : Nat) :
    (equalsLoop a b k i).1 = (List.range k).all fun j => a[i + j]? == b[i + j]? := by
  induction k generalizing i with
  | zero => rfl
  | succ k ih =>
    rw [equalsLoop, List.range_succ_eq_map]
    cases h : (a[i]? == b[i]?)
    · simp [h]
    · simp only [if_true, ih, List.all_cons, Nat.add_zero, h, Bool.true_and, List.all_map]
      congr 1
      funext j
      simp [Nat.add_assoc, Nat.add_comm 1 j]

theorem equals_fst (a b : List Byte) : (equals a b).1 = StringView.equals a b := by
  rw [equals, StringView.equals]
  split
  · rfl
  · rw [equalsLoop_fst]; simp

theorem equalsWithin_fst (s x : List Byte) (i j : Nat) :
    (equalsWithin s x i j).1 = StringView.equals x (substring s i j) := by
  rw [equalsWithin, equals_fst]

theorem agree_nil_left (b : List Byte) : agree [] b = 0 := by rw [agree.eq_def]

theorem agree_cons (x y : Byte) (xs ys : List Byte) : agree (x :: xs) (y :: ys) = if x = y then agree xs ys + 1 else 0 := by
  rw [agree]

theorem equalsLoop_snd (a b : List Byte) (i k : Nat) (ha : i + k = a.length) (hb : i + k = b.length) :
    (equalsLoop a b k i).2
      = (List.range' i (min k (agree (a.drop i) (b.drop i) + 1))).flatMap fun j => [.here j, .there j] := by
  induction k generalizing i with
  | zero => simp [equalsLoop]
  | succ k ih =>
    have hia : i < a.length := by omega
    have hib : i < b.length := by omega
    rw [equalsLoop, List.drop_eq_getElem_cons hia, List.drop_eq_getElem_cons hib, agree_cons,
      List.getElem?_eq_getElem hia, List.getElem?_eq_getElem hib]
    by_cases h : a[i] = b[i]
    · rw [if_pos (by simp [h]), if_pos h, ih (i + 1) (by omega) (by omega)]
      have : min (k + 1) (agree (a.drop (i + 1)) (b.drop (i + 1)) + 1 + 1)
          = min k (agree (a.drop (i + 1)) (b.drop (i + 1)) + 1) + 1 := by omega
      rw [this, List.range'_succ]
      simp
    · rw [if_neg (by simp [h]), if_neg h]
      have : min (k + 1) (0 + 1) = 1 := by omega
      rw [this]
      simp

theorem equals_snd (a b : List Byte) (h : a.length = b.length) :
    (equals a b).2 = inTurn (min a.length (agree a b + 1)) := by
  rw [equals, if_neg (by simp [h]), equalsLoop_snd a b 0 a.length (by omega) (by omega)]
  simp [inTurn, List.range_eq_range']

theorem agree_take (x s : List Byte) (m : Nat) (h : x.length ≤ m) : agree x (s.take m) = agree x s := by
  induction x generalizing s m with
  | nil => rw [agree_nil_left, agree_nil_left]
  | cons c cs ih =>
    obtain ⟨m, rfl⟩ : ∃ m', m = m' + 1 := ⟨m - 1, by simp at h; omega⟩
    cases s with
    | nil => rfl
    | cons d ds => rw [List.take_succ_cons, agree_cons, agree_cons, ih ds m (by simp at h; omega)]

theorem equalsWithin_snd (s x : List Byte) (i : Nat) (h : i + x.length ≤ s.length) :
    (equalsWithin s x i (i + x.length)).2 = attempt s x i := by
  rw [equalsWithin, substring_eq s (by omega) h, Nat.add_sub_cancel_left]
  dsimp only
  rw [equals_snd _ _ (by simp; omega), agree_take _ _ _ (Nat.le_refl _), inTurn, attempt, List.map_flatMap]
  rfl

theorem matchAt_ok (s after x xAfter : List Byte) (i : Nat) (hs : s.length < 2 ^ 16) (hx : x ≠ [])
    (h : i + x.length ≤ s.length) :
    ∃ b, matchAt s after x xAfter i = .ok (b, candidate s x i) ∧ StringView.matchAt s after x xAfter i = .ok b := by
  obtain ⟨y, ys, rfl⟩ := List.exists_cons_of_ne_nil hx
  have hi : i < s.length := by simp only [List.length_cons] at h; omega
  have h1 : (s ++ after)[i]? = some s[i] := by
    rw [List.getElem?_append_left hi, List.getElem?_eq_getElem hi]
  have h2 : ((y :: ys) ++ xAfter)[0]? = some y := rfl
  rw [matchAt, StringView.matchAt, h1, h2, wrap16_of_lt (by omega), candidate, List.getElem?_eq_getElem hi]
  dsimp only
  by_cases he : s[i] = y
  · simp only [he, if_true, List.getElem?_cons_zero]
    exact ⟨_, by rw [equalsWithin_fst, equalsWithin_snd _ _ _ h]; rfl, rfl⟩
  · simp only [if_neg he, List.getElem?_cons_zero, Option.some.injEq, List.append_nil]
    exact ⟨false, rfl, rfl⟩

theorem indexOfLoop_ok (s after x xAfter : List Byte) (hs : s.length < 2 ^ 16) (hx : x ≠ []) (k i : Nat)
    (h : ∀ j, j < i + k → j + x.length ≤ s.length) :
    ∃ r, StringView.indexOfLoop s after x xAfter k i = .ok r ∧
      indexOfLoop s after x xAfter k i
        = .ok (r, (List.range' i (match r with | some j => j + 1 - i | none => k)).flatMap (candidate s x)) := by
  induction k generalizing i with
  | zero => exact ⟨none, rfl, by simp [indexOfLoop]⟩
  | succ k ih =>
    obtain ⟨b, hb, hb'⟩ := matchAt_ok s after x xAfter i hs hx (h i (by omega))
    rw [StringView.indexOfLoop, indexOfLoop, hb, hb']
    cases b with
    | true => exact ⟨some i, rfl, by simp⟩
    | false =>
      obtain ⟨r, hr, hr'⟩ := ih (i + 1) (fun j hj => h j (by omega))
      refine ⟨r, hr, ?_⟩
      dsimp only
      rw [hr', prepend]
      cases r with
      | none => dsimp only; rw [List.range'_succ, List.flatMap_cons]
      | some j =>
        have hj : i + 1 ≤ j := by
          obtain ⟨r, h0, h1, _⟩ := indexOfLoop_spec s after x xAfter hs hx k (i + 1) (fun j hj => h j (by omega))
          rw [hr] at h0
          cases h0
          exact (h1 j rfl).1
        dsimp only
        have : j + 1 - i = (j + 1 - (i + 1)) + 1 := by omega
        rw [this, List.range'_succ, List.flatMap_cons]

theorem lastIndexOfLoop_ok (s after x xAfter : List Byte) (hs : s.length < 2 ^ 16) (hx : x ≠ []) (k i : Nat) (r : Option Nat)
    (h : ∀ j, j < i + k → j + x.length ≤ s.length) :
    ∃ r', StringView.lastIndexOfLoop s after x xAfter k i r = .ok r' ∧
      lastIndexOfLoop s after x xAfter k i r = .ok (r', (List.range' i k).flatMap (candidate s x)) := by
  induction k generalizing i r with
  | zero => exact ⟨r, rfl, by simp [lastIndexOfLoop]⟩
  | succ k ih =>
    obtain ⟨b, hb, hb'⟩ := matchAt_ok s after x xAfter i hs hx (h i (by omega))
    rw [StringView.lastIndexOfLoop, lastIndexOfLoop, hb, hb']
    cases b with
    | true =>
      obtain ⟨r', hr, hr'⟩ := ih (i + 1) (some i) (fun j hj => h j (by omega))
      refine ⟨r', hr, ?_⟩
      dsimp only
      rw [hr', prepend, List.range'_succ, List.flatMap_cons]
    | false =>
      obtain ⟨r', hr, hr'⟩ := ih (i + 1) r (fun j hj => h j (by omega))
      refine ⟨r', hr, ?_⟩
      dsimp only
      rw [hr', prepend, List.range'_succ, List.flatMap_cons]

/-! Erasure without preconditions -/

theorem matchAt_result (s after x xAfter : List Byte) (i : Nat) :
    result (matchAt s after x xAfter i) = StringView.matchAt s after x xAfter i := by
  rw [matchAt, StringView.matchAt]
  cases (s ++ after)[i]? with
  | none => rfl
  | some a =>
    cases (x ++ xAfter)[0]? with
    | none => rfl
    | some b =>
      rw [result]
      simp only [Outcome.bind_ok, Outcome.pure_def]
      split
      · rw [equalsWithin_fst]
      · rfl

theorem result_prepend (t : List Access) (r : Outcome (α × List Access)) : result (prepend t r) = result r := by
  cases r <;> rfl

theorem indexOfLoop_result (s after x xAfter : List Byte) (k i : Nat) :
    result (indexOfLoop s after x xAfter k i) = StringView.indexOfLoop s after x xAfter k i := by
  induction k generalizing i with
  | zero => rfl
  | succ k ih =>
    rw [StringView.indexOfLoop, indexOfLoop, ← matchAt_result]
    cases hm : matchAt s after x xAfter i with
    | ok p =>
      obtain ⟨b, t⟩ := p
      cases b
      · dsimp only [result, Outcome.bind_ok, Outcome.pure_def]
        show result (prepend t _) = StringView.indexOfLoop s after x xAfter k (i + 1)
        rw [result_prepend, ih]
      · rfl
    | _ => rfl

theorem lastIndexOfLoop_result (s after x xAfter : List Byte) (k i : Nat) (r : Option Nat) :
    result (lastIndexOfLoop s after x xAfter k i r) = StringView.lastIndexOfLoop s after x xAfter k i r := by
  induction k generalizing i r with
  | zero => rfl
  | succ k ih =>
    rw [StringView.lastIndexOfLoop, lastIndexOfLoop, ← matchAt_result]
    cases hm : matchAt s after x xAfter i with
    | ok p =>
      obtain ⟨b, t⟩ := p
      cases b
      · show result (prepend t _) = StringView.lastIndexOfLoop s after x xAfter k (i + 1) r
        rw [result_prepend, ih]
      · show result (prepend t _) = StringView.lastIndexOfLoop s after x xAfter k (i + 1) (some i)
        rw [result_prepend, ih]
    | _ => rfl

theorem indexOfCharLoop_fst (s : List Byte) (c : Byte) (k i : Nat) :
    (indexOfCharLoop s c k i).1 = StringView.indexOfCharLoop s c k i := by
  induction k generalizing i with
  | zero => rfl
  | succ k ih =>
    rw [indexOfCharLoop, StringView.indexOfCharLoop]
    split
    · rfl
    · exact ih _

theorem lastIndexOfCharLoop_fst (s : List Byte) (c : Byte) (k i : Nat) (r : Option Nat) :
    (lastIndexOfCharLoop s c k i r).1 = StringView.lastIndexOfCharLoop s c k i r := by
  induction k generalizing i r with
  | zero => rfl
  | succ k ih => rw [lastIndexOfCharLoop, StringView.lastIndexOfCharLoop]; exact ih _ _

theorem trimFrom_fst (s : List Byte) (p : Byte → Bool) (k i : Nat) : (trimFrom s p k i).1 = StringView.trimFrom s p k i := by
  induction k generalizing i with
  | zero => rfl
  | succ k ih =>
    rw [trimFrom, StringView.trimFrom]
    cases s[i]? with
    | none => rfl
    | some c =>
      dsimp only
      cases p c
      · rfl
      · exact ih _

theorem trimTo_fst (s : List Byte) (p : Byte → Bool) (f t : Nat) : (trimTo s p f t).1 = StringView.trimTo s p f t := by
  induction t with
  | zero => rfl
  | succ t ih =>
    rw [trimTo, StringView.trimTo]
    by_cases h : f + 1 < t + 1
    · rw [if_pos h, if_pos h]
      cases s[t]? with
      | none => rfl
      | some c =>
        dsimp only
        cases p c
        · rfl
        · exact ih
    · rw [if_neg h, if_neg h]

theorem trimBy_fst (p : Byte → Bool) (s : List Byte) : (trimBy p s).1 = StringView.trimBy p s := by
  rw [trimBy, StringView.trimBy]
  dsimp only
  rw [trimTo_fst, trimFrom_fst]

theorem hashCodeLoop_fst (s t : List Byte) (h : BitVec 64) :
    (hashCodeLoop (s ++ t) t.length s.length h).1 = t.foldl (fun h c => c.signExtend 64 + h * 31#64) h := by
  induction t generalizing s h with
  | nil => rfl
  | cons c t ih =>
    rw [List.length_cons, hashCodeLoop]
    dsimp only
    have := ih (s ++ [c]) (c.signExtend 64 + h * 31#64)
    rw [List.append_assoc, List.length_append] at this
    simpa using this

theorem hashCode_fst (s : List Byte) : (hashCode s).1 = StringView.hashCode s := hashCodeLoop_fst [] s 0#64

theorem split1Loop_fst (s d : List Byte) (fuel to' from' count : Nat) (acc : List (List Byte)) :
    (split1Loop s d fuel to' from' count acc).map (·.1) = StringView.split1Loop s d fuel to' from' count acc := by
  induction fuel generalizing to' from' count acc with
  | zero => rfl
  | succ fuel ih =>
    rw [split1Loop, StringView.split1Loop]
    dsimp only
    split
    · rw [equalsWithin_fst]
      split
      · rw [← ih, Option.map_map]; rfl
      · rw [← ih, Option.map_map]; rfl
    · rfl

theorem splitCharLoop_fst (s : List Byte) (c : Byte) (k to' from' count : Nat) (acc : List (List Byte)) :
    (splitCharLoop s c k to' from' count acc).1 = StringView.splitCharLoop s c k to' from' count acc := by
  induction k generalizing to' from' count acc with
  | zero => rfl
  | succ k ih =>
    rw [splitCharLoop, StringView.splitCharLoop]
    dsimp only
    split
    · exact ih _ _ _ _
    · exact ih _ _ _ _

end Solace.Reads
