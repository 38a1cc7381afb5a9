import Verif.Lemmas.ReadsMore
/-
C148: which characters the functions of StringView look at. `C148_same`: the functions with their accesses are the functions proved correct in
C21 to C28. The other theorems give the accesses in the order of the code, their number, and say that the answer depends on nothing else.
-/
namespace Solace.Reads
open StringView

/-- Leaving out the accesses gives the functions of `Verif.Model.StringView`, for all arguments and also where their behaviour is undefined. -/
theorem C148_same (s after x xAfter : List Byte) (c : Byte) (from' fuel : Nat) (p : Byte → Bool) :
    (equals s x).1 = StringView.equals s x ∧
    (startsWith s x).1 = StringView.startsWith s x ∧
    (endsWith s x).1 = StringView.endsWith s x ∧
    (indexOfChar s c from').1 = StringView.indexOfChar s c from' ∧
    (lastIndexOfChar s c from').1 = StringView.lastIndexOfChar s c from' ∧
    result (indexOf s after x xAfter from') = StringView.indexOf s after x xAfter from' ∧
    result (lastIndexOf s after x xAfter from') = StringView.lastIndexOf s after x xAfter from' ∧
    (trimBy p s).1 = StringView.trimBy p s ∧
    (hashCode s).1 = StringView.hashCode s ∧
    (split1 fuel s x).map (·.1) = StringView.split1 fuel s x ∧
    (splitChar s c).1 = StringView.splitChar s c := by
  refine ⟨equals_fst s x, ?_, ?_, ?_, ?_, ?_, ?_, trimBy_fst p s, hashCode_fst s, ?_, splitCharLoop_fst _ _ _ _ _ _ _⟩
  · rw [startsWith, StringView.startsWith]; split
    · rfl
    · exact equalsWithin_fst _ _ _ _
  · rw [endsWith, StringView.endsWith]; split
    · rfl
    · exact equalsWithin_fst _ _ _ _
  · rw [indexOfChar, StringView.indexOfChar]; split
    · rfl
    · exact indexOfCharLoop_fst _ _ _ _
  · rw [lastIndexOfChar, StringView.lastIndexOfChar]; split
    · rfl
    · exact lastIndexOfCharLoop_fst _ _ _ _ _
  · rw [indexOf, StringView.indexOf]; split
    · rfl
    · exact indexOfLoop_result _ _ _ _ _ _
  · rw [lastIndexOf, StringView.lastIndexOf]; split
    · rfl
    · exact lastIndexOfLoop_result _ _ _ _ _ _ _
  · rw [split1, StringView.split1]; split
    · rfl
    · split
      · rfl
      · exact split1Loop_fst _ _ _ _ _ _ _

/-- `equals` looks at nothing when the sizes differ; otherwise at both texts in turn up to the first difference: the time a comparison takes
tells how many characters agree. -/
theorem C148_equals (a b : List Byte) :
    (equals a b).2 = if a.length = b.length then inTurn (min a.length (agree a b + 1)) else [] := by
  by_cases h : a.length = b.length
  · rw [if_pos h, equals_snd a b h]
  · rw [if_neg h, equals, if_pos h]

example : (equals [1#8, 2#8, 3#8] [1#8, 5#8, 3#8]).2 = [.here 0, .there 0, .here 1, .there 1] := by decide +kernel

/-- `startsWith` and `endsWith` compare once, at their place. -/
theorem C148_ends (s x : List Byte) :
    (startsWith s x).2 = (if x.length ≤ s.length then attempt s x 0 else []) ∧
    (endsWith s x).2 = (if x.length ≤ s.length then attempt s x (s.length - x.length) else []) := by
  constructor
  · rw [startsWith]
    by_cases h : x.length ≤ s.length
    · rw [if_neg (by omega), if_pos h]
      have := equalsWithin_snd s x 0 (by omega)
      rwa [Nat.zero_add] at this
    · rw [if_pos (by omega), if_neg h]
  · rw [endsWith]
    by_cases h : x.length ≤ s.length
    · rw [if_neg (by omega), if_pos h]
      have := equalsWithin_snd s x (s.length - x.length) (by omega)
      rwa [Nat.sub_add_cancel h] at this
    · rw [if_pos (by omega), if_neg h]

example : (endsWith [1#8, 2#8, 3#8] [2#8, 3#8]).2 = [.there 0, .here 1, .there 1, .here 2] := by decide +kernel

/-- `indexOf(char)` looks at each character once, from `fromIndex` up to the one found; `lastIndexOf(char)` and `split(char)` and `hashCode`
look at each character exactly once. -/
theorem C148_char (s : List Byte) (c : Byte) (from' : Nat) (h : from' ≤ s.length) :
    (indexOfChar s c from').2
      = along from' (match (indexOfChar s c from').1 with | some j => j + 1 - from' | none => s.length - from') ∧
    (lastIndexOfChar s c from').2 = along from' (s.length - from') ∧
    (splitChar s c).2 = along 0 s.length ∧
    (hashCode s).2 = along 0 s.length := by
  refine ⟨?_, ?_, splitCharLoop_snd _ _ _ _ _ _ _, hashCodeLoop_snd _ _ _ _⟩
  · rw [indexOfChar, if_neg (by omega)]
    exact (indexOfCharLoop_snd s c _ _).1
  · rw [lastIndexOfChar, if_neg (by omega)]
    exact lastIndexOfCharLoop_snd s c _ _ _

example : (indexOfChar [1#8, 2#8, 3#8] 2#8 0).2 = [.here 0, .here 1] ∧ (lastIndexOfChar [1#8, 2#8, 3#8] 2#8 0).2 = [.here 0, .here 1, .here 2] := by
  decide +kernel

/-- Searching for a text that is not empty: `indexOf` tries the positions from `fromIndex` up to the one found, `lastIndexOf` all of them, from
the first to the last. -/
theorem C148_search (s after x xAfter : List Byte) (from' : Nat) (hs : s.length < 2 ^ 16) (hx : x ≠ []) (hf : from' + x.length ≤ s.length) :
    (∃ r, StringView.indexOf s after x xAfter from' = .ok r ∧
      indexOf s after x xAfter from' = .ok (r, (List.range' from' (match r with
        | some j => j + 1 - from'
        | none => s.length + 1 - x.length - from')).flatMap (candidate s x))) ∧
    (∃ r, StringView.lastIndexOf s after x xAfter from' = .ok r ∧
      lastIndexOf s after x xAfter from' = .ok (r, (List.range' from' (s.length + 1 - x.length - from')).flatMap (candidate s x))) := by
  have hpos : 0 < x.length := List.length_pos_iff.mpr hx
  have hw : wrap16 (s.length - x.length + 1) - from' = s.length + 1 - x.length - from' := by
    rw [wrap16_of_lt (by omega)]; omega
  have hn : ¬ (s.length < from' ∨ s.length < x.length ∨ s.length < from' + x.length) := by omega
  constructor
  · rw [indexOf, StringView.indexOf, if_neg hn, if_neg hn, hw]
    exact indexOfLoop_ok s after x xAfter hs hx _ _ (fun j hj => by omega)
  · rw [lastIndexOf, StringView.lastIndexOf, if_neg hn, if_neg hn, hw]
    exact lastIndexOfLoop_ok s after x xAfter hs hx _ _ _ (fun j hj => by omega)

example : indexOf [1#8, 2#8, 1#8, 3#8] [] [1#8, 3#8] [] 0
    = .ok (some 2, [.here 0, .there 0, .there 0, .here 0, .there 1, .here 1, .here 1, .there 0, .here 2, .there 0, .there 0, .here 2, .there 1, .here 3]) := by
  decide +kernel

/-- No search looks outside the two texts, and none takes more than twice `(size of x + 1) * (number of positions)` accesses; `lastIndexOf`
takes at least two for every position, wherever the text is. -/
theorem C148_bound (s after x xAfter : List Byte) (from' : Nat) (hs : s.length < 2 ^ 16) (hx : x ≠ []) (hf : from' + x.length ≤ s.length) :
    (∃ r t, indexOf s after x xAfter from' = .ok (r, t) ∧ Inside s.length x.length t ∧
      t.length ≤ 2 * (x.length + 1) * (s.length + 1 - x.length - from')) ∧
    (∃ r t, lastIndexOf s after x xAfter from' = .ok (r, t) ∧ Inside s.length x.length t ∧
      t.length ≤ 2 * (x.length + 1) * (s.length + 1 - x.length - from') ∧ 2 * (s.length + 1 - x.length - from') ≤ t.length) := by
  obtain ⟨⟨r, hr, h1⟩, ⟨r', _, h2⟩⟩ := C148_search s after x xAfter from' hs hx hf
  have hpos : 0 < x.length := List.length_pos_iff.mpr hx
  have inside : ∀ k, k ≤ s.length + 1 - x.length - from' → Inside s.length x.length ((List.range' from' k).flatMap (candidate s x)) := by
    intro k hk
    apply flatMap_inside
    intro i hi
    rw [List.mem_range'_1] at hi
    exact candidate_inside s x i s.length hx (by omega)
  have bound : ∀ k, k ≤ s.length + 1 - x.length - from' → ((List.range' from' k).flatMap (candidate s x)).length
      ≤ 2 * (x.length + 1) * (s.length + 1 - x.length - from') := by
    intro k hk
    refine Nat.le_trans (flatMap_length_le (fun i => (candidate_length_le s x i).2) _) ?_
    rw [List.length_range']
    exact Nat.mul_le_mul_left _ hk
  refine ⟨⟨r, _, h1, ?_, ?_⟩, ⟨r', _, h2, inside _ (Nat.le_refl _), bound _ (Nat.le_refl _), ?_⟩⟩
  · cases r with
    | none => exact inside _ (Nat.le_refl _)
    | some j =>
      refine inside _ ?_
      have := StringView.indexOf_found s after x xAfter from' j hs hx hf hr
      dsimp only
      omega
  · cases r with
    | none => exact bound _ (Nat.le_refl _)
    | some j =>
      refine bound _ ?_
      have := StringView.indexOf_found s after x xAfter from' j hs hx hf hr
      dsimp only
      omega
  · have := le_flatMap_length (fun i => (candidate_length_le s x i).1) (List.range' from' (s.length + 1 - x.length - from'))
    rwa [List.length_range'] at this

/-- The bound is reached: looking for `aa…ab` in `aa…a`, both searches take twice `(size of x + 1)` accesses for every position. -/
theorem C148_worst (m n : Nat) (a b : Byte) (after xAfter : List Byte) (hab : a ≠ b) (hm : 0 < m) (hmn : m < n) (hn : n < 2 ^ 16) :
    (∃ r t, indexOf (List.replicate n a) after (List.replicate m a ++ [b]) xAfter 0 = .ok (r, t) ∧ t.length = 2 * (m + 2) * (n - m)) ∧
    (∃ r t, lastIndexOf (List.replicate n a) after (List.replicate m a ++ [b]) xAfter 0 = .ok (r, t) ∧ t.length = 2 * (m + 2) * (n - m)) := by
  have hx : List.replicate m a ++ [b] ≠ [] := by simp
  have hl : (List.replicate m a ++ [b]).length = m + 1 := by simp
  obtain ⟨⟨r, hr, h1⟩, ⟨r', _, h2⟩⟩ := C148_search (List.replicate n a) after (List.replicate m a ++ [b]) xAfter 0 (by simpa using hn) hx
    (by simp; omega)
  have hcount : ((List.range' 0 (n - m)).flatMap (candidate (List.replicate n a) (List.replicate m a ++ [b]))).length = 2 * (m + 2) * (n - m) := by
    rw [flatMap_length_eq (c := 2 * (m + 2)) _ (fun i hi => ?_), List.length_range']
    rw [List.mem_range'_1] at hi
    exact candidate_replicate m n i a b hab hm (by omega)
  have hk : (List.replicate n a).length + 1 - (List.replicate m a ++ [b]).length - 0 = n - m := by simp
  rw [hk] at h1 h2
  refine ⟨⟨r, _, h1, ?_⟩, ⟨r', _, h2, hcount⟩⟩
  cases r with
  | none => exact hcount
  | some j =>
    have hj := StringView.indexOf_found _ after _ xAfter 0 j (by simpa using hn) hx (by simp; omega) hr
    have ho := ((StringView.occursAt_iff _ _ _).mp hj.2.2).2
    exfalso
    have hb : b ∈ ((List.replicate n a).drop j).take (List.replicate m a ++ [b]).length := by rw [ho]; simp
    have := List.mem_of_mem_drop (List.mem_of_mem_take hb)
    rw [List.mem_replicate] at this
    exact hab this.2.symm

example : ∃ r t, indexOf (List.replicate 100 97#8) [] (List.replicate 50 97#8 ++ [98#8]) [] 0 = .ok (r, t) ∧ t.length = 5200 :=
  (C148_worst 50 100 97#8 98#8 [] [] (by decide) (by decide) (by decide) (by decide)).1

/-- `trim` looks at no character twice, and exactly at those that are not strictly inside the text that is left. -/
theorem C148_trim (p : Byte → Bool) (s : List Byte) :
    ∃ f, (trimBy p s).1 = (s.drop f).take (trimBy p s).1.length ∧ f + (trimBy p s).1.length ≤ s.length ∧ (trimBy p s).2.Nodup ∧
      (∀ i, .here i ∈ (trimBy p s).2 ↔ i < s.length ∧ ¬ (f < i ∧ i + 1 < f + (trimBy p s).1.length)) ∧
      (∀ i, .there i ∉ (trimBy p s).2) ∧
      (trimBy p s).2.length = s.length - ((trimBy p s).1.length - 2) := trimBy_snd p s

example : (trimBy isSpace [32#8, 97#8, 98#8, 99#8, 32#8]).2 = [.here 0, .here 1, .here 4, .here 3] := by decide +kernel

/-- `split(StringView)` ends, looks only at the two texts, and takes at most twice `(size of d) * (number of positions)` accesses; for a delimiter
of one character this is linear. -/
theorem C148_split (s d : List Byte) (hd : d ≠ []) (hs : s.length < 2 ^ 16) (fuel : Nat) (hf : s.length < fuel) :
    ∃ r, split1 fuel s d = some r ∧ Inside s.length d.length r.2 ∧ r.2.length ≤ 2 * d.length * (s.length + 1 - d.length) := by
  rw [split1]
  split
  · exact ⟨_, rfl, inside_nil _ _, by simp⟩
  · rw [if_neg (by simpa using hd)]
    obtain ⟨r, h1, h2, h3⟩ := split1Loop_bound s d hd hs fuel 0 0 1 [] (by omega) (by omega)
    exact ⟨r, h1, h2, by simpa using h3⟩

example : (split1 5 [97#8, 44#8, 98#8] [44#8]).map (·.2)
    = some [.there 0, .here 0, .there 0, .here 1, .there 0, .here 2] := by decide +kernel

/-- The answers depend on nothing but the sizes and the characters looked at: with other characters elsewhere the call gives the same answer and
looks at the same places. -/
theorem C148_determined (s after x xAfter s' x' : List Byte) (c : Byte) (from' : Nat) :
    (Alike (equals s x).2 s x s' x' → equals s' x' = equals s x) ∧
    (Alike (startsWith s x).2 s x s' x' → startsWith s' x' = startsWith s x) ∧
    (Alike (endsWith s x).2 s x s' x' → endsWith s' x' = endsWith s x) ∧
    (Alike (indexOfChar s c from').2 s [] s' [] → indexOfChar s' c from' = indexOfChar s c from') ∧
    (∀ r t, indexOf s after x xAfter from' = .ok (r, t) → Alike t s x s' x' → indexOf s' after x' xAfter from' = .ok (r, t)) ∧
    (∀ r t, lastIndexOf s after x xAfter from' = .ok (r, t) → Alike t s x s' x' → lastIndexOf s' after x' xAfter from' = .ok (r, t)) := by
  refine ⟨equals_alike s x s' x', fun h => ?_, fun h => ?_, fun h => ?_, fun r t hr h => ?_, fun r t hr h => ?_⟩
  · rw [startsWith, startsWith, ← h.1, ← h.2.1]
    split
    · rfl
    · rename_i hl
      rw [startsWith, if_neg hl] at h
      exact equalsWithin_alike _ _ _ _ _ _ h
  · rw [endsWith, endsWith, ← h.1, ← h.2.1]
    split
    · rfl
    · rename_i hl
      rw [endsWith, if_neg hl] at h
      exact equalsWithin_alike _ _ _ _ _ _ h
  · rw [indexOfChar, indexOfChar, ← h.1]
    split
    · rfl
    · rename_i hl
      rw [indexOfChar, if_neg hl] at h
      exact indexOfCharLoop_alike _ _ _ _ _ h
  · rw [indexOf] at hr ⊢
    rw [← h.1, ← h.2.1]
    split at hr
    · rename_i hl; rw [if_pos hl]; exact hr
    · rename_i hl; rw [if_neg hl]; exact indexOfLoop_alike _ _ _ _ _ _ _ _ _ _ hr h
  · rw [lastIndexOf] at hr ⊢
    rw [← h.1, ← h.2.1]
    split at hr
    · rename_i hl; rw [if_pos hl]; exact hr
    · rename_i hl; rw [if_neg hl]; exact lastIndexOfLoop_alike _ _ _ _ _ _ _ _ _ _ _ hr h

example : Alike (equals [1#8, 2#8, 3#8] [1#8, 5#8, 3#8]).2 [1#8, 2#8, 3#8] [1#8, 5#8, 3#8] [1#8, 2#8, 9#8] [1#8, 5#8, 8#8] := by
  have e : (equals [1#8, 2#8, 3#8] [1#8, 5#8, 3#8]).2 = [.here 0, .there 0, .here 1, .there 1] := by decide +kernel
  rw [e]
  refine ⟨rfl, rfl, fun i hi => ?_, fun i hi => ?_⟩
  · simp at hi
    rcases hi with rfl | rfl <;> rfl
  · simp at hi
    rcases hi with rfl | rfl <;> rfl

end Solace.Reads
