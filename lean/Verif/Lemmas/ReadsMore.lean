import Verif.Lemmas.Reads
/- Helper lemmas for C148: exact accesses of the functions with characters, bounds, and what the results depend on. -/
namespace Solace.Reads
open StringView

theorem indexOfCharLoop_snd (s : List Byte) (c : Byte) (k i : Nat) :
    (indexOfCharLoop s c k i).2 = along i (match (indexOfCharLoop s c k i).1 with | some j => j + 1 - i | none => k) ∧
      ∀ j, (indexOfCharLoop s c k i).1 = some j → i ≤ j := by
  induction k generalizing i with
  | zero => exact ⟨rfl, fun j h => by cases h⟩
  | succ k ih =>
    rw [indexOfCharLoop]
    split
    · refine ⟨?_, fun j h => by cases h; exact Nat.le_refl _⟩
      simp [along]
    · dsimp only
      obtain ⟨h1, h2⟩ := ih (i + 1)
      rw [h1]
      cases hr : (indexOfCharLoop s c k (i + 1)).1 with
      | none => exact ⟨by simp [along, List.range'_succ], fun j h => by cases h⟩
      | some j =>
        have := h2 j hr
        refine ⟨?_, fun j' h => by cases h; omega⟩
        dsimp only
        have e : j + 1 - i = (j + 1 - (i + 1)) + 1 := by omega
        rw [e]
        simp [along, List.range'_succ]

theorem lastIndexOfCharLoop_snd (s : List Byte) (c : Byte) (k i : Nat) (r : Option Nat) :
    (lastIndexOfCharLoop s c k i r).2 = along i k := by
  induction k generalizing i r with
  | zero => rfl
  | succ k ih =>
    rw [lastIndexOfCharLoop]
    dsimp only
    rw [ih]
    simp [along, List.range'_succ]

theorem hashCodeLoop_snd (s : List Byte) (k i : Nat) (h : BitVec 64) : (hashCodeLoop s k i h).2 = along i k := by
  induction k generalizing i h with
  | zero => rfl
  | succ k ih =>
    rw [hashCodeLoop]
    dsimp only
    rw [ih]
    simp [along, List.range'_succ]

theorem splitCharLoop_snd (s : List Byte) (c : Byte) (k to' from' count : Nat) (acc : List (List Byte)) :
    (splitCharLoop s c k to' from' count acc).2 = along to' k := by
  induction k generalizing to' from' count acc with
  | zero => rfl
  | succ k ih =>
    rw [splitCharLoop]
    dsimp only
    split
    · rw [ih]; simp [along, List.range'_succ]
    · rw [ih]; simp [along, List.range'_succ]

theorem trimFrom_snd (s : List Byte) (p : Byte → Bool) (k i : Nat) (h : i + k = s.length) :
    (trimFrom s p k i).2 = along i (min k ((trimFrom s p k i).1 + 1 - i)) ∧ i ≤ (trimFrom s p k i).1 ∧
      (trimFrom s p k i).1 ≤ s.length := by
  induction k generalizing i with
  | zero => exact ⟨by simp [trimFrom, along], Nat.le_refl _, by rw [trimFrom]; omega⟩
  | succ k ih =>
    have hi : i < s.length := by omega
    rw [trimFrom, List.getElem?_eq_getElem hi]
    dsimp only
    cases hp : p s[i]
    · refine ⟨?_, Nat.le_refl _, by simp; omega⟩
      simp [along]
    · obtain ⟨h1, h2, h3⟩ := ih (i + 1) (by omega)
      refine ⟨?_, by simp; omega, by simpa using h3⟩
      simp only [if_true]
      rw [h1]
      have : min (k + 1) ((trimFrom s p k (i + 1)).1 + 1 - i) = min k ((trimFrom s p k (i + 1)).1 + 1 - (i + 1)) + 1 := by omega
      rw [this]
      simp [along, List.range'_succ]

theorem trimTo_snd (s : List Byte) (p : Byte → Bool) (f t : Nat) (ht : t ≤ s.length) :
    (trimTo s p f t).2 = (along (max ((trimTo s p f t).1 - 1) (f + 1)) (t - max ((trimTo s p f t).1 - 1) (f + 1))).reverse ∧
      (trimTo s p f t).1 ≤ t ∧ (f ≤ t → f ≤ (trimTo s p f t).1) := by
  induction t with
  | zero => exact ⟨by simp [trimTo, along], Nat.le_refl _, fun h => h⟩
  | succ t ih =>
    have hi : t < s.length := by omega
    rw [trimTo, List.getElem?_eq_getElem hi]
    by_cases hf : f + 1 < t + 1
    · rw [if_pos hf]
      dsimp only
      cases hp : p s[t]
      · refine ⟨?_, Nat.le_refl _, fun h => h⟩
        have e1 : max (t + 1 - 1) (f + 1) = t := by omega
        have e2 : t + 1 - t = 1 := by omega
        simp only [e1, e2, along, Bool.false_eq_true, if_false]
        rfl
      · obtain ⟨h1, h2, h3⟩ := ih (by omega)
        refine ⟨?_, by simp; omega, fun h => by simpa using h3 (by omega)⟩
        simp only [if_true]
        rw [h1]
        have e : t + 1 - max ((trimTo s p f t).1 - 1) (f + 1) = (t - max ((trimTo s p f t).1 - 1) (f + 1)) + 1 := by omega
        rw [e, along, along, List.range'_concat, List.map_append, List.reverse_append]
        have e' : max ((trimTo s p f t).1 - 1) (f + 1) + 1 * (t - max ((trimTo s p f t).1 - 1) (f + 1)) = t := by omega
        rw [e']
        rfl
    · rw [if_neg hf]
      refine ⟨?_, Nat.le_refl _, fun h => h⟩
      have : t + 1 - max (t + 1 - 1) (f + 1) = 0 := by omega
      rw [this]
      rfl

theorem mem_along_here {i k j : Nat} : Access.here j ∈ along i k ↔ i ≤ j ∧ j < i + k := by
  simp [along]

theorem mem_along_there {i k j : Nat} : ¬ Access.there j ∈ along i k := by
  simp [along]

theorem along_nodup (i k : Nat) : (along i k).Nodup := by
  rw [along, List.nodup_iff_pairwise_ne, List.pairwise_map]
  exact (List.nodup_iff_pairwise_ne.mp List.nodup_range').imp (fun h h' => h (by cases h'; rfl))

theorem along_length (i k : Nat) : (along i k).length = k := by simp [along]

theorem trimBy_snd (p : Byte → Bool) (s : List Byte) :
    ∃ f, (trimBy p s).1 = (s.drop f).take (trimBy p s).1.length ∧ f + (trimBy p s).1.length ≤ s.length ∧ (trimBy p s).2.Nodup ∧
      (∀ i, .here i ∈ (trimBy p s).2 ↔ i < s.length ∧ ¬ (f < i ∧ i + 1 < f + (trimBy p s).1.length)) ∧
      (∀ i, .there i ∉ (trimBy p s).2) ∧
      (trimBy p s).2.length = s.length - ((trimBy p s).1.length - 2) := by
  obtain ⟨a1, a2, a3⟩ := trimFrom_snd s p s.length 0 (by omega)
  rw [trimBy]
  generalize hF : trimFrom s p s.length 0 = F at *
  obtain ⟨b1, b2, b3⟩ := trimTo_snd s p F.1 s.length (Nat.le_refl _)
  generalize hT : trimTo s p F.1 s.length = T at *
  dsimp only
  have hft := b3 a3
  have hlen : (substring s F.1 T.1).length = T.1 - F.1 := by
    rw [substring_eq s hft b2, List.length_take, List.length_drop]; omega
  refine ⟨F.1, ?_, by omega, ?_, ?_, ?_, ?_⟩
  · rw [hlen, substring_eq s hft b2]
  · rw [a1, b1, List.nodup_append]
    refine ⟨along_nodup _ _, (List.reverse_perm _).nodup_iff.mpr (along_nodup _ _), ?_⟩
    intro x hx y hy he
    subst he
    rw [List.mem_reverse] at hy
    cases x with
    | here j => rw [mem_along_here] at hx hy; omega
    | there j => exact mem_along_there hx
  · intro i
    rw [a1, b1, List.mem_append, List.mem_reverse, mem_along_here, mem_along_here, hlen]
    omega
  · intro i h
    rw [a1, b1, List.mem_append, List.mem_reverse] at h
    rcases h with h | h <;> exact mem_along_there h
  · rw [a1, b1, List.length_append, List.length_reverse, along_length, along_length, hlen]
    omega

/-! Bounds -/

theorem attempt_length (s x : List Byte) (i : Nat) : (attempt s x i).length = 2 * min x.length (agree x (s.drop i) + 1) := by
  rw [attempt]
  generalize min x.length _ = k
  induction k with
  | zero => rfl
  | succ k ih => rw [List.range_succ, List.flatMap_append, List.length_append, ih]; simp; omega

theorem attempt_inside (s x : List Byte) (i n : Nat) (h : i + x.length ≤ n) : Inside n x.length (attempt s x i) := by
  constructor
  · intro j hj
    simp only [attempt, List.mem_flatMap, List.mem_range, List.mem_cons, reduceCtorEq, false_or, List.not_mem_nil, or_false,
      Access.here.injEq] at hj
    omega
  · intro j hj
    simp only [attempt, List.mem_flatMap, List.mem_range, List.mem_cons, reduceCtorEq, or_false, List.not_mem_nil,
      Access.there.injEq] at hj
    omega

theorem candidate_inside (s x : List Byte) (i n : Nat) (hx : x ≠ []) (h : i + x.length ≤ n) : Inside n x.length (candidate s x i) := by
  have hpos : 0 < x.length := List.length_pos_iff.mpr hx
  obtain ⟨h1, h2⟩ := attempt_inside s x i n h
  rw [candidate]
  constructor
  · intro j hj
    rw [List.mem_append] at hj
    rcases hj with hj | hj
    · simp at hj; omega
    · split at hj
      · exact h1 j hj
      · cases hj
  · intro j hj
    rw [List.mem_append] at hj
    rcases hj with hj | hj
    · simp at hj; omega
    · split at hj
      · exact h2 j hj
      · cases hj

theorem candidate_length_le (s x : List Byte) (i : Nat) : 2 ≤ (candidate s x i).length ∧ (candidate s x i).length ≤ 2 * (x.length + 1) := by
  rw [candidate, List.length_append]
  split
  · rw [attempt_length]; simp; omega
  · simp; omega

theorem flatMap_inside {n m : Nat} {f : Nat → List Access} {l : List Nat} (h : ∀ i ∈ l, Inside n m (f i)) : Inside n m (l.flatMap f) := by
  constructor
  · intro j hj
    obtain ⟨i, hi, hj⟩ := List.mem_flatMap.mp hj
    exact (h i hi).1 j hj
  · intro j hj
    obtain ⟨i, hi, hj⟩ := List.mem_flatMap.mp hj
    exact (h i hi).2 j hj

theorem flatMap_length_le {f : Nat → List Access} {c : Nat} (h : ∀ i, (f i).length ≤ c) (l : List Nat) : (l.flatMap f).length ≤ c * l.length := by
  induction l with
  | nil => simp
  | cons a l ih =>
    have := h a
    rw [List.flatMap_cons, List.length_append, List.length_cons, Nat.mul_add]
    omega

theorem le_flatMap_length {f : Nat → List Access} {c : Nat} (h : ∀ i, c ≤ (f i).length) (l : List Nat) : c * l.length ≤ (l.flatMap f).length := by
  induction l with
  | nil => simp
  | cons a l ih =>
    have := h a
    rw [List.flatMap_cons, List.length_append, List.length_cons, Nat.mul_add]
    omega

theorem flatMap_length_eq {f : Nat → List Access} {c : Nat} (l : List Nat) (h : ∀ i ∈ l, (f i).length = c) : (l.flatMap f).length = c * l.length := by
  induction l with
  | nil => simp
  | cons a l ih =>
    have := h a (by simp)
    rw [List.flatMap_cons, List.length_append, List.length_cons, Nat.mul_add, ih (fun i hi => h i (by simp [hi]))]
    omega

theorem inside_append {n m : Nat} {t u : List Access} (h : Inside n m t) (h' : Inside n m u) : Inside n m (t ++ u) := by
  constructor
  · intro j hj
    rcases List.mem_append.mp hj with hj | hj
    · exact h.1 j hj
    · exact h'.1 j hj
  · intro j hj
    rcases List.mem_append.mp hj with hj | hj
    · exact h.2 j hj
    · exact h'.2 j hj

theorem inside_nil (n m : Nat) : Inside n m [] := ⟨fun _ h => (by cases h), fun _ h => (by cases h)⟩

theorem split1Loop_bound (s d : List Byte) (hd : d ≠ []) (hs : s.length < 2 ^ 16) (fuel to' from' count : Nat) (acc : List (List Byte))
    (hf : s.length < fuel + to') (hto : to' ≤ s.length) :
    ∃ r, split1Loop s d fuel to' from' count acc = some r ∧ Inside s.length d.length r.2 ∧
      r.2.length ≤ 2 * d.length * (s.length + 1 - d.length - to') := by
  have hpos : 0 < d.length := List.length_pos_iff.mpr hd
  induction fuel generalizing to' from' count acc with
  | zero => omega
  | succ fuel ih =>
    rw [split1Loop]
    by_cases hc : to' + d.length ≤ s.length
    · rw [if_pos hc]
      have e1 : to' + (d.length - 1) + 1 = to' + d.length := by omega
      have e2 : wrap16 (wrap16 (to' + (d.length - 1)) + 1) = to' + d.length := by
        rw [wrap16_of_lt (n := to' + (d.length - 1)) (by omega), e1, wrap16_of_lt (by omega)]
      have e3 : wrap16 (to' + 1) = to' + 1 := wrap16_of_lt (by omega)
      rw [e1, wrap16_of_lt (n := to' + d.length) (by omega), e2, e3]
      dsimp only
      rw [equalsWithin_snd s d to' hc]
      have hin := attempt_inside s d to' s.length hc
      have hlen := attempt_length s d to'
      split
      · obtain ⟨r, hr, h1, h2⟩ := ih (to' + d.length) (to' + d.length) (wrap16 (count + 1)) (acc ++ [substring s from' to'])
          (by omega) (by omega)
        rw [hr]
        refine ⟨_, rfl, inside_append hin h1, ?_⟩
        rw [List.length_append, hlen]
        have : s.length + 1 - d.length - to' = (s.length + 1 - d.length - (to' + d.length)) + (s.length + 1 - d.length - to' - (s.length + 1 - d.length - (to' + d.length))) := by omega
        rw [this, Nat.mul_add]
        have : 2 * d.length * 1 ≤ 2 * d.length * (s.length + 1 - d.length - to' - (s.length + 1 - d.length - (to' + d.length))) :=
          Nat.mul_le_mul_left _ (by omega)
        omega
      · obtain ⟨r, hr, h1, h2⟩ := ih (to' + 1) from' count acc (by omega) (by omega)
        rw [hr]
        refine ⟨_, rfl, inside_append hin h1, ?_⟩
        rw [List.length_append, hlen]
        have : s.length + 1 - d.length - to' = (s.length + 1 - d.length - (to' + 1)) + 1 := by omega
        rw [this, Nat.mul_add]
        omega
    · rw [if_neg hc]
      exact ⟨_, rfl, inside_nil _ _, by simp⟩

/-! What the results depend on -/

theorem Alike.left {t u : List Access} (h : Alike (t ++ u) s x s' x') : Alike t s x s' x' :=
  ⟨h.1, h.2.1, fun i hi => h.2.2.1 i (by simp [hi]), fun i hi => h.2.2.2 i (by simp [hi])⟩

theorem Alike.right {t u : List Access} (h : Alike (t ++ u) s x s' x') : Alike u s x s' x' :=
  ⟨h.1, h.2.1, fun i hi => h.2.2.1 i (by simp [hi]), fun i hi => h.2.2.2 i (by simp [hi])⟩

theorem equalsLoop_alike (a b a' b' : List Byte) (k i : Nat) (h : Alike (equalsLoop a b k i).2 a b a' b') :
    equalsLoop a' b' k i = equalsLoop a b k i := by
  induction k generalizing i with
  | zero => rfl
  | succ k ih =>
    have hi : Access.here i ∈ (equalsLoop a b (k + 1) i).2 := by rw [equalsLoop]; split <;> simp
    have ht : Access.there i ∈ (equalsLoop a b (k + 1) i).2 := by rw [equalsLoop]; split <;> simp
    have e1 := h.2.2.1 i hi
    have e2 := h.2.2.2 i ht
    rw [equalsLoop, equalsLoop, ← e1, ← e2]
    split
    · rename_i hab
      rw [equalsLoop, if_pos hab] at h
      rw [ih (i + 1) ⟨h.1, h.2.1, fun j hj => h.2.2.1 j (by simp [hj]), fun j hj => h.2.2.2 j (by simp [hj])⟩]
    · rfl

theorem equals_alike (a b a' b' : List Byte) (h : Alike (equals a b).2 a b a' b') : equals a' b' = equals a b := by
  rw [equals, equals, ← h.1, ← h.2.1]
  split
  · rfl
  · rename_i hl
    rw [equals, if_neg hl] at h
    exact equalsLoop_alike a b a' b' _ _ h

theorem substring_get (s : List Byte) (i j l : Nat) (h : l < (substring s i j).length) : (substring s i j)[l]? = s[i + l]? := by
  simp only [substring] at h ⊢
  rw [List.length_take, List.length_drop] at h
  have : min i s.length = i := by omega
  rw [List.getElem?_take, if_pos (by omega), List.getElem?_drop, this]

theorem substring_length (s s' : List Byte) (i j : Nat) (h : s.length = s'.length) :
    (substring s i j).length = (substring s' i j).length := by
  simp only [substring, List.length_take, List.length_drop, h]

theorem equalsWithin_alike (s x s' x' : List Byte) (i j : Nat) (h : Alike (equalsWithin s x i j).2 s x s' x') :
    equalsWithin s' x' i j = equalsWithin s x i j := by
  have : equals x' (substring s' i j) = equals x (substring s i j) := by
    apply equals_alike
    refine ⟨h.2.1, substring_length _ _ _ _ h.1, fun l hl => ?_, fun l hl => ?_⟩
    · exact h.2.2.2 l (by rw [equalsWithin]; exact List.mem_map.mpr ⟨.here l, hl, rfl⟩)
    · have e := h.2.2.1 (i + l) (by rw [equalsWithin]; exact List.mem_map.mpr ⟨.there l, hl, rfl⟩)
      have hlen := substring_length s s' i j h.1
      by_cases hb : l < (substring s i j).length
      · rw [substring_get _ _ _ _ hb, substring_get _ _ _ _ (hlen ▸ hb), e]
      · rw [List.getElem?_eq_none (by omega), List.getElem?_eq_none (by omega)]
  rw [equalsWithin, equalsWithin, this]

theorem matchAt_alike (s after x xAfter s' x' : List Byte) (i : Nat) (b : Bool) (t : List Access)
    (hm : matchAt s after x xAfter i = .ok (b, t)) (h : Alike t s x s' x') : matchAt s' after x' xAfter i = .ok (b, t) := by
  rw [matchAt] at hm ⊢
  have app : ∀ (l l' u : List Byte) (n : Nat), l.length = l'.length → l[n]? = l'[n]? → (l ++ u)[n]? = (l' ++ u)[n]? := by
    intro l l' u n hl hn
    by_cases hlt : n < l.length
    · rw [List.getElem?_append_left hlt, List.getElem?_append_left (hl ▸ hlt), hn]
    · rw [List.getElem?_append_right (by omega), List.getElem?_append_right (by omega), hl]
  cases ha : (s ++ after)[i]? with
  | none => rw [ha] at hm; cases hm
  | some a =>
    cases hb : (x ++ xAfter)[0]? with
    | none => rw [ha, hb] at hm; cases hm
    | some c =>
      rw [ha, hb] at hm
      dsimp only at hm
      have hm := Outcome.ok.inj hm
      have hi : Access.here i ∈ t := by
        split at hm <;> cases hm <;> simp
      have ht : Access.there 0 ∈ t := by
        split at hm <;> cases hm <;> simp
      rw [← app s s' after i h.1 (h.2.2.1 i hi), ← app x x' xAfter 0 h.2.1 (h.2.2.2 0 ht), ha, hb]
      dsimp only
      by_cases hac : a = c
      · rw [if_pos hac] at hm ⊢
        cases hm
        rw [← h.2.1]
        rw [equalsWithin_alike s x s' x' i _ ⟨h.1, h.2.1, fun j hj => h.2.2.1 j (by simp [hj]), fun j hj => h.2.2.2 j (by simp [hj])⟩]
      · rw [if_neg hac] at hm ⊢
        cases hm
        rfl

theorem prepend_ok {t t' : List Access} {o : Outcome (α × List Access)} {r : α} (h : prepend t o = .ok (r, t')) :
    ∃ u, o = .ok (r, u) ∧ t' = t ++ u := by
  cases o with
  | ok p =>
    obtain ⟨a, u⟩ := p
    have := Outcome.ok.inj h
    cases this
    exact ⟨u, rfl, rfl⟩
  | _ => cases h

theorem indexOfLoop_alike (s after x xAfter s' x' : List Byte) (k i : Nat) (r : Option Nat) (t : List Access)
    (hm : indexOfLoop s after x xAfter k i = .ok (r, t)) (h : Alike t s x s' x') :
    indexOfLoop s' after x' xAfter k i = .ok (r, t) := by
  induction k generalizing i r t with
  | zero => exact hm
  | succ k ih =>
    rw [indexOfLoop] at hm ⊢
    cases hma : matchAt s after x xAfter i with
    | ok p =>
      obtain ⟨b, u⟩ := p
      rw [hma] at hm
      cases b with
      | true =>
        dsimp only at hm
        cases hm
        rw [matchAt_alike _ _ _ _ s' x' _ _ _ hma h]
      | false =>
        dsimp only at hm
        obtain ⟨v, hv, rfl⟩ := prepend_ok hm
        rw [matchAt_alike _ _ _ _ s' x' _ _ _ hma h.left]
        dsimp only
        rw [ih _ _ _ hv h.right]
        rfl
    | _ => rw [hma] at hm; cases hm

theorem lastIndexOfLoop_alike (s after x xAfter s' x' : List Byte) (k i : Nat) (q r : Option Nat) (t : List Access)
    (hm : lastIndexOfLoop s after x xAfter k i q = .ok (r, t)) (h : Alike t s x s' x') :
    lastIndexOfLoop s' after x' xAfter k i q = .ok (r, t) := by
  induction k generalizing i q r t with
  | zero => exact hm
  | succ k ih =>
    rw [lastIndexOfLoop] at hm ⊢
    cases hma : matchAt s after x xAfter i with
    | ok p =>
      obtain ⟨b, u⟩ := p
      rw [hma] at hm
      cases b with
      | true =>
        dsimp only at hm
        obtain ⟨v, hv, rfl⟩ := prepend_ok hm
        rw [matchAt_alike _ _ _ _ s' x' _ _ _ hma h.left]
        dsimp only
        rw [ih _ _ _ _ hv h.right]
        rfl
      | false =>
        dsimp only at hm
        obtain ⟨v, hv, rfl⟩ := prepend_ok hm
        rw [matchAt_alike _ _ _ _ s' x' _ _ _ hma h.left]
        dsimp only
        rw [ih _ _ _ _ hv h.right]
        rfl
    | _ => rw [hma] at hm; cases hm

theorem indexOfCharLoop_alike (s s' : List Byte) (c : Byte) (k i : Nat) (h : Alike (indexOfCharLoop s c k i).2 s [] s' []) :
    indexOfCharLoop s' c k i = indexOfCharLoop s c k i := by
  induction k generalizing i with
  | zero => rfl
  | succ k ih =>
    have hi : Access.here i ∈ (indexOfCharLoop s c (k + 1) i).2 := by rw [indexOfCharLoop]; split <;> simp
    have e1 := h.2.2.1 i hi
    rw [indexOfCharLoop, indexOfCharLoop, ← e1]
    split
    · rfl
    · rename_i hne
      rw [indexOfCharLoop, if_neg hne] at h
      rw [ih (i + 1) ⟨h.1, rfl, fun j hj => h.2.2.1 j (by simp [hj]), fun j hj => rfl⟩]

/-! Texts of equal characters -/

theorem agree_replicate (m n : Nat) (a b : Byte) (hab : a ≠ b) (h : m < n) :
    agree (List.replicate m a ++ [b]) (List.replicate n a) = m := by
  induction m generalizing n with
  | zero =>
    obtain ⟨n, rfl⟩ : ∃ n', n = n' + 1 := ⟨n - 1, by omega⟩
    rw [List.replicate_zero, List.nil_append, List.replicate_succ, agree_cons, if_neg (Ne.symm hab)]
  | succ m ih =>
    obtain ⟨n, rfl⟩ : ∃ n', n = n' + 1 := ⟨n - 1, by omega⟩
    rw [List.replicate_succ, List.replicate_succ, List.cons_append, agree_cons, if_pos rfl, ih n (by omega)]

theorem candidate_replicate (m n i : Nat) (a b : Byte) (hab : a ≠ b) (hm : 0 < m) (h : i + m < n) :
    (candidate (List.replicate n a) (List.replicate m a ++ [b]) i).length = 2 * (m + 2) := by
  have h0 : (List.replicate n a)[i]? = some a := by rw [List.getElem?_replicate, if_pos (by omega)]
  have h1 : (List.replicate m a ++ [b])[0]? = some a := by
    rw [List.getElem?_append_left (by simpa using hm), List.getElem?_replicate, if_pos hm]
  rw [candidate, h0, h1, if_pos rfl, List.length_append, attempt_length, List.drop_replicate, agree_replicate m (n - i) a b hab (by omega)]
  simp
  omega

end Solace.Reads

namespace Solace.StringView
open Strings

theorem indexOf_found (s after x xAfter : List Byte) (from' j : Nat) (hs : s.length < 2 ^ 16) (hx : x ≠ []) (hf : from' + x.length ≤ s.length)
    (h : indexOf s after x xAfter from' = .ok (some j)) : from' ≤ j ∧ j + x.length ≤ s.length ∧ OccursAt x s j := by
  have hpos : 0 < x.length := List.length_pos_iff.mpr hx
  rw [indexOf, if_neg (by omega), wrap16_of_lt (by omega)] at h
  obtain ⟨r, hr, h1, _⟩ := indexOfLoop_spec s after x xAfter hs hx (s.length - x.length + 1 - from') from' (fun j hj => by omega)
  rw [hr] at h
  have := Outcome.ok.inj h
  subst this
  obtain ⟨a, b, _⟩ := h1 j rfl
  exact ⟨a, ((occursAt_iff x s j).mp b).1, b⟩

end Solace.StringView
