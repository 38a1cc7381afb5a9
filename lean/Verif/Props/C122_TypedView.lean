import Verif.Model.TypedView
/-
C122: array views made from pointers.
-/
namespace Solace.Typed

open ViewObj (View)

/-- The view shows exactly the `n` elements from `p` on. -/
def Shows (sz : Nat) (v : View) (p n : Nat) : Prop :=
  count sz v = n ∧ (0 < n → begin_ v = p) ∧ end_ sz v = begin_ v + n * sz

theorem count_mul (sz n : Nat) (hsz : 0 < sz) : sz * n / sz = n := Nat.mul_div_cancel_left n hsz

/-- **C122** (full), pointer and length: an exception exactly for the null pointer with a number of bytes that is not 0 modulo
2^64; otherwise the view has that number of bytes. -/
theorem C122_pointer_exact (sz p n : Nat) :
    (ofPointer sz p n = .throws ↔ p = 0 ∧ sz * n % 2 ^ 64 ≠ 0) ∧
    (¬(p = 0 ∧ sz * n % 2 ^ 64 ≠ 0) → ofPointer sz p n = .ok ⟨p, sz * n % 2 ^ 64⟩) := by
  rw [ofPointer, ViewObj.make, wrap64_def]
  by_cases h : p ≠ 0 ∨ sz * n % 2 ^ 64 = 0
  · rw [if_pos h]
    refine ⟨⟨fun e => (by cases e), fun ⟨h1, h2⟩ => ?_⟩, fun _ => rfl⟩
    rcases h with h | h
    · exact absurd h1 h
    · exact absurd h h2
  · rw [if_neg h]
    have h1 : p = 0 := Classical.byContradiction fun e => h (.inl e)
    have h2 : sz * n % 2 ^ 64 ≠ 0 := fun e => h (.inr e)
    exact ⟨⟨fun _ => ⟨h1, h2⟩, fun _ => rfl⟩, fun e => absurd ⟨h1, h2⟩ e⟩

/-- **C122**: the full claim, that the view shows the elements it was made for or there is an exception, is false: 2^61 elements
of 8 bytes make an empty view, also at the null pointer; of 2^61 + 1 elements one is shown. -/
theorem C122_pointer_false (p : Nat) :
    ofPointer 8 p (2 ^ 61) = .ok ⟨p, 0⟩ ∧ (p ≠ 0 → ofPointer 8 p (2 ^ 61 + 1) = .ok ⟨p, 8⟩) ∧ count 8 ⟨p, 8⟩ = 1 := by
  refine ⟨?_, fun hp => ?_, Nat.div_self (n := 8) (by decide)⟩
  · rw [ofPointer, wrap64_def, ViewObj.make, if_pos (.inr (by omega))]
  · rw [ofPointer, wrap64_def, ViewObj.make, if_pos (.inl hp)]

/-- **C122** (partial: the number of bytes fits 64 bits, see `C122_pointer_false`): the view shows exactly the elements it was made
for; the condition is exact. -/
theorem C122_pointer_partial (sz p n : Nat) (hsz : 0 < sz) (hp : p ≠ 0) :
    (∃ v, ofPointer sz p n = .ok v ∧ Shows sz v p n) ↔ sz * n < 2 ^ 64 := by
  have e := (C122_pointer_exact sz p n).2 (fun h => hp h.1)
  rw [e]
  constructor
  · rintro ⟨v, hv, hc, _⟩
    cases hv
    rw [count] at hc
    simp only at hc
    have h1 : n * sz ≤ sz * n % 2 ^ 64 := by
      have := Nat.div_mul_le_self (sz * n % 2 ^ 64) sz
      rwa [hc] at this
    have h2 : sz * n % 2 ^ 64 < 2 ^ 64 := Nat.mod_lt _ (by decide)
    rw [Nat.mul_comm]; omega
  · intro h
    refine ⟨_, rfl, ?_, fun hn0 => ?_, ?_⟩
    · rw [count, Nat.mod_eq_of_lt h]; exact count_mul sz n hsz
    · rw [begin_, if_neg]
      simp only [Nat.mod_eq_of_lt h]
      have := Nat.mul_pos hsz hn0
      omega
    · rw [end_, count, Nat.mod_eq_of_lt h]
      simp only
      rw [count_mul sz n hsz]

example : (0 : Nat) < 8 ∧ (4096 : Nat) ≠ 0 ∧ 8 * 100 < 2 ^ 64 := by decide

/-- **C122** (full): C arrays (which the language makes no larger than the address space) are shown with all their elements. -/
theorem C122_array (sz p n : Nat) (hsz : 0 < sz) (hp : p ≠ 0) (hn : n * sz < 2 ^ 64) :
    ∃ v, ofArray sz p n = .ok v ∧ Shows sz v p n := by
  refine ⟨⟨p, n * sz⟩, ?_, ?_, fun hn0 => ?_, ?_⟩
  · rw [ofArray, wrap64_of_lt hn, ViewObj.make, if_pos (.inl hp)]; rfl
  · rw [count]; exact Nat.mul_div_cancel n hsz
  · rw [begin_, if_neg]
    have := Nat.mul_pos hn0 hsz
    simp only; omega
  · rw [end_, count]; simp only; rw [Nat.mul_div_cancel n hsz]

example : (0 : Nat) < 4 ∧ (64 : Nat) ≠ 0 ∧ 10 * 4 < 2 ^ 64 := by decide

theorem range_bytes (sz : Nat) (k : Int) :
    wrap64 (sz * (k % (2 ^ 64 : Int)).toNat) = ((sz : Int) * k % (2 ^ 64 : Int)).toNat := by
  rw [wrap64_def]
  have h0 : 0 ≤ k % (2 ^ 64 : Int) := Int.emod_nonneg _ (by decide)
  have h1 : ((sz * (k % (2 ^ 64 : Int)).toNat : Nat) : Int) = (sz : Int) * (k % (2 ^ 64 : Int)) := by
    rw [Int.natCast_mul, Int.toNat_of_nonneg h0]
  have h2 : ((sz * (k % (2 ^ 64 : Int)).toNat % 2 ^ 64 : Nat) : Int) = (sz : Int) * k % (2 ^ 64 : Int) := by
    rw [Int.natCast_emod, h1]
    have h3 : ((2 ^ 64 : Nat) : Int) = (2 ^ 64 : Int) := by decide
    rw [h3, Int.mul_emod, Int.emod_emod, ← Int.mul_emod]
  rw [← h2, Int.toNat_natCast]

/-- **C122** (partial: `begin` is not behind `end`, see `C122_range_reversed`), pointer range: the view shows the elements from
`begin` to `end`. The number of bytes between two pointers into one array fits 64 bits. -/
theorem C122_range_partial (sz p n : Nat) (hsz : 0 < sz) (hp : p ≠ 0) (hn : sz * n < 2 ^ 64) :
    ∃ v, ofRange sz p n = .ok v ∧ Shows sz v p n := by
  have e : ((sz : Int) * (n : Int) % (2 ^ 64 : Int)).toNat = sz * n := by
    rw [← Int.natCast_mul, Int.emod_eq_of_lt (Int.natCast_nonneg _) (by omega), Int.toNat_natCast]
  have e2 : ofRange sz p n = .ok ⟨p, sz * n⟩ := by
    rw [ofRange, range_bytes, e, ViewObj.make, if_pos (.inl hp)]
  refine ⟨_, e2, ?_, fun hn0 => ?_, ?_⟩
  · rw [count]; exact count_mul sz n hsz
  · rw [begin_, if_neg]
    have := Nat.mul_pos hsz hn0
    simp only; omega
  · rw [end_, count]; simp only; rw [count_mul sz n hsz]

example : (0 : Nat) < 8 ∧ (4096 : Nat) ≠ 0 ∧ 8 * 16 < 2 ^ 64 := by decide

/-- **C122** (full), reversed range: with `begin` `n > 0` elements behind `end` no error is found; the view claims more than 2^63
bytes, far more than there can be, so that every index of the array is accepted. -/
theorem C122_range_reversed (sz p n : Nat) (hsz : 0 < sz) (hp : p ≠ 0) (hn : 0 < n) (hb : sz * n < 2 ^ 63) :
    ∃ v, ofRange sz p (-(n : Int)) = .ok v ∧ v.addr = p ∧ v.size = 2 ^ 64 - sz * n ∧ 2 ^ 63 < v.size ∧
      ∀ i, i * sz + sz ≤ 2 ^ 63 → i < count sz v := by
  have hpos := Nat.mul_pos hsz hn
  have e : ((sz : Int) * (-(n : Int)) % (2 ^ 64 : Int)).toNat = 2 ^ 64 - sz * n := by
    rw [Int.mul_neg, ← Int.natCast_mul]
    generalize sz * n = b at hpos hb
    omega
  refine ⟨⟨p, 2 ^ 64 - sz * n⟩, ?_, rfl, rfl, by simp only; omega, fun i hi => ?_⟩
  · rw [ofRange, range_bytes, e, ViewObj.make, if_pos (.inl hp)]
  · rw [count]
    rw [Nat.lt_iff_add_one_le, Nat.le_div_iff_mul_le hsz, Nat.add_mul, Nat.one_mul]
    simp only; omega

example : (0 : Nat) < 4 ∧ (4096 : Nat) ≠ 0 ∧ 0 < 3 ∧ 4 * 3 < 2 ^ 63 := by decide

/-- **C122** (full), round trip: a view made again from its own `begin()` and `end()`, or from `data()` and `size()`, is the same
view exactly when it has no bytes behind its last whole element and, if it is empty, is at the null pointer. It always shows
the same elements. -/
theorem C122_round_trip (sz : Nat) (v : View) (hsz : 0 < sz) (hv : v.size < 2 ^ 64) (ha : v.size ≠ 0 → v.addr ≠ 0) :
    ∃ w, ofPointer sz (begin_ v) (count sz v) = .ok w ∧ ofRange sz (begin_ v) (count sz v) = .ok w ∧
      Shows sz w (begin_ v) (count sz v) ∧ (w = v ↔ v.size % sz = 0 ∧ (v.size = 0 → v.addr = 0)) := by
  have hb : sz * count sz v ≤ v.size := Nat.mul_div_le _ _
  have e : ((sz : Int) * (count sz v : Int) % (2 ^ 64 : Int)).toNat = sz * count sz v := by
    rw [← Int.natCast_mul, Int.emod_eq_of_lt (Int.natCast_nonneg _) (by omega), Int.toNat_natCast]
  have hm : ViewObj.make (begin_ v) (sz * count sz v) = .ok ⟨begin_ v, sz * count sz v⟩ := by
    rw [ViewObj.make, if_pos]
    by_cases h0 : v.size = 0
    · right; omega
    · left; rw [begin_, if_neg h0]; exact ha h0
  refine ⟨⟨begin_ v, sz * count sz v⟩, ?_, ?_, ⟨?_, fun hc => ?_, ?_⟩, ?_⟩
  · rw [ofPointer, wrap64_of_lt (by omega), hm]
  · rw [ofRange, range_bytes, e, hm]
  · exact count_mul sz _ hsz
  · have := Nat.mul_pos hsz hc
    exact if_neg (Nat.ne_of_gt this)
  · show _ + sz * count sz v / sz * sz = _
    rw [count_mul sz _ hsz]
  · have hd := Nat.div_add_mod v.size sz
    have hc : sz * count sz v = sz * (v.size / sz) := rfl
    constructor
    · intro h
      have h1 := congrArg View.addr h
      have h2 := congrArg View.size h
      simp only at h1 h2
      refine ⟨by omega, fun h0 => ?_⟩
      rw [← h1, begin_, if_pos h0]
    · rintro ⟨h1, h2⟩
      have h3 : sz * count sz v = v.size := by omega
      rw [h3]
      by_cases h0 : v.size = 0
      · have := h2 h0
        cases v; simp only at this h0; subst this h0; rfl
      · rw [begin_, if_neg h0]

example : (0 : Nat) < 4 ∧ (⟨64, 12⟩ : View).size < 2 ^ 64 ∧ ((⟨64, 12⟩ : View).size ≠ 0 → (⟨64, 12⟩ : View).addr ≠ 0) := by decide

/-- **C122** (full): `empty()`, which looks at bytes, and `size() == 0` agree exactly when the view does not have some but fewer
bytes than one element; for views made from pointers and arrays they agree whenever the number of bytes did not wrap. -/
theorem C122_empty (sz : Nat) (v : View) (hsz : 0 < sz) :
    ((empty v = true ↔ count sz v = 0) ↔ ¬(0 < v.size ∧ v.size < sz)) ∧
    (∀ p n, sz * n < 2 ^ 64 → ofPointer sz p n = .ok v → (empty v = true ↔ count sz v = 0)) := by
  have h0 : count sz v = 0 ↔ v.size < sz := by rw [count, Nat.div_eq_zero_iff]; omega
  have h1 : empty v = true ↔ v.size = 0 := by simp [empty]
  rw [h0, h1]
  refine ⟨⟨fun h => ?_, fun h => ?_⟩, fun p n hn h => ?_⟩
  · omega
  · omega
  · rw [ofPointer, wrap64_of_lt hn, ViewObj.make] at h
    split at h
    · cases h
      simp only
      constructor
      · intro e; omega
      · intro e
        rcases Nat.eq_zero_or_pos n with hz | hz
        · subst hz; rfl
        · have := Nat.le_mul_of_pos_right sz hz; omega
    · cases h

example : (0 : Nat) < 4 := by decide

theorem get_lt {α} {l : List α} {i : Nat} {x : α} (h : l[i]? = some x) : i < l.length := by
  rw [List.getElem?_eq_some_iff] at h; exact h.1

/-- **C122** (full): array views as values: `swap` and move assignment exchange, copy assignment copies and leaves the source, the
move constructor takes the view and leaves the null view; all other variables stay. Also for a view and itself. -/
theorem C122_values (vs : Vars) (i j : Nat) (a b : View) (ha : vs[i]? = some a) (hb : vs[j]? = some b) :
    ((swap vs i j)[i]? = some b ∧ (swap vs i j)[j]? = some a ∧ ∀ k, k ≠ i → k ≠ j → (swap vs i j)[k]? = vs[k]?) ∧
    assignMove vs i j = swap vs i j ∧
    assign vs i j = vs.set i b ∧
    moveCtor vs i = vs.set i null ++ [a] := by
  have la := get_lt ha
  have lb := get_lt hb
  refine ⟨⟨?_, ?_, ?_⟩, rfl, ?_, ?_⟩
  · simp only [swap, ha, hb]
    by_cases h : i = j
    · subst h; rw [ha] at hb; cases hb
      rw [List.getElem?_set_self (by simpa using la)]
    · rw [List.getElem?_set_ne (Ne.symm h), List.getElem?_set_self la]
  · simp only [swap, ha, hb]
    rw [List.getElem?_set_self (by simpa using lb)]
  · intro k h1 h2
    simp only [swap, ha, hb]
    rw [List.getElem?_set_ne (Ne.symm h2), List.getElem?_set_ne (Ne.symm h1)]
  · have e1 : (vs ++ [b])[vs.length]? = some b := by
      rw [List.getElem?_append_right (Nat.le_refl _)]; simp
    have e2 : (vs ++ [b])[i]? = some a := by rw [List.getElem?_append_left la, ha]
    simp only [assign, hb, swap, e1, e2]
    rw [List.set_append_right _ _ (Nat.le_refl _), Nat.sub_self, List.set_append_left _ _ la]
    simp
  · simp only [moveCtor, ha]; rfl

example : ([⟨64, 8⟩, ⟨128, 4⟩] : Vars)[0]? = some ⟨64, 8⟩ ∧ ([⟨64, 8⟩, ⟨128, 4⟩] : Vars)[1]? = some ⟨128, 4⟩ := ⟨rfl, rfl⟩

end Solace.Typed
