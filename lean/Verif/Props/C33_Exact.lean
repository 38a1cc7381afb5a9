import Verif.Props.C32_C33_StringBuilder
/-
C33 exactly: what `StringBuilder::indexOf` does for every character, every start and every size of the builder.
-/
namespace Solace.StringBuilder
open Strings

/-- The bytes of a character up to the first zero. -/
def front (c : Chr) : List Byte := c.bytes.takeWhile (· ≠ 0#8)

/-- The character `c` is found at `i` in `s`: only characters whose bytes are all zero after the first zero are, where their
other bytes occur. -/
def FoundAt (c : Chr) (s : List Byte) (i : Nat) : Prop := IsPlainChar c (front c) ∧ OccursAt (front c) s i

theorem count_front (c : Chr) : c.getBytesCount = (front c).length := by
  rw [Chr.getBytesCount, front]
  induction c.bytes with
  | nil => rfl
  | cons b bs ih =>
    rw [Chr.countFrom, List.takeWhile_cons]
    by_cases h : b = 0#8
    · simp [h]
    · simp [h, ih]

theorem window_any (data : List Byte) (i n : Nat) (hd : data.length < 2 ^ 64) (h : i + n ≤ data.length) :
    window data i n = (data.drop i).take n ++ List.replicate (4 - n) 0#8 := by
  rw [window, ByteReader.readAt]
  simp only [List.length_replicate, ByteReader.ofView]
  rw [wrap64_of_lt (by omega), if_neg (by omega), slice_eq, Nat.add_sub_cancel_left]
  rw [if_neg (by rw [List.length_take, List.length_drop]; omega)]
  simp only [List.take_take, Nat.min_self]

theorem front_spec (c : Chr) : 0#8 ∉ front c ∧ (front c).length ≤ c.bytes.length := by
  refine ⟨fun h => ?_, (List.takeWhile_sublist _).length_le⟩
  rw [front] at h
  have := List.all_takeWhile (p := fun b : Byte => decide (b ≠ 0#8)) (l := c.bytes)
  rw [List.all_eq_true] at this
  simpa using this _ h

theorem equals_found (big : Bool) (c : Chr) (hc : c.bytes.length = 4) (data : List Byte) (i : Nat) (hd : data.length < 2 ^ 64)
    (hi : i + (front c).length ≤ data.length) :
    c.equals big ⟨window data i (front c).length⟩ = true ↔ FoundAt c data i := by
  obtain ⟨f0, fl⟩ := front_spec c
  have hl : ((data.drop i).take (front c).length).length = (front c).length := by rw [List.length_take, List.length_drop]; omega
  rw [window_any data i _ hd hi, FoundAt, StringView.occursAt_iff, Chr.equals, beq_iff_eq, Chr.value, Chr.value]
  constructor
  · intro he
    have h := hostValue_inj (by simp; omega) he
    have hfr : front c = (data.drop i).take (front c).length := by
      have h1 : front c = c.bytes.take (front c).length := by
        have := List.takeWhile_append_dropWhile (p := fun b : Byte => decide (b ≠ 0#8)) (l := c.bytes)
        have e : c.bytes = front c ++ c.bytes.dropWhile (fun b => decide (b ≠ 0#8)) := this.symm
        conv => rhs; rw [e]
        rw [List.take_left' rfl]
      refine h1.trans ?_
      rw [h, List.take_left' hl]
    refine ⟨⟨by omega, f0, ?_⟩, hi, hfr.symm⟩
    rw [h, ← hfr]
  · rintro ⟨hp, _, he⟩
    rw [he, ← hp.2.2]

/-- The loop walks over places where nothing is found. -/
theorem walk (big : Bool) (c : Chr) (hc : c.bytes.length = 4) (data : List Byte) (hd : data.length < 2 ^ 64) (fuel : Nat) :
    ∀ k i, i + k < 2 ^ 16 → (∀ j, i ≤ j → j < i + k → j + (front c).length < data.length ∧ ¬ FoundAt c data j) →
      indexOfLoop big data c (fuel + k) i = indexOfLoop big data c fuel (i + k) := by
  intro k
  induction k with
  | zero => intro i _ _; rfl
  | succ k ih =>
    intro i hi h
    obtain ⟨h1, h2⟩ := h i (Nat.le_refl _) (by omega)
    rw [show fuel + (k + 1) = (fuel + k) + 1 by omega, indexOfLoop, count_front, if_pos h1,
      if_neg (fun he => h2 ((equals_found big c hc data i hd (by omega)).mp he)), wrap16_of_lt (by omega),
      ih (i + 1) (by omega) (fun j a b => h j (by omega) (by omega)), show i + 1 + k = i + (k + 1) by omega]

theorem found_step (big : Bool) (c : Chr) (hc : c.bytes.length = 4) (data : List Byte) (hd : data.length < 2 ^ 64) (fuel i : Nat)
    (h1 : i + (front c).length < data.length) (h2 : FoundAt c data i) : indexOfLoop big data c (fuel + 1) i = some (some i) := by
  rw [indexOfLoop, count_front, if_pos h1, if_pos ((equals_found big c hc data i hd (by omega)).mpr h2)]

theorem last_step (big : Bool) (c : Chr) (hc : c.bytes.length = 4) (data : List Byte) (hd : data.length < 2 ^ 64) (fuel : Nat)
    (h1 : 65535 + (front c).length < data.length) (h2 : ¬ FoundAt c data 65535) :
    indexOfLoop big data c (fuel + 1) 65535 = indexOfLoop big data c fuel 0 := by
  rw [indexOfLoop, count_front, if_pos h1, if_neg (fun he => h2 ((equals_found big c hc data 65535 hd (by omega)).mp he)), wrap16_def]

/-- The first place where a decidable condition holds between two indices, if there is one. -/
theorem first_between (p : Nat → Prop) (lo : Nat) : ∀ k, (∃ j, lo ≤ j ∧ j < lo + k ∧ p j ∧ ∀ l, lo ≤ l → l < j → ¬ p l) ∨
    ∀ l, lo ≤ l → l < lo + k → ¬ p l := by
  intro k
  induction k with
  | zero => right; intro l h1 h2; omega
  | succ k ih =>
    rcases ih with ⟨j, h1, h2, h3⟩ | h
    · exact .inl ⟨j, h1, by omega, h3⟩
    · by_cases hp : p (lo + k)
      · exact .inl ⟨lo + k, by omega, by omega, hp, fun l a b => h l a b⟩
      · right
        intro l a b
        by_cases e : l = lo + k
        · rw [e]; exact hp
        · exact h l a (by omega)

/-- **C33** (exactly, any character, any builder with at most 65535 characters before the last place where it could be): the index
returned is that of the first place at or after the start where the character is found and that does not end the text; there is
none exactly when there is no such place. -/
theorem C33_exact (big : Bool) (c : Chr) (hc : c.bytes.length = 4) (w : ByteWriter) (hd : w.viewWritten.length < 2 ^ 64)
    (hs : w.viewWritten.length ≤ 65535 + (front c).length) (from_ fuel : Nat) (hi : from_ < 2 ^ 16) (hf : 2 ^ 16 < fuel) :
    ∃ r, indexOf big w c from_ fuel = some r ∧
      (∀ j, r = some j ↔ from_ ≤ j ∧ j + (front c).length < w.viewWritten.length ∧ FoundAt c w.viewWritten j ∧
        ∀ l, from_ ≤ l → l < j → ¬ FoundAt c w.viewWritten l) ∧
      (r = none ↔ ∀ l, from_ ≤ l → l + (front c).length < w.viewWritten.length → ¬ FoundAt c w.viewWritten l) := by
  rw [indexOf]
  generalize w.viewWritten = data at *
  rcases first_between (fun j => FoundAt c data j) from_ (data.length - (front c).length - from_) with ⟨j, h1, h2, h3, h4⟩ | h
  · have hr : indexOfLoop big data c fuel from_ = some (some j) := by
      rw [show fuel = (fuel - (j - from_)) + (j - from_) by omega,
        walk big c hc data hd (fuel - (j - from_)) (j - from_) from_ (by omega) (fun l a b => ⟨by omega, h4 l a (by omega)⟩),
        show from_ + (j - from_) = j by omega, show fuel - (j - from_) = (fuel - (j - from_) - 1) + 1 by omega]
      exact found_step big c hc data hd _ j (by omega) h3
    refine ⟨_, hr, fun l => ⟨fun e => ?_, fun ⟨e1, e2, e3, e4⟩ => ?_⟩, ⟨fun e => (by cases e), fun e => ?_⟩⟩
    · cases e; exact ⟨h1, by omega, h3, h4⟩
    · rcases Nat.lt_trichotomy l j with g | g | g
      · exact absurd e3 (h4 l e1 g)
      · rw [g]
      · exact absurd h3 (e4 j h1 g)
    · exact absurd h3 (e j h1 (by omega))
  · have hr : indexOfLoop big data c fuel from_ = some none := by
      by_cases hle : from_ + (front c).length < data.length
      · rw [show fuel = (fuel - (data.length - (front c).length - from_)) + (data.length - (front c).length - from_) by omega,
          walk big c hc data hd _ (data.length - (front c).length - from_) from_ (by omega) (fun l a b => ⟨by omega, h l a b⟩),
          show from_ + (data.length - (front c).length - from_) = data.length - (front c).length by omega,
          show fuel - (data.length - (front c).length - from_) = (fuel - (data.length - (front c).length - from_) - 1) + 1 by omega,
          indexOfLoop, count_front, if_neg (by omega)]
      · rw [show fuel = (fuel - 1) + 1 by omega, indexOfLoop, count_front, if_neg hle]
    refine ⟨_, hr, fun l => ⟨fun e => (by cases e), fun ⟨e1, e2, e3, _⟩ => ?_⟩, ⟨fun _ l a b => h l a (by omega), fun _ => rfl⟩⟩
    exact absurd e3 (h l e1 (by omega))

/-- **C33** (exactly, longer builders): the index has 16 bits and starts again from zero. The first place at or after the start and
below 65536 is found; failing that the first one before the start; failing that the search never ends. -/
theorem C33_long_exact (big : Bool) (c : Chr) (hc : c.bytes.length = 4) (w : ByteWriter) (hd : w.viewWritten.length < 2 ^ 64)
    (hs : 65535 + (front c).length < w.viewWritten.length) (from_ : Nat) (hi : from_ < 2 ^ 16) :
    (∀ j, from_ ≤ j → j < 2 ^ 16 → FoundAt c w.viewWritten j → (∀ l, from_ ≤ l → l < j → ¬ FoundAt c w.viewWritten l) →
      ∀ fuel, 2 ^ 17 < fuel → indexOf big w c from_ fuel = some (some j)) ∧
    (∀ j, j < from_ → FoundAt c w.viewWritten j → (∀ l, from_ ≤ l → l < 2 ^ 16 → ¬ FoundAt c w.viewWritten l) →
      (∀ l, l < j → ¬ FoundAt c w.viewWritten l) → ∀ fuel, 2 ^ 17 < fuel → indexOf big w c from_ fuel = some (some j)) ∧
    ((∀ l, l < 2 ^ 16 → ¬ FoundAt c w.viewWritten l) → ∀ fuel, indexOf big w c from_ fuel = none) := by
  simp only [indexOf]
  generalize w.viewWritten = data at *
  have go : ∀ i j, i ≤ j → j < 2 ^ 16 → FoundAt c data j → (∀ l, i ≤ l → l < j → ¬ FoundAt c data l) →
      ∀ fuel, 2 ^ 16 < fuel → indexOfLoop big data c fuel i = some (some j) := by
    intro i j h1 h2 h3 h4 fuel hf
    rw [show fuel = (fuel - (j - i)) + (j - i) by omega,
      walk big c hc data hd (fuel - (j - i)) (j - i) i (by omega) (fun l a b => ⟨by omega, h4 l a (by omega)⟩),
      show i + (j - i) = j by omega, show fuel - (j - i) = (fuel - (j - i) - 1) + 1 by omega]
    exact found_step big c hc data hd _ j (by omega) h3
  have round : (∀ l, from_ ≤ l → l < 2 ^ 16 → ¬ FoundAt c data l) → ∀ fuel,
      indexOfLoop big data c (fuel + (65536 - from_)) from_ = indexOfLoop big data c fuel 0 := by
    intro h fuel
    rw [show fuel + (65536 - from_) = (fuel + 1) + (65535 - from_) by omega,
      walk big c hc data hd (fuel + 1) (65535 - from_) from_ (by omega) (fun l a b => ⟨by omega, h l a (by omega)⟩),
      show from_ + (65535 - from_) = 65535 by omega, last_step big c hc data hd fuel hs (h 65535 (by omega) (by omega))]
  refine ⟨fun j h1 h2 h3 h4 fuel hf => go from_ j h1 h2 h3 h4 fuel (by omega), fun j h1 h2 h3 h4 fuel hf => ?_, fun h fuel => ?_⟩
  · rw [show fuel = (fuel - (65536 - from_)) + (65536 - from_) by omega, round h3]
    exact go 0 j (by omega) (by omega) h2 (fun l _ b => h4 l b) _ (by omega)
  · have : ∀ fuel i, i < 2 ^ 16 → indexOfLoop big data c fuel i = none := by
      intro fuel
      induction fuel with
      | zero => intro i _; rfl
      | succ fuel ih =>
        intro i hi
        rw [indexOfLoop, count_front, if_pos (by omega),
          if_neg (fun he => h i hi ((equals_found big c hc data i hd (by omega)).mp he))]
        exact ih _ (wrap16_lt _)
    exact this fuel from_ hi

/-- The character `b` in `"abc"` is found at 1, and a character with bytes after a zero nowhere. -/
example : FoundAt (.ofByte 0x62#8) [0x61#8, 0x62#8, 0x63#8] 1 :=
  ⟨⟨by decide, by decide, by decide⟩, (StringView.occursAt_iff _ _ _).mpr (by decide)⟩
example : ¬ FoundAt ⟨[0x62#8, 0#8, 0x62#8, 0#8]⟩ [0x61#8, 0x62#8, 0x63#8] 1 := fun h => absurd h.1.2.2 (by decide)

end Solace.StringBuilder
