import Verif.Lemmas.StringView
/-
C21-C28 and C72: StringView comparison, searching, trimming, splitting.
Views have fewer than 2^16 characters (`size_type` is `uint16`).
-/
namespace Solace.StringView
open Strings

/-- **C21** (full): `equals` is equality of the characters. -/
theorem C21_equals_iff (a b : List Byte) : equals a b = true ↔ a = b := equals_iff a b

/-- **C21** (full): equal views have equal hash codes. -/
theorem C21_hash_respects_equals (a b : List Byte) (h : equals a b = true) : hashCode a = hashCode b := by
  rw [(equals_iff a b).mp h]

/-- **C21**, what the hash is: the polynomial with base 31 of the (sign extended) characters modulo 2^64. -/
theorem C21_hash_polynomial (s : List Byte) :
    hashCode s = (s.zipIdx.map fun p => p.1.signExtend 64 * 31#64 ^ (s.length - 1 - p.2)).foldr (· + ·) 0#64 := by
  induction h : s.length generalizing s with
  | zero => rw [List.length_eq_zero_iff] at h; subst h; rfl
  | succ n ih =>
    have hne : s ≠ [] := by rintro rfl; simp at h
    obtain ⟨t, c, rfl⟩ : ∃ t c, s = t ++ [c] := ⟨s.dropLast, s.getLast hne, (List.dropLast_concat_getLast hne).symm⟩
    have ht : t.length = n := by simpa using h
    have hstep : hashCode (t ++ [c]) = c.signExtend 64 + hashCode t * 31#64 := by
      simp only [hashCode, List.foldl_append, List.foldl_cons, List.foldl_nil]
    rw [hstep, ih t ht]
    simp only [List.zipIdx_append, List.map_append, List.zipIdx_cons, List.zipIdx_nil, List.map_cons, List.map_nil,
      List.foldr_append, List.foldr_cons, List.foldr_nil, Nat.zero_add, ht, Nat.add_sub_cancel, Nat.sub_self,
      BitVec.pow_zero, BitVec.mul_one, BitVec.add_zero]
    have key : ∀ (l : List (Byte × Nat)) (z : BitVec 64), (∀ p ∈ l, p.2 < n) →
        z + (l.map fun p => p.1.signExtend 64 * 31#64 ^ (n - 1 - p.2)).foldr (· + ·) 0#64 * 31#64 =
        (l.map fun p => p.1.signExtend 64 * 31#64 ^ (n - p.2)).foldr (· + ·) z := by
      intro l
      induction l with
      | nil => intro z _; simp
      | cons p l ihl =>
        intro z hl
        have hp := hl p (by simp)
        have he : n - p.2 = (n - 1 - p.2) + 1 := by omega
        simp only [List.map_cons, List.foldr_cons, he, BitVec.pow_succ]
        rw [← ihl z (fun q hq => hl q (by simp [hq]))]
        generalize (l.map fun p => p.1.signExtend 64 * 31#64 ^ (n - 1 - p.2)).foldr (· + ·) 0#64 = S
        generalize 31#64 ^ (n - 1 - p.2) = e
        generalize p.1.signExtend 64 = x
        rw [BitVec.add_mul, BitVec.mul_assoc, ← BitVec.add_assoc, ← BitVec.add_assoc, BitVec.add_comm z]
    exact key _ _ fun p hp => by
      have := (List.mem_zipIdx hp).2.1
      omega

example : equals [0x61#8, 0x62#8] [0x61#8, 0x62#8] = true ∧ hashCode [0x61#8, 0x62#8] = 3105#64 := by decide +kernel

/-! ### C22 -/

theorem shortlex_irrefl (a : List Byte) : ¬shortlexLt a a := by
  rintro (h | ⟨_, h⟩)
  · omega
  · induction a with
    | nil => exact h
    | cons x xs ih =>
      rcases h with h | ⟨_, h⟩
      · omega
      · exact ih rfl h

theorem lexLt_trans : ∀ {a b c : List Byte}, lexLt a b → lexLt b c → lexLt a c
  | [], [], _, h, _ => h.elim
  | [], _ :: _, [], _, h => h.elim
  | [], _ :: _, _ :: _, _, _ => trivial
  | _ :: _, [], _, h, _ => h.elim
  | _ :: _, _ :: _, [], _, h => h.elim
  | x :: xs, y :: ys, z :: zs, h1, h2 => by
    rcases h1 with h1 | ⟨rfl, h1⟩
    · rcases h2 with h2 | ⟨rfl, h2⟩
      · exact .inl (by omega)
      · exact .inl h1
    · rcases h2 with h2 | ⟨rfl, h2⟩
      · exact .inl h2
      · exact .inr ⟨rfl, lexLt_trans h1 h2⟩

theorem shortlex_trans {a b c : List Byte} (h1 : shortlexLt a b) (h2 : shortlexLt b c) : shortlexLt a c := by
  rcases h1 with h1 | ⟨h1, h1'⟩ <;> rcases h2 with h2 | ⟨h2, h2'⟩
  · exact .inl (by omega)
  · exact .inl (by omega)
  · exact .inl (by omega)
  · exact .inr ⟨by omega, lexLt_trans h1' h2'⟩

theorem strncmp_spec (a b : List Byte) (h : a.length = b.length) (hz : ∀ c ∈ a, c ≠ 0#8) :
    (strncmp a.length a b < 0 ∧ lexLt a b) ∨ (strncmp a.length a b = 0 ∧ a = b) ∨
      (0 < strncmp a.length a b ∧ lexLt b a) := by
  induction a generalizing b with
  | nil =>
    have : b = [] := List.length_eq_zero_iff.mp (by simpa using h.symm)
    subst this
    exact .inr (.inl ⟨rfl, rfl⟩)
  | cons x xs ih =>
    match b, h with
    | y :: ys, h =>
      rw [List.length_cons, strncmp]
      by_cases h1 : x.toNat < y.toNat
      · rw [if_pos h1]; exact .inl ⟨by decide, .inl h1⟩
      · rw [if_neg h1]
        by_cases h2 : y.toNat < x.toNat
        · rw [if_pos h2]; exact .inr (.inr ⟨by decide, .inl h2⟩)
        · have hxy : x = y := BitVec.eq_of_toNat_eq (by omega)
          subst hxy
          rw [if_neg h2, if_neg (hz x (by simp))]
          rcases ih ys (by simpa using h) (fun c hc => hz c (by simp [hc])) with h | h | h
          · exact .inl ⟨h.1, .inr ⟨rfl, h.2⟩⟩
          · exact .inr (.inl ⟨h.1, by rw [h.2]⟩)
          · exact .inr (.inr ⟨h.1, .inr ⟨rfl, h.2⟩⟩)

/-- Characters with codes 1 to 127. -/
def Plain (s : List Byte) : Prop := ∀ c ∈ s, 0 < c.toNat ∧ c.toNat < 128

theorem toInt_pos {c : Byte} (h : 0 < c.toNat ∧ c.toNat < 128) : 0 < c.toInt := by
  rw [BitVec.toInt_eq_toNat_of_lt (by omega)]; omega

/-- **C22** (partial: characters 1..127, and not a comparison of a non-empty string with an empty one). On these
strings `compareTo` is the shortlex order: its sign is negative, zero, positive exactly as the left string is smaller,
equal, greater. Missing: strings with NUL or bytes from 128 on, and a non-empty string compared to an empty one - there
the property fails, see below. -/
theorem C22_shortlex_partial (s x : List Byte) (hs : Plain s) (hx : Plain x) (hl : s.length < 2 ^ 16)
    (hlx : x.length < 2 ^ 16) (h : x ≠ [] ∨ s = []) :
    ∃ r, compareTo s x = .ok r ∧ (r < 0 ↔ shortlexLt s x) ∧ (r = 0 ↔ s = x) ∧ (0 < r ↔ shortlexLt x s) := by
  rw [compareTo]
  by_cases h1 : s.length > x.length
  · rw [if_pos h1]
    have hxne : x ≠ [] := by
      rcases h with h | h
      · exact h
      · subst h; simp at h1
    have hpos := List.length_pos_iff.mpr hxne
    have hi : x.length - 1 < s.length := by omega
    rw [sub16_of_le (by omega) hlx, charAt, List.getElem?_eq_getElem hi]
    have hc := toInt_pos (hs _ (List.getElem_mem hi))
    refine ⟨_, rfl, ?_, ?_, ?_⟩
    · refine ⟨fun h' => (by omega), fun h' => ?_⟩
      rcases h' with h' | h' <;> omega
    · exact ⟨fun h' => (by omega), fun h' => (by rw [h'] at h1; omega)⟩
    · exact ⟨fun _ => .inl h1, fun _ => hc⟩
  · rw [if_neg h1]
    by_cases h2 : s.length < x.length
    · rw [if_pos h2]
      have hi : x.length - 1 < x.length := by omega
      rw [sub16_of_le (by omega) hlx, charAt, List.getElem?_eq_getElem hi]
      have hc := toInt_pos (hx _ (List.getElem_mem hi))
      refine ⟨_, rfl, ?_, ?_, ?_⟩
      · exact ⟨fun _ => .inl h2, fun _ => (by omega)⟩
      · exact ⟨fun h' => (by omega), fun h' => (by rw [h'] at h2; omega)⟩
      · refine ⟨fun h' => (by omega), fun h' => ?_⟩
        rcases h' with h' | h' <;> omega
    · rw [if_neg h2]
      have hle : s.length = x.length := by omega
      refine ⟨_, rfl, ?_⟩
      have hz : ∀ c ∈ s, c ≠ 0#8 := by
        rintro c hc rfl
        have := (hs _ hc).1
        simp at this
      have asym : ∀ {a b}, shortlexLt a b → ¬shortlexLt b a := fun p q => shortlex_irrefl _ (shortlex_trans p q)
      rcases strncmp_spec s x hle hz with ⟨h3, h4⟩ | ⟨h3, h4⟩ | ⟨h3, h4⟩
      · have hlt : shortlexLt s x := .inr ⟨hle, h4⟩
        refine ⟨⟨fun _ => hlt, fun _ => h3⟩, ⟨fun h' => (by omega), ?_⟩, ⟨fun h' => (by omega), fun h' => (asym hlt h').elim⟩⟩
        rintro rfl
        exact (shortlex_irrefl _ hlt).elim
      · subst h4
        refine ⟨⟨fun h' => (by omega), fun h' => (shortlex_irrefl _ h').elim⟩, ⟨fun _ => rfl, fun _ => h3⟩,
          ⟨fun h' => (by omega), fun h' => (shortlex_irrefl _ h').elim⟩⟩
      · have hlt : shortlexLt x s := .inr ⟨hle.symm, h4⟩
        refine ⟨⟨fun h' => (by omega), fun h' => (asym hlt h').elim⟩, ⟨fun h' => (by omega), ?_⟩, ⟨fun _ => hlt, fun _ => h3⟩⟩
        rintro rfl
        exact (shortlex_irrefl _ hlt).elim

/-- **C22**, the order used above is a strict total order. -/
theorem C22_shortlex_total (a b : List Byte) : shortlexLt a b ∨ a = b ∨ shortlexLt b a := by
  have lexTot : ∀ (a b : List Byte), a.length = b.length → lexLt a b ∨ a = b ∨ lexLt b a := by
    intro a
    induction a with
    | nil => intro b h; exact .inr (.inl (List.length_eq_zero_iff.mp (by simpa using h.symm)).symm)
    | cons x xs ih =>
      intro b h
      match b, h with
      | y :: ys, h =>
        rcases Nat.lt_trichotomy x.toNat y.toNat with h1 | h1 | h1
        · exact .inl (.inl h1)
        · have hxy : x = y := BitVec.eq_of_toNat_eq h1
          subst hxy
          rcases ih ys (by simpa using h) with h | h | h
          · exact .inl (.inr ⟨rfl, h⟩)
          · exact .inr (.inl (by rw [h]))
          · exact .inr (.inr (.inr ⟨rfl, h⟩))
        · exact .inr (.inr (.inl h1))
  rcases Nat.lt_trichotomy a.length b.length with h | h | h
  · exact .inl (.inl h)
  · rcases lexTot a b h with h' | h' | h'
    · exact .inl (.inr ⟨h, h'⟩)
    · exact .inr (.inl h')
    · exact .inr (.inr (.inr ⟨h.symm, h'⟩))
  · exact .inr (.inr (.inl h))

example : Plain [0x61#8, 0x62#8] ∧ compareTo [0x61#8, 0x62#8] [0x7A#8] = .ok 0x61 ∧
    compareTo [0x7A#8] [0x61#8, 0x62#8] = .ok (-0x62) := by
  refine ⟨?_, by decide +kernel, by decide +kernel⟩
  intro c hc
  simp at hc
  rcases hc with rfl | rfl <;> decide

/-- **C22, negation**: comparing any non-empty string with the empty one terminates the program. -/
theorem C22_empty_terminates (s : List Byte) (hs : s ≠ []) (hl : s.length < 2 ^ 16) : compareTo s [] = .terminate := by
  have hpos := List.length_pos_iff.mpr hs
  rw [compareTo, if_pos (by simpa using hpos), charAt, List.length_nil, sub16_of_lt (by omega) (by omega),
    List.getElem?_eq_none (by omega)]
  rfl

/-- **C22, negation**: not antisymmetric, and zero for different strings - both for a NUL in front and for NULs inside
strings of the same length. -/
theorem C22_not_an_order :
    (∃ a b r r', compareTo a b = .ok r ∧ compareTo b a = .ok r' ∧ r < 0 ∧ r' < 0) ∧
    (∃ a b, a ≠ b ∧ compareTo a b = .ok 0 ∧ a.length ≠ b.length) ∧
    (∃ a b, a ≠ b ∧ compareTo a b = .ok 0 ∧ a.length = b.length) :=
  ⟨⟨[0xFF#8, 0x62#8], [0x61#8], -1, -98, by decide +kernel⟩,
   ⟨[0x00#8, 0x62#8], [0x61#8], by decide +kernel⟩,
   ⟨[0x61#8, 0x00#8, 0x62#8], [0x61#8, 0x00#8, 0x63#8], by decide +kernel⟩⟩

/-- The characters before the first null character. -/
def cText (s : List Byte) : List Byte := s.takeWhile (· ≠ 0#8)

theorem cText_cons_zero (xs : List Byte) : cText (0#8 :: xs) = [] := by simp [cText]

theorem cText_cons {x : Byte} (h : x ≠ 0#8) (xs : List Byte) : cText (x :: xs) = x :: cText xs := by simp [cText, h]

theorem strncmp_cText (a : List Byte) : ∀ b : List Byte, a.length = b.length →
    (strncmp a.length a b = -1 ∧ lexLt (cText a) (cText b)) ∨ (strncmp a.length a b = 0 ∧ cText a = cText b) ∨
      (strncmp a.length a b = 1 ∧ lexLt (cText b) (cText a)) := by
  induction a with
  | nil =>
    intro b h
    have : b = [] := List.length_eq_zero_iff.mp (by simpa using h.symm)
    subst this
    exact .inr (.inl ⟨rfl, rfl⟩)
  | cons x xs ih =>
    intro b h
    match b, h with
    | y :: ys, h =>
      rw [List.length_cons, strncmp]
      by_cases h1 : x.toNat < y.toNat
      · rw [if_pos h1]
        have hy : y ≠ 0#8 := by rintro rfl; exact absurd h1 (Nat.not_lt_zero _)
        refine .inl ⟨rfl, ?_⟩
        rw [cText_cons hy]
        by_cases hx : x = 0#8
        · rw [hx, cText_cons_zero]; trivial
        · rw [cText_cons hx]; exact .inl h1
      · rw [if_neg h1]
        by_cases h2 : y.toNat < x.toNat
        · rw [if_pos h2]
          have hx : x ≠ 0#8 := by rintro rfl; exact absurd h2 (Nat.not_lt_zero _)
          refine .inr (.inr ⟨rfl, ?_⟩)
          rw [cText_cons hx]
          by_cases hy : y = 0#8
          · rw [hy, cText_cons_zero]; trivial
          · rw [cText_cons hy]; exact .inl h2
        · have hxy : x = y := BitVec.eq_of_toNat_eq (by omega)
          subst hxy
          rw [if_neg h2]
          by_cases hx : x = 0#8
          · rw [if_pos hx, hx, cText_cons_zero, cText_cons_zero]
            exact .inr (.inl ⟨rfl, rfl⟩)
          · rw [if_neg hx, cText_cons hx, cText_cons hx]
            rcases ih ys (by simpa using h) with h | h | h
            · exact .inl ⟨h.1, .inr ⟨rfl, h.2⟩⟩
            · exact .inr (.inl ⟨h.1, by rw [h.2]⟩)
            · exact .inr (.inr ⟨h.1, .inr ⟨rfl, h.2⟩⟩)

/-- **C22, exactly**, for all strings. A longer left side gives its character at the last index of the right side, as a signed
number (and ends the program when there is no such index); a shorter left side gives minus the last character of the right
side; strings of the same length are compared as C strings, up to the first null character. -/
theorem C22_exact (s x : List Byte) (hl : s.length < 2 ^ 16) (hlx : x.length < 2 ^ 16) :
    (x.length < s.length → x = [] → compareTo s x = .terminate) ∧
    (∀ c, x.length < s.length → x ≠ [] → s[x.length - 1]? = some c → compareTo s x = .ok c.toInt) ∧
    (∀ c, s.length < x.length → x.getLast? = some c → compareTo s x = .ok (-c.toInt)) ∧
    (s.length = x.length → ∃ r, compareTo s x = .ok r ∧ (r < 0 ↔ lexLt (cText s) (cText x)) ∧ (r = 0 ↔ cText s = cText x) ∧
      (0 < r ↔ lexLt (cText x) (cText s))) := by
  refine ⟨?_, ?_, ?_, ?_⟩
  · rintro h rfl
    have : s ≠ [] := by rintro rfl; exact absurd h (Nat.lt_irrefl _)
    have hpos := List.length_pos_iff.mpr this
    rw [compareTo, if_pos (by simpa using hpos), charAt, List.length_nil, sub16_of_lt (by omega) (by omega),
      List.getElem?_eq_none (by omega)]
    rfl
  · intro c h hne hc
    have hpos := List.length_pos_iff.mpr hne
    rw [compareTo, if_pos h, charAt, sub16_of_le (by omega) (by omega), hc]
    rfl
  · intro c h hc
    have hpos : 0 < x.length := by omega
    rw [compareTo, if_neg (by omega), if_pos h, charAt, sub16_of_le (by omega) (by omega), ← List.getLast?_eq_getElem?, hc]
    rfl
  · intro h
    rw [compareTo, if_neg (by omega), if_neg (by omega)]
    refine ⟨_, rfl, ?_⟩
    have irr : ∀ l, ¬ lexLt l l := fun l hh => shortlex_irrefl l (.inr ⟨rfl, hh⟩)
    have asym : ∀ {a b}, lexLt a b → ¬ lexLt b a := fun h1 h2 => irr _ (lexLt_trans h1 h2)
    rcases strncmp_cText s x h with ⟨h1, h2⟩ | ⟨h1, h2⟩ | ⟨h1, h2⟩
    · rw [h1]
      refine ⟨⟨fun _ => h2, fun _ => by decide⟩, ⟨fun h => by omega, fun h => absurd (h ▸ h2) (irr _)⟩,
        ⟨fun h => by omega, fun h => absurd h (asym h2)⟩⟩
    · rw [h1, h2]
      exact ⟨⟨fun h => by omega, fun h => absurd h (irr _)⟩, ⟨fun _ => rfl, fun _ => rfl⟩,
        ⟨fun h => by omega, fun h => absurd h (irr _)⟩⟩
    · rw [h1]
      refine ⟨⟨fun h => by omega, fun h => absurd h (asym h2)⟩, ⟨fun h => by omega, fun h => absurd (h ▸ h2) (irr _)⟩,
        ⟨fun _ => h2, fun _ => by decide⟩⟩

example : cText [0x61#8, 0x00#8, 0x62#8] = [0x61#8] ∧ lexLt (cText [0x61#8, 0xFF#8]) (cText [0x62#8, 0x00#8]) :=
  ⟨by decide, .inl (by decide)⟩

/-! ### C23 -/

/-- **C23** (full): character `i` of `substring(from, to)` is character `min(from, n) + i` of the string, up to
`min(max(to, from), n)`. -/
theorem C23_substring (s : List Byte) (a b : Nat) :
    (substring s a b).length = min (max b a) s.length - min a s.length ∧
    ∀ i, i < (substring s a b).length → (substring s a b)[i]? = s[min a s.length + i]? := by
  rw [substring]
  have hlen : ((s.drop (min a s.length)).take (min s.length (max b (min a s.length)) - min a s.length)).length =
      min (max b a) s.length - min a s.length := by
    rw [List.length_take, List.length_drop]
    omega
  refine ⟨hlen, ?_⟩
  intro i hi
  rw [List.length_take] at hi
  rw [List.getElem?_take_of_lt (by omega), List.getElem?_drop]

/-- **C23**, in-range bounds: the string is what is before, the substring, and what is after. -/
theorem C23_substring_in_range (s : List Byte) (a b : Nat) (hab : a ≤ b) (hb : b ≤ s.length) :
    ∃ p q, s = p ++ substring s a b ++ q ∧ p.length = a ∧ (substring s a b).length = b - a := by
  rw [substring_eq s hab hb]
  refine ⟨s.take a, s.drop b, ?_, by simp; omega, by simp; omega⟩
  rw [List.append_assoc, cur_end s hab, List.take_append_drop]

example : substring [1#8, 2#8, 3#8, 4#8] 1 3 = [2#8, 3#8] ∧ substring [1#8, 2#8] 5 1 = [] := by decide +kernel

/-! ### C24 -/

/-- **C24**, single characters (full): the first position. -/
theorem C24_indexOf_char (s : List Byte) (c : Byte) (from' : Nat) :
    (∀ j, indexOfChar s c from' = some j ↔ from' ≤ j ∧ s[j]? = some c ∧ ∀ l, from' ≤ l → l < j → s[l]? ≠ some c) ∧
    (indexOfChar s c from' = none ↔ ∀ l, from' ≤ l → s[l]? ≠ some c) := by
  have hlt : ∀ l, s[l]? = some c → l < s.length := fun l h => (List.getElem?_eq_some_iff.mp h).1
  have key : (∀ j, indexOfChar s c from' = some j → from' ≤ j ∧ s[j]? = some c ∧ ∀ l, from' ≤ l → l < j → s[l]? ≠ some c) ∧
      (indexOfChar s c from' = none → ∀ l, from' ≤ l → s[l]? ≠ some c) := by
    rw [indexOfChar]
    split
    · exact ⟨fun j h => (by cases h), fun _ l h1 h2 => (by have := hlt l h2; omega)⟩
    · obtain ⟨h1, h2⟩ := indexOfCharLoop_spec s c (s.length - from') from'
      refine ⟨fun j hj => ?_, fun hn l hl hc => ?_⟩
      · obtain ⟨a, _, b, d⟩ := h1 j hj
        exact ⟨a, b, d⟩
      · have := hlt l hc
        exact h2 hn l hl (by omega) hc
  obtain ⟨k1, k2⟩ := key
  refine ⟨fun j => ⟨k1 j, fun ⟨h1, h2, h3⟩ => ?_⟩, k2, fun h => ?_⟩
  · cases hr : indexOfChar s c from' with
    | none => exact absurd h2 (k2 hr j h1)
    | some j' =>
      obtain ⟨a, b, d⟩ := k1 j' hr
      rcases Nat.lt_trichotomy j j' with h | h | h
      · exact absurd h2 (d j h1 h)
      · rw [h]
      · exact absurd b (h3 j' a h)
  · cases hr : indexOfChar s c from' with
    | none => rfl
    | some j' =>
      obtain ⟨a, b, d⟩ := k1 j' hr
      exact absurd b (h j' a)

/-- **C24**, single characters (full): the last position. -/
theorem C24_lastIndexOf_char (s : List Byte) (c : Byte) (from' : Nat) :
    (∀ j, lastIndexOfChar s c from' = some j ↔ from' ≤ j ∧ s[j]? = some c ∧ ∀ l, j < l → s[l]? ≠ some c) ∧
    (lastIndexOfChar s c from' = none ↔ ∀ l, from' ≤ l → s[l]? ≠ some c) := by
  have hlt : ∀ l, s[l]? = some c → l < s.length := fun l h => (List.getElem?_eq_some_iff.mp h).1
  have key : (∃ j, lastIndexOfChar s c from' = some j ∧ from' ≤ j ∧ s[j]? = some c ∧ ∀ l, j < l → s[l]? ≠ some c) ∨
      (lastIndexOfChar s c from' = none ∧ ∀ l, from' ≤ l → s[l]? ≠ some c) := by
    rw [lastIndexOfChar]
    split
    · exact .inr ⟨rfl, fun l h1 h2 => (by have := hlt l h2; omega)⟩
    · rcases lastIndexOfCharLoop_spec s c (s.length - from') from' none with ⟨j, h1, h2, _, h3, h4⟩ | ⟨h1, h2⟩
      · exact .inl ⟨j, h1, h2, h3, fun l hl hc => h4 l hl (by have := hlt l hc; omega) hc⟩
      · exact .inr ⟨h1, fun l hl hc => h2 l hl (by have := hlt l hc; omega) hc⟩
  rcases key with ⟨j, h1, h2, h3, h4⟩ | ⟨h1, h2⟩
  · rw [h1]
    refine ⟨fun j' => ⟨fun h => (by cases h; exact ⟨h2, h3, h4⟩), fun ⟨a, b, d⟩ => ?_⟩,
      fun h => (by cases h), fun h => absurd h3 (h j h2)⟩
    rcases Nat.lt_trichotomy j j' with h | h | h
    · exact absurd b (h4 j' h)
    · rw [h]
    · exact absurd h3 (d j h)
  · rw [h1]
    exact ⟨fun j => ⟨fun h => (by cases h), fun ⟨a, b, _⟩ => absurd b (h2 j a)⟩, fun _ => h2, fun _ => rfl⟩

theorem rem_eq {s x : List Byte} (hs : s.length < 2 ^ 16) (hx : x ≠ []) (h : x.length ≤ s.length) :
    wrap16 (s.length - x.length + 1) = s.length - x.length + 1 := by
  have := List.length_pos_iff.mpr hx
  exact wrap16_of_lt (by omega)

/-- **C24**, strings (partial: non-empty needle): the result is the first occurrence at or after `from`, nothing is read
outside either string (whatever follows them in memory does not matter). Missing: the empty needle, see below. -/
theorem C24_indexOf_partial (s after x xAfter : List Byte) (from' : Nat) (hs : s.length < 2 ^ 16) (hx : x ≠ []) :
    ∃ r, indexOf s after x xAfter from' = .ok r ∧
      (∀ j, r = some j ↔ from' ≤ j ∧ OccursAt x s j ∧ ∀ l, from' ≤ l → l < j → ¬OccursAt x s l) ∧
      (r = none ↔ ∀ l, from' ≤ l → ¬OccursAt x s l) := by
  have hpos := List.length_pos_iff.mpr hx
  have key : ∃ r, indexOf s after x xAfter from' = .ok r ∧
      (∀ j, r = some j → from' ≤ j ∧ OccursAt x s j ∧ ∀ l, from' ≤ l → l < j → ¬OccursAt x s l) ∧
      (r = none → ∀ l, from' ≤ l → ¬OccursAt x s l) := by
    rw [indexOf]
    by_cases hc : s.length < from' ∨ s.length < x.length ∨ s.length < from' + x.length
    · rw [if_pos hc]
      exact ⟨none, rfl, fun j h => (by cases h), fun _ l hl => not_occurs_of_short (by omega)⟩
    · rw [if_neg hc, rem_eq hs hx (by omega)]
      obtain ⟨r, hr, h1, h2⟩ := indexOfLoop_spec s after x xAfter hs hx (s.length - x.length + 1 - from') from'
        (fun j hj => by omega)
      refine ⟨r, hr, h1, fun hn l hl => ?_⟩
      by_cases hlt : l < from' + (s.length - x.length + 1 - from')
      · exact h2 hn l hl hlt
      · exact not_occurs_of_short (by omega)
  obtain ⟨r, hr, k1, k2⟩ := key
  refine ⟨r, hr, fun j => ⟨k1 j, fun ⟨h1, h2, h3⟩ => ?_⟩, k2, fun h => ?_⟩
  · cases r with
    | none => exact absurd h2 (k2 rfl j h1)
    | some j' =>
      obtain ⟨a, b, d⟩ := k1 j' rfl
      rcases Nat.lt_trichotomy j j' with h | h | h
      · exact absurd h2 (d j h1 h)
      · rw [h]
      · exact absurd b (h3 j' a h)
  · cases r with
    | none => rfl
    | some j' =>
      obtain ⟨a, b, d⟩ := k1 j' rfl
      exact absurd b (h j' a)

/-- **C24**, strings (partial: non-empty needle): `lastIndexOf` gives the last occurrence. -/
theorem C24_lastIndexOf_partial (s after x xAfter : List Byte) (from' : Nat) (hs : s.length < 2 ^ 16) (hx : x ≠ []) :
    ∃ r, lastIndexOf s after x xAfter from' = .ok r ∧
      (∀ j, r = some j ↔ from' ≤ j ∧ OccursAt x s j ∧ ∀ l, j < l → ¬OccursAt x s l) ∧
      (r = none ↔ ∀ l, from' ≤ l → ¬OccursAt x s l) := by
  have hpos := List.length_pos_iff.mpr hx
  have key : ∃ r, lastIndexOf s after x xAfter from' = .ok r ∧
      ((∃ j, r = some j ∧ from' ≤ j ∧ OccursAt x s j ∧ ∀ l, j < l → ¬OccursAt x s l) ∨
       (r = none ∧ ∀ l, from' ≤ l → ¬OccursAt x s l)) := by
    rw [lastIndexOf]
    by_cases hc : s.length < from' ∨ s.length < x.length ∨ s.length < from' + x.length
    · rw [if_pos hc]
      exact ⟨none, rfl, .inr ⟨rfl, fun l hl => not_occurs_of_short (by omega)⟩⟩
    · rw [if_neg hc, rem_eq hs hx (by omega)]
      obtain ⟨r, hr, h⟩ := lastIndexOfLoop_spec s after x xAfter hs hx (s.length - x.length + 1 - from') from' none
        (fun j hj => by omega)
      refine ⟨r, hr, ?_⟩
      have ext : ∀ l, ¬(l < from' + (s.length - x.length + 1 - from')) → ¬OccursAt x s l :=
        fun l hl => not_occurs_of_short (by omega)
      rcases h with ⟨j, h1, h2, h3, h4⟩ | ⟨h1, h2⟩
      · refine .inl ⟨j, h1, h2, h3, fun l hl => ?_⟩
        by_cases hlt : l < from' + (s.length - x.length + 1 - from')
        · exact h4 l hl hlt
        · exact ext l hlt
      · refine .inr ⟨h1, fun l hl => ?_⟩
        by_cases hlt : l < from' + (s.length - x.length + 1 - from')
        · exact h2 l hl hlt
        · exact ext l hlt
  obtain ⟨r, hr, h⟩ := key
  refine ⟨r, hr, ?_⟩
  rcases h with ⟨j, rfl, h2, h3, h4⟩ | ⟨rfl, h2⟩
  · refine ⟨fun j' => ⟨fun h => (by cases h; exact ⟨h2, h3, h4⟩), fun ⟨a, b, d⟩ => ?_⟩,
      fun h => (by cases h), fun h => absurd h3 (h j h2)⟩
    rcases Nat.lt_trichotomy j j' with h | h | h
    · exact absurd b (h4 j' h)
    · rw [h]
    · exact absurd h3 (d j h)
  · exact ⟨fun j => ⟨fun h => (by cases h), fun ⟨a, b, _⟩ => absurd b (h2 j a)⟩, fun _ => h2, fun _ => rfl⟩

example : indexOf [1#8, 2#8, 1#8, 2#8, 3#8] [] [1#8, 2#8] [] 1 = .ok (some 2) ∧
    lastIndexOf [1#8, 2#8, 1#8, 2#8, 3#8] [] [1#8, 2#8] [] 0 = .ok (some 2) ∧
    indexOf [1#8, 2#8] [] [2#8, 1#8] [] 0 = .ok none := by decide +kernel

/-- **C24**, `contains` (partial: non-empty needle): true exactly for the strings that occur somewhere. -/
theorem C24_contains_partial (s after x xAfter : List Byte) (hs : s.length < 2 ^ 16) (hx : x ≠ []) :
    ∃ r, contains s after x xAfter = .ok r ∧ (r = true ↔ ∃ l, OccursAt x s l) := by
  obtain ⟨r, hr, h1, h2⟩ := C24_indexOf_partial s after x xAfter 0 hs hx
  refine ⟨r.isSome, by rw [contains, hr]; rfl, ?_⟩
  cases r with
  | none => exact iff_of_false (by simp) fun ⟨l, hl⟩ => h2.mp rfl l (Nat.zero_le _) hl
  | some j => exact iff_of_true rfl ⟨j, ((h1 j).mp rfl).2.1⟩

example : contains [0x68#8, 0x6c#8, 0x6c#8, 0x6f#8] [] [0x6c#8, 0x6f#8] [] = .ok true := by decide +kernel

/-- **C24, negation**: with an empty needle the code reads the byte behind the needle. -/
theorem C24_empty_needle_reads_outside (s after : List Byte) (hs : s.length + 1 < 2 ^ 16) :
    indexOf s after [] [] 0 = .ub ∧ lastIndexOf s after [] [] 0 = .ub := by
  have h1 : ¬(s.length < 0 ∨ s.length < ([] : List Byte).length ∨ s.length < 0 + ([] : List Byte).length) := by simp
  have h2 : wrap16 (s.length - ([] : List Byte).length + 1) - 0 = s.length + 1 := by
    rw [List.length_nil]; simp only [Nat.sub_zero]; rw [wrap16_of_lt (by omega)]
  have h3 : matchAt s after [] [] 0 = .ub := by
    rw [matchAt]
    cases (s ++ after)[0]? <;> rfl
  constructor
  · rw [indexOf, if_neg h1, h2, indexOfLoop, h3]
  · rw [lastIndexOf, if_neg h1, h2, lastIndexOfLoop, h3]

/-- **C24, negation**: and when there is such a byte, the answer depends on it: the empty needle "does not occur". -/
theorem C24_empty_needle_depends_on_memory :
    indexOf [0x61#8] [0#8] [] [0x61#8] 0 = .ok (some 0) ∧ indexOf [0x61#8] [0#8] [] [0x62#8] 0 = .ok none := by
  decide +kernel

/-! ### C25 and C72 -/

/-- **C25** (full): prefix test. -/
theorem C25_startsWith_iff (s p : List Byte) : startsWith s p = true ↔ p <+: s := by
  rw [startsWith]
  split
  · rename_i h
    exact ⟨fun h => (by cases h), fun hp => (by have := hp.length_le; omega)⟩
  · rename_i h
    have h : p.length ≤ s.length := by omega
    have := equals_substring s p 0 (by omega)
    rw [Nat.zero_add] at this
    rw [this, ← prefix_iff_occurs p s 0 (Nat.zero_le _), List.drop_zero]

/-- **C25** (full): suffix test. -/
theorem C25_endsWith_iff (s x : List Byte) : endsWith s x = true ↔ x <:+ s := by
  rw [endsWith]
  split
  · rename_i h
    exact ⟨fun h => (by cases h), fun hp => (by have := hp.length_le; omega)⟩
  · rename_i h
    rw [equals_iff, substring_end s (by omega)]
    constructor
    · intro he; rw [he]; exact List.drop_suffix _ _
    · rintro ⟨t, rfl⟩
      rw [List.length_append, Nat.add_sub_cancel, List.drop_left]

example : startsWith [1#8, 2#8, 3#8] [1#8, 2#8] = true ∧ endsWith [1#8, 2#8, 3#8] [2#8, 3#8] = true ∧
    startsWith [1#8] [1#8, 2#8] = false ∧ endsWith [1#8, 2#8, 3#8] [1#8] = false := by decide +kernel

/-- **C72**, `endsWith(char)` (full): on a non-empty view it tests the last character; on an empty one whether the
argument is NUL. -/
theorem C72_endsWith_char (null : Bool) (s : List Byte) (c : Byte) (hn : null = true → s = []) :
    endsWithChar null s c = if s = [] then c == 0#8 else s.getLast? == some c := by
  rw [endsWithChar]
  cases s with
  | nil => simp
  | cons x xs =>
    have : null = false := by
      cases null with
      | false => rfl
      | true => cases hn rfl
    subst this
    simp [List.getLast?_eq_getElem?]

/-- **C72**, `startsWith(char)` (partial: the view is non-empty, or is the null view). Missing: an empty view over
existing memory. -/
theorem C72_startsWith_char_partial (null : Bool) (s after : List Byte) (c : Byte) (hn : null = true → s = [])
    (h : null = true ∨ s ≠ []) :
    startsWithChar null s after c = .ok (if s = [] then c == 0#8 else s.head? == some c) := by
  rw [startsWithChar]
  cases null with
  | true => simp [hn rfl]
  | false =>
    rcases h with h | h
    · cases h
    · obtain ⟨x, xs, rfl⟩ := List.exists_cons_of_ne_nil h
      simp

/-- **C72, negation**: an empty view over existing memory is reported to start with the byte behind it, and reads
outside when there is none. -/
theorem C72_startsWith_char_reads_outside (c : Byte) (after : List Byte) :
    startsWithChar false [] (c :: after) c = .ok true ∧ startsWithChar false [] [] c = .ub := by
  simp [startsWithChar]

example : startsWithChar false [0x61#8] [] 0x61#8 = .ok true ∧ endsWithChar false [0x61#8, 0x62#8] 0x62#8 = true := by
  decide +kernel

/-! ### C26 -/

/-- The trimmed string is determined by `IsTrim`. -/
theorem isTrim_nil {p : Byte → Bool} {s t : List Byte} (h : IsTrim p s t) (hs : ∀ c ∈ s, p c = true) : t = [] := by
  obtain ⟨a, b, he, _, _, h3, _⟩ := h
  cases t with
  | nil => rfl
  | cons x xs =>
    have := h3 x rfl
    rw [hs x (by rw [he]; simp)] at this
    cases this

theorem isTrim_unique {p : Byte → Bool} {s t t' : List Byte} (h : IsTrim p s t) (h' : IsTrim p s t') : t = t' := by
  by_cases hs : ∀ c ∈ s, p c = true
  · rw [isTrim_nil h hs, isTrim_nil h' hs]
  · obtain ⟨a, b, he, ha, hb, h3, h4⟩ := h
    obtain ⟨a', b', he', ha', hb', h3', h4'⟩ := h'
    have hne : ∀ {a b t : List Byte}, s = a ++ t ++ b → (∀ c ∈ a, p c = true) → (∀ c ∈ b, p c = true) → t ≠ [] := by
      rintro a b t he ha hb rfl
      apply hs
      intro c hc
      rw [he] at hc
      simp only [List.append_nil, List.mem_append] at hc
      rcases hc with hc | hc
      · exact ha c hc
      · exact hb c hc
    have key : ∀ {a b t a' b' t' : List Byte}, s = a ++ t ++ b → s = a' ++ t' ++ b' → (∀ c ∈ a', p c = true) →
        t ≠ [] → (∀ c, t.head? = some c → p c = false) → a'.length ≤ a.length := by
      intro a b t a' b' t' he he' ha' hne hh
      apply Nat.le_of_not_lt
      intro hlt
      obtain ⟨x, xs, rfl⟩ := List.exists_cons_of_ne_nil hne
      have hx := hh x rfl
      have h1 : s[a.length]? = some x := by rw [he]; simp
      have h2 : s[a.length]? = some a'[a.length] := by
        rw [he', List.append_assoc, List.getElem?_append_left hlt, List.getElem?_eq_getElem hlt]
      rw [h1] at h2
      rw [Option.some.inj h2, ha' _ (List.getElem_mem hlt)] at hx
      cases hx
    have key2 : ∀ {a b t a' b' t' : List Byte}, s = a ++ t ++ b → s = a' ++ t' ++ b' → (∀ c ∈ b', p c = true) →
        t ≠ [] → (∀ c, t.getLast? = some c → p c = false) → b'.length ≤ b.length := by
      intro a b t a' b' t' he he' hb' hne hh
      apply Nat.le_of_not_lt
      intro hlt
      obtain ⟨u, x, rfl⟩ : ∃ u x, t = u ++ [x] := ⟨t.dropLast, t.getLast hne, (List.dropLast_concat_getLast hne).symm⟩
      have hx := hh x (by simp)
      have h1 : s.reverse[b.length]? = some x := by rw [he]; simp
      have hlt' : b.length < b'.reverse.length := by simpa using hlt
      have h2 : s.reverse[b.length]? = some b'.reverse[b.length] := by
        rw [he', List.reverse_append, List.getElem?_append_left hlt', List.getElem?_eq_getElem hlt']
      rw [h1] at h2
      have hmem : b'.reverse[b.length] ∈ b' := List.mem_reverse.mp (List.getElem_mem hlt')
      rw [Option.some.inj h2, hb' _ hmem] at hx
      cases hx
    have hn1 := hne he ha hb
    have hn2 := hne he' ha' hb'
    have e1 : a.length = a'.length := Nat.le_antisymm (key he' he ha hn2 h3') (key he he' ha' hn1 h3)
    have e2 : b.length = b'.length := Nat.le_antisymm (key2 he' he hb hn2 h4') (key2 he he' hb' hn1 h4)
    have hee : a ++ (t ++ b) = a' ++ (t' ++ b') := by rw [← List.append_assoc, ← List.append_assoc, ← he, he']
    have h1 := (List.append_inj hee e1).2
    exact (List.append_inj' h1 e2).1

/-- **C26** (full): `trim()` removes exactly the maximal white-space runs at both ends. -/
theorem C26_trim (s t : List Byte) : IsTrim isSpace s t ↔ t = trim s :=
  ⟨fun h => isTrim_unique h (trimBy_isTrim isSpace s), fun h => by rw [h]; exact trimBy_isTrim isSpace s⟩

/-- The characters taken away: tab, line feed, vertical tab, form feed, carriage return and the space (C17 7.4.1.10, in the "C"
locale), and no other. -/
theorem C26_white (c : Byte) : isSpace c = true ↔ c.toNat ∈ [9, 10, 11, 12, 13, 32] := by
  have : ∀ n : Fin 256, isSpace (BitVec.ofFin n) = true ↔ (BitVec.ofFin n : Byte).toNat ∈ [9, 10, 11, 12, 13, 32] := by
    decide +kernel
  exact this c.toFin

/-- **C26** (full): `trim(c)` removes exactly the maximal runs of `c` at both ends. -/
theorem C26_trim_char (s t : List Byte) (c : Byte) : IsTrim (· == c) s t ↔ t = trimChar s c :=
  ⟨fun h => isTrim_unique h (trimBy_isTrim (· == c) s), fun h => by rw [h]; exact trimBy_isTrim (· == c) s⟩

/-- **C26** (full): trimming is idempotent. -/
theorem C26_trim_idempotent (s : List Byte) (c : Byte) :
    trim (trim s) = trim s ∧ trimChar (trimChar s c) c = trimChar s c := by
  have key : ∀ p : Byte → Bool, trimBy p (trimBy p s) = trimBy p s := by
    intro p
    obtain ⟨a, b, h1, h2, h3, h4, h5⟩ := trimBy_isTrim p s
    exact isTrim_unique (trimBy_isTrim p (trimBy p s)) ⟨[], [], by simp, by simp, by simp, h4, h5⟩
  exact ⟨key _, key _⟩

example : trim [0x20#8, 0x09#8, 0x61#8, 0x20#8, 0x62#8, 0x0A#8] = [0x61#8, 0x20#8, 0x62#8] ∧
    trim [0x20#8, 0x20#8] = [] ∧ trimChar [0x2D#8, 0x61#8, 0x2D#8] 0x2D#8 = [0x61#8] := by decide +kernel

/-! ### C27 and C28 -/

theorem number_getElem? (i n : Nat) (ps : List (List Byte)) (k : Nat) :
    (number i n ps)[k]? = ps[k]?.map fun p => (p, i + k, n) := by
  induction ps generalizing i k with
  | nil => simp [number]
  | cons p ps ih =>
    cases k with
    | zero => simp [number]
    | succ k =>
      simp only [number, List.getElem?_cons_succ, ih]
      have : i + 1 + k = i + (k + 1) := by omega
      rw [this]

/-- **C27** (partial: the reported count is right unless there are 65536 pieces). For a non-empty delimiter both
string-delimiter variants produce the unique splitting around the leftmost non-overlapping occurrences; joining the
pieces gives the string back; no piece contains the delimiter. Missing: the count for 65536 pieces, see below. -/
theorem C27_split_partial (s d : List Byte) (hd : d ≠ []) (hs : s.length < 2 ^ 16) :
    ∃ ps reported calls,
      (∀ fuel, s.length < fuel → split1 fuel s d = some (ps, reported) ∧ split3 fuel s d = some (calls, reported)) ∧
      (∀ qs, IsSplit d s qs ↔ qs = ps) ∧
      d.intercalate ps = s ∧
      (∀ p ∈ ps, ∀ i, ¬OccursAt d p i) ∧
      calls.length = ps.length ∧
      (∀ (i : Nat) p, ps[i]? = some p → calls[i]? = some (p, i, reported)) ∧
      (ps.length ≠ 65536 → reported = ps.length) := by
  have hsp := scan_spec d s hd
  have hle := scan_length_le d [] s hd
  refine ⟨scan d [] s, _, _, fun fuel hf => ⟨split1_eq s d hd hs fuel hf, split3_eq s d hd hs fuel hf⟩,
    fun qs => ⟨fun h => isSplit_unique h hsp, fun h => h ▸ hsp⟩, isSplit_join hsp,
    fun p hp i => isSplit_no_delim hd hsp p hp i, ?_, ?_, ?_⟩
  · rw [← List.length_map (f := Prod.fst), number_fst]
  · intro i p hp
    rw [number_getElem?, hp]
    simp
  · intro hne
    exact wrap16_of_lt (by omega)

/-- **C27**, splitting by a character (partial: same limit on the count): same pieces as by the one-character string. -/
theorem C27_splitChar_partial (s : List Byte) (c : Byte) (hs : s.length < 2 ^ 16) :
    (∀ qs, IsSplit [c] s qs ↔ qs = (splitChar s c).1) ∧
    [c].intercalate (splitChar s c).1 = s ∧
    (∀ p ∈ (splitChar s c).1, c ∉ p) ∧
    ((splitChar s c).1.length ≠ 65536 → (splitChar s c).2 = (splitChar s c).1.length) := by
  have hd : [c] ≠ [] := by simp
  have hsp := scan_spec [c] s hd
  have hle := scan_length_le [c] [] s hd
  rw [splitChar_eq s c hs]
  refine ⟨fun qs => ⟨fun h => isSplit_unique h hsp, fun h => h ▸ hsp⟩, isSplit_join hsp, ?_, ?_⟩
  · intro p hp hc
    obtain ⟨a, b, rfl⟩ := List.append_of_mem hc
    exact isSplit_no_delim hd hsp _ hp a.length ⟨a, b, by simp, rfl⟩
  · intro hne
    exact wrap16_of_lt (by simp only at hne; omega)

example : (splitChar [0x61#8, 0x2C#8, 0x2C#8, 0x62#8] 0x2C#8) = ([[0x61#8], [], [0x62#8]], 3) ∧
    split1 10 [0x61#8, 0x2C#8, 0x2C#8, 0x62#8] [0x2C#8, 0x2C#8] = some ([[0x61#8], [0x62#8]], 2) ∧
    split3 10 [0x61#8, 0x2C#8, 0x2C#8, 0x62#8] [0x2C#8] =
      some ([([0x61#8], 0, 3), ([], 1, 3), ([0x62#8], 2, 3)], 3) := by decide +kernel

theorem scan_replicate (c : Byte) (n : Nat) : scan [c] [] (List.replicate n c) = List.replicate (n + 1) [] := by
  induction n with
  | zero => rw [List.replicate_zero, scan_nil _ _ (by simp)]; rfl
  | succ n ih =>
    have hp : [c] <+: c :: List.replicate n c := ⟨List.replicate n c, rfl⟩
    rw [List.replicate_succ, scan_match (by simp) hp]
    rw [List.length_singleton, List.drop_one, List.tail_cons, ih]
    rfl

/-- **C27, negation**: a string of 65535 delimiters is split into 65536 pieces, the reported count is 0. -/
theorem C27_count_wraps (c : Byte) :
    ∃ s : List Byte, s.length < 2 ^ 16 ∧ (splitChar s c).1.length = 65536 ∧ (splitChar s c).2 = 0 := by
  have hl : (List.replicate 65535 c).length < 2 ^ 16 := by rw [List.length_replicate]; omega
  refine ⟨List.replicate 65535 c, hl, ?_⟩
  rw [splitChar_eq _ c hl, scan_replicate]
  simp only [List.length_replicate]
  exact ⟨trivial, by rw [wrap16_def]⟩

/-- **C28** (partial: the three-argument variant needs a non-empty delimiter or an empty string). The other two variants
always return: a number of loop iterations bounded by the length is enough. -/
theorem C28_terminates_partial (s d : List Byte) (hs : s.length < 2 ^ 16) (fuel : Nat) (hf : s.length < fuel) :
    (split1 fuel s d).isSome ∧ ((d ≠ [] ∨ s = []) → (split3 fuel s d).isSome) := by
  constructor
  · by_cases hd : d = []
    · subst hd
      rw [split1]
      simp
    · rw [split1_eq s d hd hs fuel hf]; rfl
  · rintro h
    by_cases hd : d = []
    · have hs : s = [] := by
        rcases h with h | h
        · exact absurd hd h
        · exact h
      subst hd hs
      match fuel, hf with
      | fuel + 1, _ => rfl
    · rw [split3_eq s d hd hs fuel hf]; rfl

theorem split3Count_diverges (s : List Byte) (fuel i n : Nat) (hi : i < s.length) (hs : s.length < 2 ^ 16) :
    split3Count s [] fuel i n = none := by
  induction fuel generalizing n with
  | zero => rfl
  | succ fuel ih =>
    have hsub : substring s i (wrap16 (i + ([] : List Byte).length)) = [] := by
      rw [List.length_nil, Nat.add_zero, wrap16_of_lt (by omega), substring_eq s (Nat.le_refl _) (by omega)]
      simp
    have hnext : wrap16 (sub16 (i + ([] : List Byte).length) 1 + 1) = i := by
      rw [List.length_nil]
      by_cases h0 : i = 0
      · subst h0
        rw [sub16_of_lt (by omega) (by omega), wrap16_def]
      · rw [sub16_of_le (by omega) (by omega), Nat.sub_add_cancel (by omega), wrap16_of_lt (by omega), Nat.add_zero]
    rw [split3Count, if_pos ⟨hi, by simp; omega⟩, hsub, if_pos (equals_self _), hnext]
    exact ih _

/-- **C28, negation**: the three-argument variant never returns for a non-empty string and an empty delimiter: no
number of loop iterations is enough. -/
theorem C28_empty_delimiter_diverges (s : List Byte) (hne : s ≠ []) (hs : s.length < 2 ^ 16) (fuel : Nat) :
    split3 fuel s [] = none := by
  rw [split3, split3Count_diverges s fuel 0 0 (List.length_pos_iff.mpr hne) hs]

/-- **C28**, what the one-argument variant does for the empty delimiter: one piece per character. -/
theorem C28_empty_delimiter_chars (s : List Byte) (hs : s.length < 2 ^ 16) (fuel : Nat) :
    split1 fuel s [] = some (s.map fun c => [c], s.length) := by
  rw [split1, if_neg (by simp), if_pos (by simp)]
  congr 2
  apply List.ext_getElem?
  intro i
  by_cases hi : i < s.length
  · rw [List.getElem?_map, List.getElem?_map, List.getElem?_range hi, List.getElem?_eq_getElem hi, Option.map_some,
      Option.map_some, wrap16_of_lt (by omega), substring_eq s (by omega) (by omega), Nat.add_sub_cancel_left,
      List.take_one, List.head?_drop, List.getElem?_eq_getElem hi]
    rfl
  · rw [List.getElem?_eq_none (by simpa using hi), List.getElem?_eq_none (by simpa using hi)]

end Solace.StringView
