import Verif.Lemmas.Decimal
import Verif.Spec.Numeral
import Verif.Props.C37_C39_Uuid
import Verif.Props.C40_C41_Exact
import Verif.Props.C34_C36_Version
import Verif.Spec.Rfc4648
/-
C112: the texts of values, compared as strings, are in the order of the values.
-/
namespace Solace.Decimal
open Strings

theorem fold_value (cs : List Byte) : ∀ a n, cs.foldlM (fun a c => (digitValue? c).map (10 * a + ·)) a = some n →
    n = a * 10 ^ cs.length + Numeral.value cs ∧ ∀ c ∈ cs, 0x30 ≤ c.toNat ∧ c.toNat ≤ 0x39 := by
  induction cs with
  | nil => intro a n h; simp at h; simp [Numeral.value, h]
  | cons c cs ih =>
    intro a n h
    rw [List.foldlM_cons] at h
    cases hd : digitValue? c with
    | none => rw [hd] at h; simp at h
    | some d =>
      rw [hd] at h
      obtain ⟨h1, h2⟩ := ih _ _ h
      rw [digitValue?] at hd
      split at hd
      · rename_i hc
        have hd := Option.some.inj hd
        refine ⟨?_, fun x hx => ?_⟩
        · rw [h1, Numeral.value, List.length_cons, Nat.pow_succ, ← hd, Nat.add_mul, Nat.mul_comm 10 a, Nat.mul_assoc,
            Nat.mul_comm 10, Nat.add_assoc]
        · rcases List.mem_cons.mp hx with e | e
          · rw [e]; exact hc
          · exact h2 x e
      · cases hd

theorem numeral_lt (cs : List Byte) (h : ∀ c ∈ cs, 0x30 ≤ c.toNat ∧ c.toNat ≤ 0x39) : Numeral.value cs < 10 ^ cs.length := by
  induction cs with
  | nil => simp [Numeral.value]
  | cons c cs ih =>
    have h1 := h c (List.mem_cons_self ..)
    have h2 := ih fun x hx => h x (List.mem_cons_of_mem _ hx)
    rw [Numeral.value, List.length_cons, Nat.pow_succ]
    have : (c.toNat - 0x30) * 10 ^ cs.length ≤ 9 * 10 ^ cs.length := Nat.mul_le_mul_right _ (by omega)
    omega

theorem numeral_lexLt : ∀ (a b : List Byte), a.length = b.length → (∀ c ∈ a, 0x30 ≤ c.toNat ∧ c.toNat ≤ 0x39) →
    (∀ c ∈ b, 0x30 ≤ c.toNat ∧ c.toNat ≤ 0x39) → lexLt a b → Numeral.value a < Numeral.value b
  | [], [], _, _, _, h => by simp [lexLt] at h
  | x :: xs, y :: ys, hl, ha, hb, h => by
    have hlen : xs.length = ys.length := by simpa using hl
    have h1 := numeral_lt xs fun c hc => ha c (List.mem_cons_of_mem _ hc)
    have hx := ha x (List.mem_cons_self ..)
    have hy := hb y (List.mem_cons_self ..)
    rw [Numeral.value, Numeral.value, hlen]
    rw [hlen] at h1
    rcases h with h | ⟨rfl, h⟩
    · have : (x.toNat - 0x30 + 1) * 10 ^ ys.length ≤ (y.toNat - 0x30) * 10 ^ ys.length := Nat.mul_le_mul_right _ (by omega)
      rw [Nat.add_mul] at this
      omega
    · have := numeral_lexLt xs ys hlen (fun c hc => ha c (List.mem_cons_of_mem _ hc))
        (fun c hc => hb c (List.mem_cons_of_mem _ hc)) h
      omega

/-- Decimal notations in shortlex order have values in order. -/
theorem shortlex_lt {m n : Nat} {s t : List Byte} (hs : IsDecimal m s) (ht : IsDecimal n t) (h : shortlexLt s t) : m < n := by
  obtain ⟨e1, d1⟩ := fold_value s 0 m hs.2.1
  obtain ⟨e2, d2⟩ := fold_value t 0 n ht.2.1
  rw [Nat.zero_mul, Nat.zero_add] at e1 e2
  rw [e1, e2]
  rcases h with h | ⟨h1, h2⟩
  · have hv := numeral_lt s d1
    have hsl : 0 < s.length := List.length_pos_iff.mpr hs.1
    match t, ht, h, d2 with
    | y :: ys, ht, h, d2 =>
      have hy := d2 y (List.mem_cons_self ..)
      have hne : y.toNat ≠ 0x30 := fun e => by
        have : y = digit 0 := BitVec.eq_of_toNat_eq (by rw [e]; rfl)
        have := ht.2.2 (by rw [this]; rfl)
        rw [this] at h
        omega
      rw [List.length_cons] at h
      rw [Numeral.value]
      have h1 : 10 ^ s.length ≤ 10 ^ ys.length := Nat.pow_le_pow_right (by omega) (by omega)
      have h2 : 1 * 10 ^ ys.length ≤ (y.toNat - 0x30) * 10 ^ ys.length := Nat.mul_le_mul_right _ (by omega)
      omega
  · exact numeral_lexLt s t h1 d1 d2 h2

theorem shortlex_iff {m n : Nat} {s t : List Byte} (hs : IsDecimal m s) (ht : IsDecimal n t) :
    (shortlexLt s t ↔ m < n) ∧ (s = t ↔ m = n) := by
  have heq : s = t ↔ m = n :=
    ⟨fun e => by
      have h1 := hs.2.1; have h2 := ht.2.1
      rw [e, h2] at h1
      exact (Option.some.inj h1).symm, fun e => isDecimal_unique hs (e ▸ ht)⟩
  refine ⟨⟨shortlex_lt hs ht, fun h => ?_⟩, heq⟩
  rcases StringView.C22_shortlex_total s t with h' | h' | h'
  · exact h'
  · have := heq.mp h'; omega
  · have := shortlex_lt ht hs h'; omega

end Solace.Decimal

namespace Solace.StringView
open Strings

instance (s : List Byte) : Decidable (Plain s) := by unfold Plain; infer_instance

/-- `a` compares to `b` as the proposition `lt` (and `gt` the other way round) and the proposition `eq` say. -/
def ComparesAs (a b : List Byte) (lt eq gt : Prop) : Prop :=
  ∃ r, compareTo a b = .ok r ∧ (r < 0 ↔ lt) ∧ (r = 0 ↔ eq) ∧ (0 < r ↔ gt)

/-- **C112**, numbers (full): the decimal texts of unsigned numbers compare, as strings, like the numbers. -/
theorem C112_decimal (m n : Nat) (hm : m < 2 ^ 64) (hn : n < 2 ^ 64) :
    ComparesAs (decimalText m) (decimalText n) (m < n) (m = n) (n < m) := by
  have hs := Decimal.decimalText_spec hm
  have ht := Decimal.decimalText_spec hn
  have plain : ∀ {k : Nat}, k < 2 ^ 64 → Plain (decimalText k) := by
    intro k hk c hc
    obtain ⟨d, hd, e⟩ := Decimal.decimalText_digits hk c hc
    rw [e, Decimal.digit, BitVec.toNat_ofNat]
    omega
  have len : ∀ k, (decimalText k).length < 2 ^ 16 := by
    intro k
    have : ∀ f n, (decimalDigits f n).length ≤ f := by
      intro f
      induction f with
      | zero => intro n; simp [decimalDigits]
      | succ f ih =>
        intro n
        rw [decimalDigits]
        split
        · simp
        · rw [List.length_append, List.length_singleton]; have := ih (n / 10); omega
    have := this 20 k
    rw [decimalText]; omega
  obtain ⟨r, h1, h2, h3, h4⟩ := C22_shortlex_partial _ _ (plain hm) (plain hn) (len m) (len n) (.inl ht.1)
  exact ⟨r, h1, h2.trans (Decimal.shortlex_iff hs ht).1, h3.trans (Decimal.shortlex_iff hs ht).2,
    h4.trans (Decimal.shortlex_iff ht hs).1⟩

theorem hexText_length (a : List Byte) : (Hex.text a).length = 2 * a.length := by
  induction a with
  | nil => rfl
  | cons b a ih =>
    show (Hex.digit (b.toNat / 16) :: Hex.digit (b.toNat % 16) :: Hex.text a).length = _
    rw [List.length_cons, List.length_cons, ih, List.length_cons]; omega

theorem hexText_plain (a : List Byte) : Plain (Hex.text a) := by
  intro c hc
  obtain ⟨b, -, hb⟩ := List.mem_flatMap.mp hc
  have hd : ∀ n, n < 16 → 0 < (Hex.digit n).toNat ∧ (Hex.digit n).toNat < 128 := by decide
  have := b.isLt
  simp only [List.mem_cons, List.not_mem_nil, or_false] at hb
  rcases hb with e | e
  · rw [e]; exact hd _ (by omega)
  · rw [e]; exact hd _ (by omega)

theorem hexText_shortlex (a b : List Byte) : shortlexLt (Hex.text a) (Hex.text b) ↔ shortlexLt a b := by
  rw [shortlexLt, shortlexLt, hexText_length, hexText_length]
  by_cases h : a.length = b.length
  · rw [Uuid.hexText_lexLt a b h]
    exact ⟨fun h' => h'.elim (fun h' => .inl (by omega)) (fun h' => .inr ⟨h, h'.2⟩),
      fun h' => h'.elim (fun h' => .inl (by omega)) (fun h' => .inr ⟨by omega, h'.2⟩)⟩
  · constructor
    · rintro (h' | ⟨h', -⟩) <;> first | exact .inl (by omega) | omega
    · rintro (h' | ⟨h', -⟩)
      · exact .inl (by omega)
      · exact absurd h' h

theorem hexText_inj (a b : List Byte) : Hex.text a = Hex.text b ↔ a = b := by
  refine ⟨fun h => ?_, fun h => by rw [h]⟩
  rcases C22_shortlex_total a b with h' | h' | h'
  · rw [← hexText_shortlex, h] at h'
    exact absurd h' (shortlex_irrefl _)
  · exact h'
  · rw [← hexText_shortlex, h] at h'
    exact absurd h' (shortlex_irrefl _)

/-- **C112**, hexadecimal text (full): the base16 texts of byte strings that are not empty compare, as strings, like the bytes: the
shorter one is smaller, equally long ones are compared byte by byte as unsigned numbers. -/
theorem C112_hex (a b : List Byte) (hb : b ≠ []) (ha' : a.length < 2 ^ 15) (hb' : b.length < 2 ^ 15) :
    ComparesAs (Hex.text a) (Hex.text b) (shortlexLt a b) (a = b) (shortlexLt b a) := by
  obtain ⟨r, h1, h2, h3, h4⟩ := C22_shortlex_partial _ _ (hexText_plain a) (hexText_plain b)
    (by rw [hexText_length]; omega) (by rw [hexText_length]; omega) (.inl fun e => by
      have := hexText_length b
      rw [e] at this
      exact hb (List.length_eq_zero_iff.mp (by simp at this; omega)))
  exact ⟨r, h1, h2.trans (hexText_shortlex a b), h3.trans (hexText_inj a b), h4.trans (hexText_shortlex b a)⟩

/-- **C112**, UUIDs (full): their texts compare, as strings, like the UUIDs. -/
theorem C112_uuid (a b : List Byte) (ha : a.length = 16) (hb : b.length = 16) :
    ComparesAs (Uuid.text a) (Uuid.text b) (Uuid.lt a b = true) (Uuid.equals a b = true) (Uuid.gt a b = true) := by
  have la := Uuid.text_length' a ha
  have lb := Uuid.text_length' b hb
  have plain : ∀ u : List Byte, u.length = 16 → Plain (Uuid.text u) := by
    intro u hu c hc
    rcases (Uuid.text_canonical u hu).2 c hc with e | e
    · rw [e]; decide
    · unfold Hex.IsLowerDigit at e; omega
  have sl : ∀ u v : List Byte, u.length = 16 → v.length = 16 → (shortlexLt (Uuid.text u) (Uuid.text v) ↔ Uuid.lt u v = true) := by
    intro u v hu hv
    rw [Uuid.lt_iff u v (by omega), ← Uuid.text_lexLt u v hu hv, shortlexLt, Uuid.text_length' u hu, Uuid.text_length' v hv]
    simp
  obtain ⟨r, h1, h2, h3, h4⟩ := C22_shortlex_partial _ _ (plain a ha) (plain b hb) (by omega) (by omega)
    (.inl fun e => by rw [e] at lb; cases lb)
  refine ⟨r, h1, h2.trans (sl a b ha hb), h3.trans ?_, h4.trans (sl b a hb ha)⟩
  rw [Uuid.equals_iff' a b (by omega)]
  refine ⟨fun e => ?_, fun e => by rw [e]⟩
  rcases Uuid.memcmp_spec a b (by omega) with ⟨_, h⟩ | ⟨_, h⟩ | ⟨_, h⟩
  · rw [← Uuid.text_lexLt a b ha hb, e] at h; exact absurd h (Uuid.lexLt_irrefl _)
  · exact h
  · rw [← Uuid.text_lexLt b a hb ha, e] at h; exact absurd h (Uuid.lexLt_irrefl _)

/-- **C112**, atoms: two names of ASCII characters, equally long, compare as strings like the atoms made of them. Missing: names
of different length, see `C112_atom_length`. -/
theorem C112_atom_partial (s t : List Byte) (hs : Plain s) (ht : Plain t) (hl : s.length = t.length) (h8 : s.length ≤ 8) :
    ∃ a b, Atom.tryParse s = .ok a ∧ Atom.tryParse t = .ok b ∧
      ComparesAs s t (a.toNat < b.toNat) (a = b) (b.toNat < a.toNat) := by
  have key : ∀ x : List Byte, Plain x → Atom.Storable x ∨ 8 < x.length := by
    intro x hx
    by_cases h : x.length ≤ 8
    · exact .inl ⟨h, fun c hc e => by have := (hx c hc).1; rw [e] at this; simp at this,
        fun c hc => (hx c (List.mem_of_mem_tail hc)).2⟩
    · exact .inr (by omega)
  have hs' := (key s hs).resolve_right (by omega)
  have ht' := (key t ht).resolve_right (by omega)
  refine ⟨Atom.wrap s, Atom.wrap t, by rw [Atom.tryParse, if_neg (by omega)], by rw [Atom.tryParse, if_neg (by omega)], ?_⟩
  have vs := Atom.wrap_storable s hs' [] (.inl rfl)
  have vt := Atom.wrap_storable t ht' [] (.inl rfl)
  rw [List.append_nil] at vs vt
  have pv : ∀ x : List Byte, Atom.value (Atom.pad x) = Atom.value x * 256 ^ (8 - x.length) := by
    intro x
    rw [Atom.pad, Atom.value_append, Atom.value_zeros, List.length_replicate, Nat.add_zero]
  rw [pv] at vs vt
  have hpos : 0 < 256 ^ (8 - t.length) := Nat.pow_pos (by omega)
  have lt1 : (Atom.wrap s).toNat < (Atom.wrap t).toNat ↔ shortlexLt s t := by
    rw [vs, vt, hl, Nat.mul_lt_mul_right hpos, Atom.value_lexLt s t hl, shortlexLt, hl]; simp
  have lt2 : (Atom.wrap t).toNat < (Atom.wrap s).toNat ↔ shortlexLt t s := by
    rw [vs, vt, hl, Nat.mul_lt_mul_right hpos, Atom.value_lexLt t s hl.symm, shortlexLt, hl]; simp
  obtain ⟨r, h1, h2, h3, h4⟩ := C22_shortlex_partial s t hs ht (by omega) (by omega) (by
    cases t with
    | nil => exact .inr (List.length_eq_zero_iff.mp hl)
    | cons => exact .inl (by simp))
  refine ⟨r, h1, h2.trans lt1.symm, h3.trans ⟨fun e => by rw [e], fun e => ?_⟩, h4.trans lt2.symm⟩
  rcases C22_shortlex_total s t with h | h | h
  · have := lt1.mpr h; rw [e] at this; omega
  · exact h
  · have := lt2.mpr h; rw [e] at this; omega

/-- **C112**: not so for names of different length. As a string "b" is before "aa" (it is shorter); as an atom it is after. -/
theorem C112_atom_length :
    (∃ r, compareTo [0x62#8] [0x61#8, 0x61#8] = .ok r ∧ r < 0) ∧
    ∃ a b, Atom.tryParse [0x62#8] = .ok a ∧ Atom.tryParse [0x61#8, 0x61#8] = .ok b ∧ b.toNat < a.toNat := by
  refine ⟨?_, Atom.wrap [0x62#8], Atom.wrap [0x61#8, 0x61#8], rfl, rfl, by decide +kernel⟩
  obtain ⟨r, h1, h2, -, -⟩ := C22_shortlex_partial [0x62#8] [0x61#8, 0x61#8] (by decide) (by decide) (by decide) (by decide) (by decide)
  exact ⟨r, h1, h2.mpr (.inl (by decide))⟩

/-- **C112**: not so for base64, whose alphabet is not in the order of the characters: the byte 0 is before the byte 0xF8, but
"AA==" is after "+A==". -/
theorem C112_base64 :
    shortlexLt [0x00#8] [0xF8#8] ∧
    ∃ r, compareTo (Rfc4648.text false [0x00#8]) (Rfc4648.text false [0xF8#8]) = .ok r ∧ 0 < r := by
  have e1 : Rfc4648.text false [0x00#8] = [0x41#8, 0x41#8, 0x3D#8, 0x3D#8] := by decide +kernel
  have e2 : Rfc4648.text false [0xF8#8] = [0x2B#8, 0x41#8, 0x3D#8, 0x3D#8] := by decide +kernel
  rw [e1, e2]
  obtain ⟨r, h1, -, -, h4⟩ := C22_shortlex_partial [0x41#8, 0x41#8, 0x3D#8, 0x3D#8] [0x2B#8, 0x41#8, 0x3D#8, 0x3D#8] (by decide)
    (by decide) (by decide) (by decide) (by decide)
  exact ⟨.inr ⟨rfl, .inl (by decide)⟩, r, h1, h4.mpr (.inr ⟨rfl, .inl (by decide)⟩)⟩

/-- **C112**: not so for versions: 9.10.10 is before 10.0.0, but its text is longer. -/
theorem C112_version :
    Version.gt ⟨10, 0, 0, [], []⟩ ⟨9, 10, 10, [], []⟩ = true ∧
    ∃ r, compareTo (Version.text ⟨10, 0, 0, [], []⟩) (Version.text ⟨9, 10, 10, [], []⟩) = .ok r ∧ r < 0 := by
  have e1 : Version.text ⟨10, 0, 0, [], []⟩ = [0x31#8, 0x30#8, 0x2E#8, 0x30#8, 0x2E#8, 0x30#8] := by decide +kernel
  have e2 : Version.text ⟨9, 10, 10, [], []⟩ = [0x39#8, 0x2E#8, 0x31#8, 0x30#8, 0x2E#8, 0x31#8, 0x30#8] := by decide +kernel
  rw [e1, e2]
  obtain ⟨r, h1, h2, -, -⟩ := C22_shortlex_partial [0x31#8, 0x30#8, 0x2E#8, 0x30#8, 0x2E#8, 0x30#8]
    [0x39#8, 0x2E#8, 0x31#8, 0x30#8, 0x2E#8, 0x31#8, 0x30#8] (by decide) (by decide) (by decide) (by decide) (by decide)
  exact ⟨rfl, r, h1, h2.mpr (.inl (by decide))⟩

example : ComparesAs (decimalText 9) (decimalText 10) (9 < 10) (9 = 10) (10 < 9) := C112_decimal 9 10 (by decide) (by decide)
example : ∃ r, compareTo (decimalText 99) (decimalText 123) = .ok r ∧ r < 0 := by
  obtain ⟨r, h, h', -⟩ := C112_decimal 99 123 (by decide) (by decide)
  exact ⟨r, h, h'.mpr (by decide)⟩
example : ([0x80#8] : List Byte) ≠ [] ∧ shortlexLt [0x7F#8] [0x80#8] := ⟨by decide, .inr ⟨rfl, .inl (by decide)⟩⟩
example : Plain [0x61#8, 0x62#8] ∧ Plain [0x61#8, 0x63#8] := by decide

end Solace.StringView
