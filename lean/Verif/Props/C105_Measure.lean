import Verif.Model.StringBuilderMeasure
import Verif.Props.C32_C33_StringBuilder
import Verif.Props.C67_Exception
/-
C105: the sizes a string builder announces are the room its appends need.
-/
namespace Solace.StringBuilder
open ByteWriter

/-- An item with its text (`IsText`, C32). -/
abbrev Texts := List (Item × List Byte)

/-- The sum of the announced sizes. -/
def announced (its : Texts) : Nat := (its.map fun p => measure p.1).sum

/-- The last text that is not empty is that of a number. -/
def EndsInNumber (its : Texts) : Prop := ∃ a n t b, its = a ++ (Item.number n, t) :: b ∧ ∀ p ∈ b, p.2 = []

theorem nonNegative_length (t : List Byte) (h : t.length < 2 ^ 16) : nonNegative t.length = t.length := by
  rw [nonNegative]
  by_cases h0 : t = []
  · rw [if_neg (by rw [h0]; decide), h0]; rfl
  · have : 0 < t.length := List.length_pos_iff.mpr h0
    rw [if_pos (by omega), Int.toNat_natCast, wrap16_of_lt h]

theorem decimalDigits_length (fuel n : Nat) : (decimalDigits fuel n).length ≤ fuel := by
  induction fuel generalizing n with
  | zero => exact Nat.le_refl 0
  | succ f ih =>
    rw [decimalDigits]
    split
    · rw [List.length_singleton]; omega
    · rw [List.length_append, List.length_singleton]; have := ih (n / 10); omega

theorem decimalText_length (n : Nat) : (decimalText n).length ≤ 20 := decimalDigits_length 20 n

/-- **C105**, numbers: the announced size of an unsigned number of at most 64 bits is the length of its decimal notation. -/
theorem C105_unsigned (n : Nat) (h : n < 2 ^ 64) (t : List Byte) (ht : Decimal.IsDecimal n t) :
    measureUnsigned n = t.length := by
  have h20 := decimalText_length n
  rw [measureUnsigned, nonNegative_length _ (by omega), Decimal.isDecimal_unique ht (Decimal.decimalText_spec h)]

/-- **C105**, signed numbers: the announced size of a number of at most 64 bits is the length of its decimal notation, with
the minus sign of a negative one. -/
theorem C105_signed (n : Int) (h : -2 ^ 63 ≤ n ∧ n < 2 ^ 63) (t : List Byte)
    (ht : Exn.IsSigned n t) :
    measureSigned n = t.length := by
  have h20 := decimalText_length n.natAbs
  have hd := Decimal.decimalText_spec (n := n.natAbs) (by omega)
  rw [measureSigned, Exn.signedText]
  rcases ht with ⟨h0, ht⟩ | ⟨h0, u, rfl, hu⟩
  · rw [if_neg (by omega), nonNegative_length _ (by omega), Decimal.isDecimal_unique ht hd]
  · rw [if_pos h0, nonNegative_length _ (by rw [List.length_cons]; omega), Decimal.isDecimal_unique hu hd]

/-- **C105**, items: what is announced for an item is the length of its text (views are shorter than 65536 characters). -/
theorem C105_item (i : Item) (hv : i.Valid) (t : List Byte) (ht : IsText i t) (hl : t.length < 2 ^ 16) :
    measure i = t.length := by
  cases i with
  | char c => rw [IsText] at ht; rw [ht]; rfl
  | uchar c =>
    have hu : ∀ cap, Accumulates (cap + t.length) [] [Item.uchar c] t := fun cap => by
      have := Accumulates.fits (cap := cap + t.length) [] (.uchar c) t [] t ht
        (by show 0 + t.length ≤ _; omega) (.nil t)
      exact this
    have hg : ∀ cap, Accumulates (cap + c.getBytes.length) [] [Item.uchar c] c.getBytes := fun cap => by
      have := Accumulates.fits (cap := cap + c.getBytes.length) [] (.uchar c) c.getBytes [] c.getBytes (getBytes_spec c)
        (by show 0 + c.getBytes.length ≤ _; omega) (.nil c.getBytes)
      exact this
    have e : t = c.getBytes := by
      have h1 := hu c.getBytes.length
      rw [Nat.add_comm] at h1
      exact accumulates_unique h1 (hg t.length)
    rw [e, measure, Chr.getBytesCount, Chr.getBytes, List.length_take, Chr.getBytesCount]
    have : ∀ bs : List Byte, Chr.countFrom bs ≤ bs.length := by
      intro bs
      induction bs with
      | nil => exact Nat.le_refl 0
      | cons b bs ih =>
        rw [Chr.countFrom]
        split
        · exact Nat.zero_le _
        · rw [List.length_cons]; omega
    have := this c.bytes
    omega
  | str s => rw [IsText] at ht; rw [ht] at hl ⊢; exact wrap16_of_lt hl
  | number n => exact C105_unsigned n hv t ht

theorem announced_eq (its : Texts) (hv : ∀ p ∈ its, p.1.Valid) (ht : ∀ p ∈ its, IsText p.1 p.2)
    (hl : ∀ p ∈ its, p.2.length < 2 ^ 16) : announced its = (its.map fun p => p.2.length).sum := by
  rw [announced]
  induction its with
  | nil => rfl
  | cons p its ih =>
    simp only [List.map_cons, List.sum_cons]
    rw [C105_item p.1 (hv p List.mem_cons_self) p.2 (ht p List.mem_cons_self) (hl p List.mem_cons_self),
      ih (fun q h => hv q (List.mem_cons_of_mem _ h)) (fun q h => ht q (List.mem_cons_of_mem _ h))
        (fun q h => hl q (List.mem_cons_of_mem _ h))]

theorem accumulates_le {cap : Nat} (its : Texts) (ht : ∀ p ∈ its, IsText p.1 p.2) (acc : List Byte) :
    ∃ out, Accumulates cap acc (its.map (·.1)) out ∧ out.length ≤ acc.length + (its.map fun p => p.2.length).sum := by
  induction its generalizing acc with
  | nil => exact ⟨acc, .nil acc, Nat.le_refl _⟩
  | cons p its ih =>
    have hts := fun q h => ht q (List.mem_cons_of_mem _ h)
    simp only [List.map_cons, List.sum_cons]
    by_cases hf : acc.length + need p.1 p.2 ≤ cap
    · obtain ⟨out, h1, h2⟩ := ih hts (acc ++ p.2)
      exact ⟨out, .fits acc p.1 p.2 _ out (ht p List.mem_cons_self) hf h1, by
        rw [List.length_append] at h2; omega⟩
    · obtain ⟨out, h1, h2⟩ := ih hts acc
      exact ⟨out, .full acc p.1 p.2 _ out (ht p List.mem_cons_self) (by omega) h1, by omega⟩

theorem sum_zero {its : Texts} (h : (its.map fun p => p.2.length).sum = 0) : ∀ p ∈ its, p.2 = [] := by
  induction its with
  | nil => intro p hp; cases hp
  | cons q its ih =>
    simp only [List.map_cons, List.sum_cons] at h
    intro p hp
    rcases List.mem_cons.mp hp with rfl | hp
    · exact List.length_eq_zero_iff.mp (by omega)
    · exact ih (by omega) p hp

theorem endsInNumber_cons (p : Item × List Byte) (its : Texts) :
    EndsInNumber (p :: its) ↔ EndsInNumber its ∨ (∃ n, p.1 = .number n) ∧ ∀ q ∈ its, q.2 = [] := by
  constructor
  · rintro ⟨a, n, t, b, he, hb⟩
    cases a with
    | nil =>
      simp only [List.nil_append, List.cons.injEq] at he
      rw [he.1, he.2]
      exact .inr ⟨⟨n, rfl⟩, hb⟩
    | cons x a =>
      simp only [List.cons_append, List.cons.injEq] at he
      exact .inl ⟨a, n, t, b, he.2, hb⟩
  · rintro (⟨a, n, t, b, rfl, hb⟩ | ⟨⟨n, hn⟩, hb⟩)
    · exact ⟨p :: a, n, t, b, rfl, hb⟩
    · exact ⟨[], n, p.2, its, by rw [← hn]; rfl, hb⟩

theorem isText_number_ne {n : Nat} {t : List Byte} (h : IsText (.number n) t) : t ≠ [] := h.1

/-- In a text of exactly the sum of the lengths everything is accumulated unless a number comes last. -/
theorem accumulates_exact {cap : Nat} (its : Texts) (ht : ∀ p ∈ its, IsText p.1 p.2) (acc : List Byte)
    (hc : acc.length + (its.map fun p => p.2.length).sum = cap) :
    ∃ out, Accumulates cap acc (its.map (·.1)) out ∧
      (¬ EndsInNumber its → out = acc ++ (its.map (·.2)).flatten) ∧ (EndsInNumber its → out.length < cap) := by
  induction its generalizing acc with
  | nil =>
    refine ⟨acc, .nil acc, fun _ => by simp, ?_⟩
    rintro ⟨a, n, t, b, he, _⟩
    cases a <;> cases he
  | cons p its ih =>
    have hts := fun q h => ht q (List.mem_cons_of_mem _ h)
    have htp := ht p List.mem_cons_self
    simp only [List.map_cons, List.sum_cons] at hc
    rw [endsInNumber_cons]
    by_cases hf : acc.length + need p.1 p.2 ≤ cap
    · obtain ⟨out, h1, h2, h3⟩ := ih hts (acc ++ p.2) (by rw [List.length_append]; omega)
      refine ⟨out, .fits acc p.1 p.2 _ out htp hf h1, ?_, ?_⟩
      · intro hn
        rw [h2 (fun h => hn (.inl h)), List.map_cons, List.flatten_cons, List.append_assoc]
      · rintro (h | ⟨⟨n, hn⟩, hz⟩)
        · exact h3 h
        · exfalso
          have hz' : (its.map fun p => p.2.length).sum = 0 := by
            clear ih h1 h2 h3 hc hts ht
            induction its with
            | nil => rfl
            | cons q its ih =>
              rw [List.map_cons, List.sum_cons, hz q List.mem_cons_self, ih (fun r h => hz r (List.mem_cons_of_mem _ h))]
              rfl
          rw [hn, need] at hf
          omega
    · obtain ⟨n, hn⟩ : ∃ n, p.1 = .number n := by
        cases hp : p.1 with
        | number n => exact ⟨n, rfl⟩
        | char c => rw [hp] at hf; exact absurd (show acc.length + p.2.length ≤ cap by omega) hf
        | uchar c => rw [hp] at hf; exact absurd (show acc.length + p.2.length ≤ cap by omega) hf
        | str s => rw [hp] at hf; exact absurd (show acc.length + p.2.length ≤ cap by omega) hf
      rw [hn, need] at hf
      have hz : (its.map fun p => p.2.length).sum = 0 := by omega
      have hpos : 0 < p.2.length := List.length_pos_iff.mpr (isText_number_ne (hn ▸ htp))
      obtain ⟨out, h1, h2⟩ := accumulates_le (cap := cap) its hts acc
      refine ⟨out, .full acc p.1 p.2 _ out htp (by rw [hn, need]; omega) h1, ?_, fun _ => by omega⟩
      intro h
      exact absurd (.inr ⟨⟨n, hn⟩, sum_zero hz⟩) h

theorem flatten_length (its : Texts) : (its.map (·.2)).flatten.length = (its.map fun p => p.2.length).sum := by
  rw [List.length_flatten, List.map_map]; rfl

/-- **C105** (partial: buffers below 65536 bytes): the builder has all of the texts exactly when its buffer is larger than
the sum of the announced sizes, or of that size and the last text is not a number. Missing: larger buffers (C32). -/
theorem C105_complete_iff_partial (buf : List Byte) (hb : buf.length < 2 ^ 16) (its : Texts) (hv : ∀ p ∈ its, p.1.Valid)
    (ht : ∀ p ∈ its, IsText p.1 p.2) (hl : ∀ p ∈ its, p.2.length < 2 ^ 16) :
    view (run (ofBuffer buf) (its.map (·.1))) = (its.map (·.2)).flatten ↔
      announced its < buf.length ∨ announced its = buf.length ∧ ¬ EndsInNumber its := by
  rw [announced_eq its hv ht hl]
  obtain ⟨out, h1, h2⟩ := run_holds (its.map (·.1)) (by
    intro i hi
    obtain ⟨p, hp, rfl⟩ := List.mem_map.mp hi
    exact hv p hp) (ofBuffer_holds buf (by omega))
  have hle : out.length ≤ buf.length := by obtain ⟨⟨h3, h4, _⟩, _, _, _, h5⟩ := h2; omega
  rw [(view_holds h2 (by omega)).1]
  have hfl := flatten_length its
  rcases Nat.lt_trichotomy (its.map fun p => p.2.length).sum buf.length with h | h | h
  · refine ⟨fun _ => .inl h, fun _ => ?_⟩
    rw [accumulates_unique h1 (accumulates_all its ht [] (by rw [List.length_nil]; omega)), List.nil_append]
  · obtain ⟨out', g1, g2, g3⟩ := accumulates_exact (cap := buf.length) its ht [] (by simpa using h)
    rw [← accumulates_unique h1 g1, List.nil_append] at g2
    rw [← accumulates_unique h1 g1] at g3
    refine ⟨fun he => .inr ⟨h, fun hn => ?_⟩, ?_⟩
    · have := g3 hn
      rw [he] at this
      omega
    · rintro (h' | ⟨_, hn⟩)
      · omega
      · exact g2 hn
  · refine ⟨fun he => ?_, ?_⟩
    · rw [he] at hle; omega
    · rintro (h' | ⟨h', _⟩) <;> omega

/-- **C105, negation**: a builder over exactly the announced size loses a number that is appended last, for every number
and every text in front of it. -/
theorem C105_last_number_lost (s : List Byte) (n : Nat) (h : n < 2 ^ 64) (t : List Byte) (ht : Decimal.IsDecimal n t)
    (buf : List Byte) (hb : buf.length = measure (.str s) + measure (.number n)) (hs : s.length + t.length < 2 ^ 16) :
    view (run (ofBuffer buf) [.str s, .number n]) = s := by
  have e1 : measure (.str s) = s.length := C105_item (.str s) trivial s rfl (by omega)
  have e2 : measure (.number n) = t.length := C105_item (.number n) h t ht (by omega)
  have hpos : 0 < t.length := List.length_pos_iff.mpr ht.1
  obtain ⟨out, h1, h2, _⟩ := C32_accumulates_partial buf (by omega) [.str s, .number n] (by
    intro i hi
    simp only [List.mem_cons, List.not_mem_nil, or_false] at hi
    rcases hi with rfl | rfl
    · trivial
    · exact h)
  rw [h2]
  refine accumulates_unique h1 (.fits [] (.str s) s _ s rfl (by simp only [need, List.length_nil]; omega) ?_)
  exact .full s (.number n) t [] s ht (by simp only [need]; omega) (.nil s)

/-- **C105**, literals: the announced size of a literal is one more than its text. -/
theorem C105_literal (s : List Byte) (h : s.length + 1 < 2 ^ 16) : measureLiteral s = measure (.str s) + 1 := by
  rw [measureLiteral, measure, wrap16_of_lt h, wrap16_of_lt (by omega)]

/-- **C105**, `remaining` (partial: buffers below 65536 bytes): the length and the room left are the size of the buffer. -/
theorem C105_remaining_partial (buf : List Byte) (hb : buf.length < 2 ^ 16) (items : List Item)
    (hv : ∀ i ∈ items, i.Valid) :
    length (run (ofBuffer buf) items) + remaining (run (ofBuffer buf) items) = buf.length := by
  obtain ⟨out, _, h2⟩ := run_holds items hv (ofBuffer_holds buf (by omega))
  obtain ⟨hr, hl, hd, hc, hp⟩ := h2
  have := hr.1
  have := hr.2.1
  rw [length, remaining, remaining_of_ready _ hr, wrap16_of_lt (by omega), wrap16_of_lt (by omega)]
  omega

/-- **C105, negation**: in an untouched buffer of 65536 bytes nothing remains. -/
theorem C105_remaining_wraps (buf : List Byte) (hb : buf.length = 2 ^ 16) : remaining (ofBuffer buf) = 0 := by
  rw [remaining, remaining_of_ready _ (Str.ofBuffer_ready buf (by omega))]
  show wrap16 (buf.length - 0) = 0
  rw [hb, wrap16_def]

/-- **C105**, after `build`: the string is the accumulated text (C32) and the builder is empty for ever: appends change
nothing, nothing remains, and building again gives an empty string. -/
theorem C105_after_build (w : ByteWriter) (items : List Item) (hv : ∀ i ∈ items, i.Valid) :
    view (run (afterBuild w) items) = [] ∧ remaining (run (afterBuild w) items) = 0 ∧
      (build (run (afterBuild w) items)).view = [] := by
  have h0 : Holds 0 (afterBuild w) [] := ofBuffer_holds [] (by decide)
  obtain ⟨out, _, h2⟩ := run_holds items hv h0
  have hr := h2.1
  have hle : out.length = 0 := by
    obtain ⟨⟨h3, h4, _⟩, h6, _, _, h5⟩ := h2; omega
  have ho : out = [] := List.length_eq_zero_iff.mp hle
  rw [ho] at h2
  obtain ⟨h3, _, h5⟩ := view_holds h2 (by decide)
  refine ⟨h3, ?_, h5⟩
  rw [remaining, remaining_of_ready _ hr, h2.2.1, wrap16_of_lt (by omega)]
  omega

example : measureUnsigned 1024 = 4 ∧ measureSigned (-12) = 3 ∧ measureLiteral [0x61#8] = 2 := by decide +kernel
example : (∀ p ∈ ([(.str [1#8], [1#8]), (.number 5, [0x35#8])] : Texts), p.1.Valid ∧ IsText p.1 p.2) ∧
    announced [(.str [1#8], [1#8]), (.number 5, [0x35#8])] = 2 ∧
    EndsInNumber [(.str [1#8], [1#8]), (.number 5, [0x35#8])] ∧
    view (run (ofBuffer [0#8, 0#8]) [.str [1#8], .number 5]) = [1#8] :=
  ⟨by
    intro p hp
    simp only [List.mem_cons, List.not_mem_nil, or_false] at hp
    rcases hp with rfl | rfl
    · exact ⟨trivial, rfl⟩
    · exact ⟨by show 5 < 2 ^ 64; decide, by decide, by decide, by decide⟩,
   by decide +kernel, ⟨[_], 5, _, [], rfl, by simp⟩, by decide +kernel⟩
example : view (run (ofBuffer [0#8, 0#8]) [.number 5, .str [1#8]]) = [0x35#8, 1#8] := by decide +kernel

end Solace.StringBuilder
