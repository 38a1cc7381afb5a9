import Verif.Lemmas.String
import Verif.Lemmas.Decimal
import Verif.Lemmas.ByteReader
import Verif.Lemmas.Endian
/-
C32 (a string builder accumulates what fits) and C33 (it finds characters).
-/
namespace Solace.StringBuilder
open ByteWriter Strings

attribute [local irreducible] ByteWriter.write ByteWriter.advance decimalText

/-! ### C32 -/

/-- The bytes of a character up to the first zero byte. -/
def UcharText (c : Chr) (bs : List Byte) : Prop :=
  0#8 ∉ bs ∧ ∃ rest, c.bytes = bs ++ rest ∧ (rest = [] ∨ rest.head? = some 0#8)

/-- The text form of an item: specification of what an append adds. -/
def IsText : Item → List Byte → Prop
  | .char c, t => t = [c]
  | .uchar c, t => UcharText c t
  | .str s, t => t = s
  | .number n, t => Decimal.IsDecimal n t

/-- The room an append needs: a number needs one byte more than its text. -/
def need : Item → List Byte → Nat
  | .number _, t => t.length + 1
  | _, t => t.length

/-- Accumulating in a text of at most `cap` characters: an item is added whole or not at all, and it is added exactly when
there is room. -/
inductive Accumulates (cap : Nat) : List Byte → List Item → List Byte → Prop
  | nil (acc) : Accumulates cap acc [] acc
  | fits (acc item t items out) : IsText item t → acc.length + need item t ≤ cap →
      Accumulates cap (acc ++ t) items out → Accumulates cap acc (item :: items) out
  | full (acc item t items out) : IsText item t → cap < acc.length + need item t →
      Accumulates cap acc items out → Accumulates cap acc (item :: items) out

/-- The items a builder accepts: numbers of at most 64 bits. -/
def Item.Valid : Item → Prop
  | .number n => n < 2 ^ 64
  | _ => True

theorem getBytes_spec (c : Chr) : UcharText c c.getBytes := by
  have key : ∀ bs : List Byte, 0#8 ∉ bs.take (Chr.countFrom bs) ∧
      (bs.drop (Chr.countFrom bs) = [] ∨ (bs.drop (Chr.countFrom bs)).head? = some 0#8) := by
    intro bs
    induction bs with
    | nil => simp [Chr.countFrom]
    | cons b bs ih =>
      by_cases hb : b = 0#8
      · simp [Chr.countFrom, hb]
      · rw [Chr.countFrom, if_neg hb, List.take_succ_cons, List.drop_succ_cons]
        exact ⟨by simp only [List.mem_cons, not_or]; exact ⟨fun h => hb h.symm, ih.1⟩, ih.2⟩
  obtain ⟨h1, h2⟩ := key c.bytes
  exact ⟨h1, _, (List.take_append_drop _ _).symm, h2⟩

/-- The content of a builder. -/
def content (w : ByteWriter) : List Byte := w.data.take w.position

/-- The builder is over a buffer of `cap` bytes, all of it usable. -/
def Holds (cap : Nat) (w : ByteWriter) (acc : List Byte) : Prop :=
  w.Ready ∧ w.limit = cap ∧ w.data.length = cap ∧ content w = acc ∧ w.position = acc.length

theorem wrote_holds {cap : Nat} {w : ByteWriter} {acc : List Byte} (h : Holds cap w acc) (t : List Byte)
    (hf : acc.length + t.length ≤ cap) : Holds cap (w.wrote t) (acc ++ t) := by
  obtain ⟨hr, hl, hd, hc, hp⟩ := h
  obtain ⟨h1, h2, h3⟩ := wrote_ready w t hr (by omega)
  refine ⟨h1, by omega, ?_, ?_, by rw [h3, List.length_append, hp]⟩
  · simp only [wrote]; rw [overwrite_length _ _ _ (by omega)]; exact hd
  · rw [content, h3]
    simp only [wrote]
    rw [overwrite, List.take_append_of_le_length (by simp; omega), List.take_of_length_le (by simp; omega)]
    rw [content] at hc
    rw [hc]

theorem write_holds {cap : Nat} {w : ByteWriter} {acc : List Byte} (h : Holds cap w acc) (t : List Byte) :
    Holds cap (w.write t).1 (if acc.length + t.length ≤ cap then acc ++ t else acc) := by
  by_cases hf : acc.length + t.length ≤ cap
  · rw [if_pos hf, write_ready w t h.1 (by have := h.2.1; have := h.2.2.2.2; omega)]
    exact wrote_holds h t hf
  · rw [if_neg hf]
    obtain ⟨hr, hl, hd, hc, hp⟩ := h
    obtain ⟨s', h1, h2, h3, h4, h5⟩ := write_short w t hr (by omega)
    rw [h1]
    refine ⟨⟨by have := hr.1; simp only; omega, by have := hr.2.1; simp only; omega, by have := hr.2.2; simp only; omega⟩,
      by simp only; omega, by simp only; omega, ?_, by simp only; omega⟩
    rw [content, ← hc, content]
    apply List.ext_getElem?
    intro i
    simp only
    rw [h2]
    by_cases hi : i < w.position
    · rw [List.getElem?_take_of_lt hi, List.getElem?_take_of_lt hi, h5 i hi]
    · rw [List.getElem?_take_eq_none (by omega), List.getElem?_take_eq_none (by omega)]

theorem number_holds {cap : Nat} {w : ByteWriter} {acc : List Byte} (h : Holds cap w acc) (n : Nat) (hn : n < 2 ^ 64) :
    Holds cap (appendNumber w n) (if acc.length + ((decimalText n).length + 1) ≤ cap then acc ++ decimalText n else acc) := by
  have hpos : 0 < (decimalText n).length := List.length_pos_iff.mpr (Decimal.decimalText_spec hn).1
  rw [appendNumber]
  generalize decimalText n = t at hpos ⊢
  obtain ⟨hr, hl, hd, hc, hp⟩ := h
  obtain ⟨hr1, hr2, hr3⟩ := hr
  have hcap : w.viewRemaining.length = cap - acc.length := by
    rw [viewRemaining, slice_length]; omega
  rw [hcap]
  by_cases h0 : cap - acc.length = 0
  · rw [snprintfAt, if_pos h0, if_neg (by omega), if_neg (by omega)]
    exact ⟨⟨hr1, hr2, hr3⟩, hl, hd, hc, hp⟩
  · rw [snprintfAt, if_neg h0]
    by_cases hf : t.length < cap - acc.length
    · rw [if_pos ⟨hpos, hf⟩, if_pos (by omega), List.take_of_length_le (by omega)]
      have ho : w.position + (t ++ [0#8]).length ≤ w.data.length := by
        rw [List.length_append, List.length_singleton]; omega
      have hadv : ({ w with data := overwrite w.data w.position (t ++ [0#8]) } : ByteWriter).advance t.length =
          (⟨overwrite w.data w.position (t ++ [0#8]), w.position + t.length, w.limit⟩, .ok ()) := by
        have hR : (ByteWriter.mk (overwrite w.data w.position (t ++ [0#8])) w.position w.limit).Ready :=
          ⟨hr1, by simp only; rw [overwrite_length _ _ _ ho]; exact hr2,
            by simp only; rw [overwrite_length _ _ _ ho]; exact hr3⟩
        rw [advance, remaining_of_ready _ hR]
        simp only
        rw [if_neg (by omega), wrap64_of_lt (by omega)]
      rw [hadv]
      refine ⟨⟨?_, ?_, ?_⟩, hl, ?_, ?_, ?_⟩
      · simp only; omega
      · simp only; rw [overwrite_length _ _ _ ho]; exact hr2
      · simp only; rw [overwrite_length _ _ _ ho]; exact hr3
      · simp only; rw [overwrite_length _ _ _ ho]; exact hd
      · rw [content] at hc
        rw [content, overwrite, hc]
        simp only
        rw [List.take_append_of_le_length (by simp; omega), hp]
        have e : acc ++ (t ++ [0#8]) = (acc ++ t) ++ [0#8] := by rw [List.append_assoc]
        have e2 : acc.length + t.length = (acc ++ t).length := by rw [List.length_append]
        rw [e, e2, List.take_left]
      · simp only [List.length_append]; omega
    · rw [if_neg (fun h => hf h.2), if_neg (by omega)]
      have ho : w.position + (t.take (cap - acc.length - 1) ++ [0#8]).length ≤ w.data.length := by
        rw [List.length_append, List.length_singleton, List.length_take]; omega
      refine ⟨⟨hr1, ?_, ?_⟩, hl, ?_, ?_, hp⟩
      · simp only; rw [overwrite_length _ _ _ ho]; exact hr2
      · simp only; rw [overwrite_length _ _ _ ho]; exact hr3
      · simp only; rw [overwrite_length _ _ _ ho]; exact hd
      · rw [content]
        simp only
        rw [overwrite, List.append_assoc, List.take_append_of_le_length (by rw [List.length_take]; omega), List.take_take,
          Nat.min_self]
        exact hc

theorem append_holds {cap : Nat} {w : ByteWriter} {acc : List Byte} (h : Holds cap w acc) (item : Item) (hv : item.Valid) :
    ∃ t, IsText item t ∧ Holds cap (append w item) (if acc.length + need item t ≤ cap then acc ++ t else acc) := by
  cases item with
  | char c => exact ⟨[c], rfl, write_holds h [c]⟩
  | uchar c => exact ⟨c.getBytes, getBytes_spec c, write_holds h c.getBytes⟩
  | str s => exact ⟨s, rfl, write_holds h s⟩
  | number n => exact ⟨decimalText n, Decimal.decimalText_spec hv, number_holds h n hv⟩

theorem run_holds {cap : Nat} (items : List Item) (hv : ∀ i ∈ items, i.Valid) {w : ByteWriter} {acc : List Byte}
    (h : Holds cap w acc) : ∃ out, Accumulates cap acc items out ∧ Holds cap (run w items) out := by
  induction items generalizing w acc with
  | nil => exact ⟨acc, .nil acc, h⟩
  | cons i items ih =>
    obtain ⟨t, ht, hh⟩ := append_holds h i (hv i List.mem_cons_self)
    obtain ⟨out, h1, h2⟩ := ih (fun j hj => hv j (List.mem_cons_of_mem _ hj)) hh
    refine ⟨out, ?_, h2⟩
    by_cases hf : acc.length + need i t ≤ cap
    · rw [if_pos hf] at h1; exact .fits acc i t items out ht hf h1
    · rw [if_neg hf] at h1; exact .full acc i t items out ht (by omega) h1

theorem ofBuffer_holds (buf : List Byte) (h : buf.length < 2 ^ 64) : Holds buf.length (ofBuffer buf) [] :=
  ⟨Str.ofBuffer_ready buf h, rfl, rfl, rfl, rfl⟩

theorem view_holds {cap : Nat} {w : ByteWriter} {acc : List Byte} (h : Holds cap w acc) (ha : acc.length < 2 ^ 16) :
    view w = acc ∧ length w = acc.length ∧ (build w).view = acc := by
  obtain ⟨⟨hr1, hr2, hr3⟩, hl, hd, hct, hp⟩ := h
  have hv : w.viewWritten = acc := by
    rw [viewWritten, slice_eq, List.drop_zero, Nat.sub_zero]; exact hct
  have hlen : length w = acc.length := by rw [length, hp, wrap16_of_lt (by omega)]
  refine ⟨?_, hlen, ?_⟩
  · rw [view, narrowView, hv, wrap16_of_lt (by omega), List.take_length]
  · rw [build, Str.view, hlen, slice_eq, List.drop_zero, Nat.sub_zero, ← hp]; exact hct

/-- Accumulation is a function of the items. -/
theorem accumulates_unique {cap : Nat} {acc : List Byte} {items : List Item} {a b : List Byte}
    (ha : Accumulates cap acc items a) (hb : Accumulates cap acc items b) : a = b := by
  have huniq : ∀ (i : Item) (s t : List Byte), IsText i s → IsText i t → s = t := by
    intro i s t hs ht
    cases i with
    | char c => rw [IsText] at hs ht; rw [hs, ht]
    | str c => rw [IsText] at hs ht; rw [hs, ht]
    | number n => exact Decimal.isDecimal_unique hs ht
    | uchar c =>
      obtain ⟨h1, r1, e1, z1⟩ := hs
      obtain ⟨h2, r2, e2, z2⟩ := ht
      rw [e1] at e2
      clear e1
      induction s generalizing t with
      | nil =>
        cases t with
        | nil => rfl
        | cons y t =>
          rcases z1 with rfl | z1
          · cases e2
          · rw [List.nil_append] at e2
            rw [e2] at z1
            simp at z1
            simp [z1] at h2
      | cons x s ih =>
        cases t with
        | nil =>
          rcases z2 with rfl | z2
          · cases e2
          · rw [List.nil_append] at e2
            rw [← e2] at z2
            simp at z2
            simp [z2] at h1
        | cons y t =>
          simp only [List.cons_append, List.cons.injEq] at e2
          rw [e2.1, ih t (fun h => h1 (List.mem_cons_of_mem _ h)) (fun h => h2 (List.mem_cons_of_mem _ h)) e2.2]
  induction ha with
  | nil acc => cases hb; rfl
  | fits acc i t items out ht hf _ ih =>
    cases hb with
    | fits _ _ t' _ _ ht' _ h' => rw [huniq i t' t ht' ht] at h'; exact ih h'
    | full _ _ t' _ _ ht' hf' h' => rw [huniq i t' t ht' ht] at hf'; omega
  | full acc i t items out ht hf _ ih =>
    cases hb with
    | fits _ _ t' _ _ ht' hf' h' => rw [huniq i t' t ht' ht] at hf'; omega
    | full _ _ t' _ _ ht' _ h' => exact ih h'

/-- **C32** (partial: buffers below 65536 bytes): after any sequence of appends the view, the length and the built string
are the accumulation of the items that had room; each item was added whole or not at all. Missing: larger buffers, where
the negation below holds. -/
theorem C32_accumulates_partial (buf : List Byte) (hb : buf.length < 2 ^ 16) (items : List Item)
    (hv : ∀ i ∈ items, i.Valid) :
    ∃ out, Accumulates buf.length [] items out ∧ view (run (ofBuffer buf) items) = out ∧
      length (run (ofBuffer buf) items) = out.length ∧ (build (run (ofBuffer buf) items)).view = out := by
  obtain ⟨out, h1, h2⟩ := run_holds items hv (ofBuffer_holds buf (by omega))
  exact ⟨out, h1, view_holds h2 (by obtain ⟨⟨h3, h4, _⟩, _, _, _, h5⟩ := h2; omega)⟩

/-- **C32** (partial as above): `empty` and `substring` describe the accumulated text. -/
theorem C32_parts_partial (buf : List Byte) (hb : buf.length < 2 ^ 16) (items : List Item) (hv : ∀ i ∈ items, i.Valid) :
    ∃ out, Accumulates buf.length [] items out ∧ (empty (run (ofBuffer buf) items) = true ↔ out = []) ∧
      ∀ f t, substring (run (ofBuffer buf) items) f t = (out.drop f).take (t - f) := by
  obtain ⟨out, h1, h2⟩ := run_holds items hv (ofBuffer_holds buf (by omega))
  obtain ⟨⟨hr1, hr2, hr3⟩, hl, hd, hct, hp⟩ := h2
  have hv : (run (ofBuffer buf) items).viewWritten = out := by
    rw [viewWritten, slice_eq, List.drop_zero, Nat.sub_zero]; exact hct
  refine ⟨out, h1, ?_, fun f t => ?_⟩
  · rw [empty, hp, beq_iff_eq, List.length_eq_zero_iff]
  · rw [substring, narrowView, hv, slice_eq, wrap16_of_lt (by rw [List.length_take, List.length_drop]; omega),
      List.take_length]

/-- Everything fits: the accumulation is the concatenation of all texts. -/
theorem accumulates_all {cap : Nat} (its : List (Item × List Byte)) (ht : ∀ p ∈ its, IsText p.1 p.2) (acc : List Byte)
    (hfit : acc.length + (its.map fun p => p.2.length).sum + 1 ≤ cap) :
    Accumulates cap acc (its.map (·.1)) (acc ++ (its.map (·.2)).flatten) := by
  induction its generalizing acc with
  | nil => simpa using Accumulates.nil acc
  | cons p its ih =>
    obtain ⟨i, t⟩ := p
    simp only [List.map_cons, List.sum_cons] at hfit
    have hneed : need i t ≤ t.length + 1 := by cases i <;> simp only [need] <;> omega
    refine .fits acc i t _ _ (ht (i, t) List.mem_cons_self) (by omega) ?_
    have := ih (fun q hq => ht q (List.mem_cons_of_mem _ hq)) (acc ++ t) (by rw [List.length_append]; omega)
    rwa [List.append_assoc] at this

/-- **C32**, nothing lost (partial: buffers below 65536 bytes): when the total text and one more byte fit, the view is the
concatenation of all texts. -/
theorem C32_nothing_lost_partial (buf : List Byte) (hb : buf.length < 2 ^ 16) (its : List (Item × List Byte))
    (hv : ∀ p ∈ its, p.1.Valid) (ht : ∀ p ∈ its, IsText p.1 p.2)
    (hfit : (its.map fun p => p.2.length).sum + 1 ≤ buf.length) :
    view (run (ofBuffer buf) (its.map (·.1))) = (its.map (·.2)).flatten := by
  obtain ⟨out, h1, h2, _⟩ := C32_accumulates_partial buf hb (its.map (·.1)) (by
    intro i hi
    obtain ⟨p, hp, rfl⟩ := List.mem_map.mp hi
    exact hv p hp)
  rw [h2, accumulates_unique h1 (accumulates_all its ht [] (by simpa using hfit)), List.nil_append]

/-- The constructor with an initial string appends it. -/
theorem C32_initial (buf s : List Byte) (items : List Item) :
    run (make buf s) items = run (ofBuffer buf) (.str s :: items) := rfl

/-- **C32, negation**: in a buffer of 65536 bytes or more, 65536 appended characters leave an empty view and length 0. -/
theorem C32_long_view_empty (buf : List Byte) (hb : 2 ^ 16 ≤ buf.length) (hb' : buf.length < 2 ^ 64) (s : List Byte)
    (hs : s.length = 2 ^ 16) :
    view (run (ofBuffer buf) [.str s]) = [] ∧ length (run (ofBuffer buf) [.str s]) = 0 := by
  have h := write_holds (ofBuffer_holds buf hb') s
  rw [List.length_nil, Nat.zero_add, if_pos (by omega), List.nil_append] at h
  have hp : (run (ofBuffer buf) [.str s]).position = 2 ^ 16 := by
    have := h.2.2.2.2
    rw [hs] at this
    exact this
  have hc : (run (ofBuffer buf) [.str s]).viewWritten = s := by
    rw [viewWritten, slice_eq, List.drop_zero, Nat.sub_zero]; exact h.2.2.2.1
  refine ⟨?_, ?_⟩
  · rw [view, narrowView, hc, hs, wrap16_def]; simp
  · rw [length, hp, wrap16_def]

example : view (run (ofBuffer (List.replicate 6 7#8)) [.str [1#8, 2#8], .number 345, .number 6, .char 9#8]) =
    [1#8, 2#8, 0x33#8, 0x34#8, 0x35#8, 9#8] := by decide +kernel
example : (∀ i ∈ [Item.str [1#8], Item.number 5], i.Valid) ∧ IsText (.number 5) [0x35#8] :=
  ⟨by simp [Item.Valid], by decide, by decide, by decide⟩

/-! ### C33 -/

/-- The position of the first occurrence of `bs` in `s` at or after `from_`. -/
def FirstAt (bs s : List Byte) (from_ i : Nat) : Prop :=
  from_ ≤ i ∧ OccursAt bs s i ∧ ∀ j, from_ ≤ j → j < i → ¬ OccursAt bs s j

/-- A character whose bytes are `bs` followed by zeros, as built from bytes or from an ASCII character. -/
def IsPlainChar (c : Chr) (bs : List Byte) : Prop :=
  bs.length ≤ 4 ∧ 0#8 ∉ bs ∧ c.bytes = bs ++ List.replicate (4 - bs.length) 0#8

theorem count_plain {c : Chr} {bs : List Byte} (h : IsPlainChar c bs) : c.getBytesCount = bs.length := by
  obtain ⟨hl, h0, he⟩ := h
  rw [Chr.getBytesCount, he]
  generalize 4 - bs.length = k
  clear he hl
  induction bs with
  | nil => cases k <;> rfl
  | cons b bs ih =>
    simp only [List.mem_cons, not_or] at h0
    rw [List.cons_append, Chr.countFrom, if_neg (fun h => h0.1 h.symm), ih h0.2, List.length_cons]

theorem window_eq (data : List Byte) (i n : Nat) (hd : data.length < 2 ^ 16) (h : i + n ≤ data.length) :
    window data i n = (data.drop i).take n ++ List.replicate (4 - n) 0#8 := by
  rw [window, ByteReader.readAt]
  simp only [List.length_replicate, ByteReader.ofView]
  rw [wrap64_of_lt (by omega), if_neg (by omega), slice_eq, Nat.add_sub_cancel_left]
  rw [if_neg (by rw [List.length_take, List.length_drop]; omega)]
  simp only [List.take_take, Nat.min_self]

theorem equals_window (big : Bool) {c : Chr} {bs : List Byte} (h : IsPlainChar c bs) (data : List Byte) (i : Nat)
    (hd : data.length < 2 ^ 16) (hi : i + bs.length ≤ data.length) :
    c.equals big ⟨window data i bs.length⟩ = true ↔ OccursAt bs data i := by
  rw [window_eq data i _ hd hi, StringView.occursAt_iff, Chr.equals, beq_iff_eq, Chr.value, Chr.value, h.2.2]
  have hl : ((data.drop i).take bs.length).length = bs.length := by rw [List.length_take, List.length_drop]; omega
  constructor
  · intro he
    have := hostValue_inj (by simp; omega) he
    exact ⟨hi, (List.append_inj this hl.symm).1.symm⟩
  · rintro ⟨_, he⟩
    rw [he]

theorem indexOfLoop_spec (big : Bool) {c : Chr} {bs : List Byte} (h : IsPlainChar c bs) (data : List Byte)
    (hd : data.length < 2 ^ 16) (fuel i : Nat) (hi : i < 2 ^ 16) (hf : data.length < fuel + i)
    (hf0 : 0 < fuel) :
    (∃ r, indexOfLoop big data c fuel i = some (some r) ∧ r + bs.length < data.length ∧ FirstAt bs data i r) ∨
    (indexOfLoop big data c fuel i = some none ∧ ∀ j, i ≤ j → j + bs.length < data.length → ¬ OccursAt bs data j) := by
  induction fuel generalizing i with
  | zero => omega
  | succ fuel ih =>
    rw [indexOfLoop, count_plain h]
    by_cases hb : i + bs.length < data.length
    · rw [if_pos hb]
      have he := equals_window big h data i hd (by omega)
      by_cases ho : OccursAt bs data i
      · rw [if_pos (he.mpr ho)]
        exact .inl ⟨i, rfl, hb, Nat.le_refl _, ho, fun j h1 h2 => by omega⟩
      · rw [if_neg (fun h => ho (he.mp h)), wrap16_of_lt (by omega)]
        rcases ih (i + 1) (by omega) (by omega) (by omega) with ⟨r, h1, h2, h3, h4, h5⟩ | ⟨h1, h2⟩
        · refine .inl ⟨r, h1, h2, by omega, h4, fun j hj hj' => ?_⟩
          by_cases hji : j = i
          · rw [hji]; exact ho
          · exact h5 j (by omega) hj'
        · refine .inr ⟨h1, fun j hj hj' => ?_⟩
          by_cases hji : j = i
          · rw [hji]; exact ho
          · exact h2 j (by omega) hj'
    · rw [if_neg hb]
      exact .inr ⟨rfl, fun j _ _ => by omega⟩

/-- **C33** (partial: only occurrences that do not end the text are found): on a builder with less than 65536 characters,
searching for a character with bytes `bs` (at least one byte) gives the first occurrence at or after `from_` when there is
one before the end. Missing: an occurrence ending the text, where the negation below holds. -/
theorem C33_indexOf_partial (big : Bool) {c : Chr} {bs : List Byte} (h : IsPlainChar c bs) (w : ByteWriter)
    (hd : w.viewWritten.length < 2 ^ 16) (from_ fuel : Nat) (hi : from_ < 2 ^ 16) (hf : w.viewWritten.length < fuel) :
    (∃ r, indexOf big w c from_ fuel = some (some r) ∧ FirstAt bs w.viewWritten from_ r) ∨
    (indexOf big w c from_ fuel = some none ∧
      ∀ j, from_ ≤ j → j + bs.length < w.viewWritten.length → ¬ OccursAt bs w.viewWritten j) := by
  rcases indexOfLoop_spec big h w.viewWritten hd fuel from_ hi (by omega) (by omega) with ⟨r, h1, _, h2⟩ | h1
  · exact .inl ⟨r, h1, h2⟩
  · exact .inr h1

/-- **C33, negation**: a character that occurs only at the end of the text is never found. -/
theorem C33_last_not_found (big : Bool) {c : Chr} {bs : List Byte} (h : IsPlainChar c bs) (w : ByteWriter)
    (hd : w.viewWritten.length < 2 ^ 16) (fuel : Nat) (hf : w.viewWritten.length < fuel)
    (honly : ∀ j, OccursAt bs w.viewWritten j → j + bs.length = w.viewWritten.length) :
    indexOf big w c 0 fuel = some none := by
  rcases indexOfLoop_spec big h w.viewWritten hd fuel 0 (by omega) (by omega) (by omega) with ⟨r, _, h2, _, h3, _⟩ | ⟨h1, _⟩
  · have := honly r h3; omega
  · exact h1

/-- **C33, negation**: the zero character is "found" at the start index of any text with something after it. -/
theorem C33_zero_found (big : Bool) (w : ByteWriter) (hd : w.viewWritten.length < 2 ^ 16) (from_ fuel : Nat)
    (hf : from_ < w.viewWritten.length) : indexOf big w (.ofByte 0#8) from_ (fuel + 1) = some (some from_) := by
  have h : IsPlainChar (.ofByte 0#8) [] := ⟨by simp, by simp, rfl⟩
  rw [indexOf, indexOfLoop, count_plain h, if_pos (by simpa using hf), if_pos]
  exact (equals_window big h _ _ hd (by simp; omega)).mpr ⟨w.viewWritten.take from_, w.viewWritten.drop from_,
    by rw [List.append_nil, List.take_append_drop], by rw [List.length_take]; omega⟩

example : indexOf false (run (ofBuffer (List.replicate 6 7#8)) [.str [1#8, 2#8, 3#8]]) (.ofByte 2#8) 0 9 = some (some 1) ∧
    indexOf false (run (ofBuffer (List.replicate 6 7#8)) [.str [1#8, 2#8, 3#8]]) (.ofByte 3#8) 0 9 = some none := by
  decide +kernel
example : IsPlainChar (.ofByte 0x41#8) [0x41#8] := ⟨by decide, by decide, rfl⟩

end Solace.StringBuilder
