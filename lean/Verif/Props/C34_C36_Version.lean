import Verif.Lemmas.Version
import Verif.Props.C21_C28_StringView
import Verif.Props.C29_C31_String
/-
C34 (version ordering), C35 (version text round trip), C36 (version parsing depends only on its argument).
-/
namespace Solace.Version
open StringView Strings Str

/-! ### C34 -/

/-- Precedence of versions: by the first of major, minor, patch that differs. -/
def Precedes (a b : Version) : Prop :=
  a.major < b.major ∨ (a.major = b.major ∧ (a.minor < b.minor ∨ (a.minor = b.minor ∧ a.patch < b.patch)))

/-- The same three numbers. -/
def SameNumbers (a b : Version) : Prop := a.major = b.major ∧ a.minor = b.minor ∧ a.patch = b.patch

theorem gt_iff (a b : Version) : gt a b = true ↔ Precedes b a := by
  rw [gt, Precedes]
  split
  · exact ⟨fun _ => by omega, fun _ => rfl⟩
  · split
    · exact ⟨fun h => (by cases h), fun h => by omega⟩
    · split
      · exact ⟨fun _ => by omega, fun _ => rfl⟩
      · split
        · exact ⟨fun h => (by cases h), fun h => by omega⟩
        · rw [decide_eq_true_eq]
          exact ⟨fun h => by omega, fun h => by omega⟩

/-- **C34** (partial: `>` only): `>` is precedence of the numbers, a strict order, and exactly one of `a > b`, `b > a`,
same numbers holds. Missing: the same for `<`, where the negation below holds. -/
theorem C34_gt_partial (a b c : Version) :
    (gt a b = true ↔ Precedes b a) ∧ gt a a = false ∧ (gt a b = true → gt b c = true → gt a c = true) ∧
    ((gt a b = true ∧ gt b a = false ∧ ¬SameNumbers a b) ∨ (gt a b = false ∧ gt b a = true ∧ ¬SameNumbers a b) ∨
      (gt a b = false ∧ gt b a = false ∧ SameNumbers a b)) := by
  have hf : ∀ x y, gt x y = false ↔ ¬Precedes y x := fun x y => by rw [← gt_iff, Bool.not_eq_true]
  refine ⟨gt_iff a b, ?_, ?_, ?_⟩
  · rw [hf, Precedes]; omega
  · rw [gt_iff, gt_iff, gt_iff, Precedes, Precedes, Precedes]; omega
  · rw [gt_iff, gt_iff, hf, hf, Precedes, Precedes, SameNumbers]; omega

/-- **C34, negation**: every version is "less" than itself, and two versions with the same numbers are each "less" than
the other; `<` is not the mirror image of `>`. -/
theorem C34_lt_negation (a b : Version) :
    lt a a = true ∧ (SameNumbers a b → lt a b = true ∧ lt b a = true ∧ gt a b = false ∧ gt b a = false) := by
  have hs := fun x y => (C34_gt_partial x y x).2.2.2
  refine ⟨by rw [lt, (C34_gt_partial a a a).2.1]; rfl, fun h => ?_⟩
  rcases hs a b with ⟨_, _, h'⟩ | ⟨_, _, h'⟩ | ⟨h1, h2, _⟩
  · exact absurd h h'
  · exact absurd h h'
  · exact ⟨by rw [lt, h1]; rfl, by rw [lt, h2]; rfl, h1, h2⟩

/-- **C34**: equality compares numbers and pre-release label, not build metadata. -/
theorem C34_equals (a b : Version) : equals a b = true ↔ SameNumbers a b ∧ a.preRelease = b.preRelease := by
  rw [equals, Bool.and_eq_true, Bool.and_eq_true, Bool.and_eq_true, beq_iff_eq, beq_iff_eq, beq_iff_eq, equals_iff,
    SameNumbers]
  simp only [and_assoc]

example : gt ⟨2, 0, 0, [], []⟩ ⟨1, 9, 9, [], []⟩ = true ∧ gt ⟨1, 2, 3, [], []⟩ ⟨1, 2, 4, [], []⟩ = false := by decide

/-! ### C35 -/

/-- The text of a version. -/
def text (v : Version) : List Byte :=
  decimalText v.major ++ 0x2E#8 :: (decimalText v.minor ++ 0x2E#8 :: (decimalText v.patch ++
    ((if v.preRelease = [] then [] else 0x2D#8 :: v.preRelease) ++ (if v.build = [] then [] else 0x2B#8 :: v.build))))

/-- Versions whose text can be read back: 32-bit numbers, labels without `+`, pre-release label not beginning or ending
with `-`, and a text that fits a string. -/
def Admissible (v : Version) : Prop :=
  v.major < 2 ^ 32 ∧ v.minor < 2 ^ 32 ∧ v.patch < 2 ^ 32 ∧ 0x2B#8 ∉ v.preRelease ∧ 0x2B#8 ∉ v.build ∧
  v.preRelease.head? ≠ some 0x2D#8 ∧ v.preRelease.getLast? ≠ some 0x2D#8 ∧ (text v).length < 2 ^ 16

theorem bufferSize_eq (v : Version) : v.bufferSize = (text v).length + 1 := by
  rw [bufferSize, text]
  simp only [List.length_append, List.length_cons]
  split <;> split <;> simp only [List.length_cons, List.length_nil] <;> omega

open StringBuilder in
/-- The items of `toString` with their texts. -/
theorem items_texts (v : Version) (hv : Admissible v) : ∃ its : List (Item × List Byte),
    its.map (·.1) = v.items ∧ (its.map (·.2)).flatten = text v ∧ (∀ p ∈ its, IsText p.1 p.2) ∧
    (its.map fun p => p.2.length).sum = (text v).length ∧ ∀ p ∈ its, p.1.Valid := by
  obtain ⟨h1, h2, h3, _⟩ := hv
  refine ⟨[(.number v.major, decimalText v.major), (.char 0x2E#8, [0x2E#8]), (.number v.minor, decimalText v.minor),
    (.char 0x2E#8, [0x2E#8]), (.number v.patch, decimalText v.patch)] ++
    (if v.preRelease = [] then [] else [(.char 0x2D#8, [0x2D#8]), (.str v.preRelease, v.preRelease)]) ++
    (if v.build = [] then [] else [(.char 0x2B#8, [0x2B#8]), (.str v.build, v.build)]), ?_, ?_, ?_, ?_, ?_⟩
  · rw [items]
    by_cases hp : v.preRelease = [] <;> by_cases hb : v.build = [] <;> simp [hp, hb]
  · rw [text]
    by_cases hp : v.preRelease = [] <;> by_cases hb : v.build = [] <;> simp [hp, hb]
  · intro p hp
    have hd : ∀ n, n < 2 ^ 32 → IsText (.number n) (decimalText n) := fun n hn => Decimal.decimalText_spec (by omega)
    by_cases hpr : v.preRelease = [] <;> by_cases hb : v.build = [] <;> simp [hpr, hb] at hp
    all_goals
      repeat' rcases hp with rfl | hp
      all_goals first | exact hd _ h1 | exact hd _ h2 | exact hd _ h3 | rfl | (subst hp; first | exact hd _ h3 | rfl)
  · rw [text]
    by_cases hp : v.preRelease = [] <;> by_cases hb : v.build = [] <;> simp [hp, hb] <;> omega
  · intro p hp
    by_cases hpr : v.preRelease = [] <;> by_cases hb : v.build = [] <;> simp [hpr, hb] at hp
    all_goals
      repeat' rcases hp with rfl | hp
      all_goals first | (simp only [Item.Valid]; omega) | (subst hp; simp only [Item.Valid]; omega) | trivial | (subst hp; trivial)

/-- The part of the text after the numbers. -/
def tail (v : Version) : List Byte :=
  (if v.preRelease = [] then [] else 0x2D#8 :: v.preRelease) ++ (if v.build = [] then [] else 0x2B#8 :: v.build)

theorem text_eq (v : Version) : text v = decimalText v.major ++ 0x2E#8 :: (decimalText v.minor ++ 0x2E#8 ::
    (decimalText v.patch ++ tail v)) := rfl

theorem dot_not_mem {n : Nat} (h : n < 2 ^ 32) : 0x2E#8 ∉ decimalText n := by
  intro hm
  obtain ⟨d, hd, he⟩ := Decimal.decimalText_digits (show n < 2 ^ 64 by omega) _ hm
  exact (isDigit_digit hd).2.2.2.2.2 he.symm

theorem tail_head (v : Version) (c : Byte) (rest : List Byte) (h : tail v = c :: rest) : isDigit c = false := by
  rw [tail] at h
  by_cases hp : v.preRelease = []
  · rw [if_pos hp] at h
    by_cases hb : v.build = []
    · rw [if_pos hb] at h; cases h
    · rw [if_neg hb, List.nil_append] at h
      rw [← (List.cons.inj h).1]; decide
  · rw [if_neg hp, List.cons_append] at h
    rw [← (List.cons.inj h).1]; decide

theorem numbers_text (v : Version) (h1 : v.major < 2 ^ 32) (h2 : v.minor < 2 ^ 32) (h3 : v.patch < 2 ^ 32)
    (hlen : (text v).length < 2 ^ 16) (after : List Byte)
    (ha : tail v = [] → ∃ c rest, after = c :: rest ∧ isDigit c = false) :
    numbers (text v) (text v ++ after) = .ok (some (v.major, v.minor, v.patch, tail v)) := by
  have hdot : isDigit 0x2E#8 = false := by decide
  have hsplit : (splitChar (text v) 0x2E#8).1 = decimalText v.major :: decimalText v.minor ::
      scan [0x2E#8] [] (decimalText v.patch ++ tail v) := by
    rw [splitChar_eq _ _ hlen, text_eq, scan_piece _ _ _ _ (dot_not_mem h1), scan_piece _ _ _ _ (dot_not_mem h2)]
    rfl
  obtain ⟨c, rest, hc, hcd⟩ : ∃ c rest, tail v ++ after = c :: rest ∧ isDigit c = false := by
    cases ht : tail v with
    | nil => obtain ⟨c, rest, rfl, hc⟩ := ha ht; exact ⟨c, rest, rfl, hc⟩
    | cons c rest => exact ⟨c, rest ++ after, rfl, tail_head v c rest ht⟩
  have hmem : text v ++ after = decimalText v.major ++ 0x2E#8 :: (decimalText v.minor ++ 0x2E#8 ::
      (decimalText v.patch ++ c :: rest)) := by
    rw [text_eq, ← hc]; simp only [List.append_assoc, List.cons_append]
  have hd1 : (text v ++ after).drop ((decimalText v.major).length + 1) = decimalText v.minor ++ 0x2E#8 ::
      (decimalText v.patch ++ c :: rest) := by
    rw [hmem, ← List.drop_drop, List.drop_left, List.drop_one, List.tail_cons]
  have hd2 : (text v ++ after).drop ((decimalText v.major).length + 1 + (decimalText v.minor).length + 1) =
      decimalText v.patch ++ c :: rest := by
    rw [Nat.add_assoc, ← List.drop_drop, hd1, ← List.drop_drop, List.drop_left, List.drop_one, List.tail_cons]
  have hd3 : (text v ++ after).drop ((decimalText v.major).length + 1 + (decimalText v.minor).length + 1 +
      (decimalText v.patch).length) = tail v ++ after := by
    rw [← List.drop_drop, hd2, List.drop_left, hc]
  have htl : (text v).length = (decimalText v.major).length + 1 + (decimalText v.minor).length + 1 +
      (decimalText v.patch).length + (tail v).length := by
    rw [text_eq]; simp only [List.length_append, List.length_cons]; omega
  rw [numbers, hsplit]
  simp only
  rw [hd1, hd2, number_decimal _ h2 _ _ hdot, number_decimal _ h3 _ _ hcd]
  rw [hmem, number_decimal _ h1 _ _ hdot, ← hmem]
  obtain ⟨y, ys, hy⟩ := List.exists_cons_of_ne_nil (scan_ne_nil [0x2E#8] [] (decimalText v.patch ++ tail v) (by simp))
  rw [hy]
  simp only [Outcome.bind_ok, Outcome.pure_def]
  have hap : afterPatch (text v) (text v ++ after) ((decimalText v.major).length + 1 + (decimalText v.minor).length + 1 +
      (decimalText v.patch).length) = .ok (tail v) := by
    rw [afterPatch]
    by_cases ht : tail v = []
    · rw [ht, List.length_nil, Nat.add_zero] at htl
      rw [if_pos htl.symm, ht]
    · have hpos := List.length_pos_iff.mpr ht
      rw [if_neg (by omega)]
      have hsz : ((((text v).length : Int) - ((decimalText v.major).length + 1 + (decimalText v.minor).length + 1 +
          (decimalText v.patch).length : Nat)) % 65536).toNat = (tail v).length := by omega
      rw [hsz, if_pos (by rw [List.length_append]; omega), hd3, List.take_left]
  rw [hap]
  rfl

theorem make_view (alloc : Nat → Except Err MutView) (ha : AllocOk alloc) (s : List Byte) :
    (∃ e, make alloc s = .error e) ∨ ∃ str, make alloc s = .ok str ∧ str.view = s := C29_make alloc ha s

/-- A memory manager that has memory. -/
def HasMemory (alloc : Nat → Except Err MutView) : Prop := ∀ n, ∃ m, alloc n = .ok m ∧ m.null = false

theorem make_succeeds (alloc : Nat → Except Err MutView) (ha : AllocOk alloc) (hm : HasMemory alloc) (s : List Byte) :
    ∃ str, make alloc s = .ok str ∧ str.view = s := by
  rcases C29_make alloc ha s with ⟨e, he⟩ | h
  · obtain ⟨m, h1, h2⟩ := hm s.length
    obtain ⟨h3, _⟩ := ha _ _ h1
    rw [make, h1] at he
    simp only [MutView.write] at he
    rw [h2, if_neg (by simp), if_neg (by omega)] at he
    cases he
  · exact h

theorem trim_dash (p : List Byte) (h1 : p.head? ≠ some 0x2D#8) (h2 : p.getLast? ≠ some 0x2D#8) :
    trimChar (0x2D#8 :: p) 0x2D#8 = p := by
  refine isTrim_unique (trimBy_isTrim _ _) ⟨[0x2D#8], [], by simp, by simp, by simp, ?_, ?_⟩
  · intro c hc
    exact beq_false_of_ne (fun h => h1 (by rw [hc, h]))
  · intro c hc
    exact beq_false_of_ne (fun h => h2 (by rw [hc, h]))

theorem trim_nil : trimChar [] 0x2D#8 = [] := rfl

theorem labels_tail (alloc : Nat → Except Err MutView) (ha : AllocOk alloc) (v : Version) (hv : Admissible v) :
    ((∃ e, labels alloc (tail v) = .error e) ∧ ¬HasMemory alloc) ∨ labels alloc (tail v) = .ok (v.preRelease, v.build) := by
  obtain ⟨_, _, _, hp, hb, hph, hpl, hlen⟩ := hv
  have htl : (tail v).length < 2 ^ 16 := by
    rw [text_eq] at hlen
    simp only [List.length_append, List.length_cons] at hlen
    omega
  have hmk : ∀ s, ((∃ e, make alloc s = .error e) ∧ ¬HasMemory alloc) ∨ ∃ str, make alloc s = .ok str ∧ str.view = s := by
    intro s
    rcases C29_make alloc ha s with ⟨e, he⟩ | h
    · refine .inl ⟨⟨e, he⟩, fun hm => ?_⟩
      obtain ⟨str, h, _⟩ := make_succeeds alloc ha hm s
      rw [he] at h; cases h
    · exact .inr h
  by_cases hpe : v.preRelease = []
  · by_cases hbe : v.build = []
    · have ht : tail v = [] := by rw [tail, if_pos hpe, if_pos hbe]; rfl
      rw [ht, labels, if_pos rfl, hpe, hbe]
      exact .inr rfl
    · have ht : tail v = 0x2B#8 :: v.build := by rw [tail, if_pos hpe, if_neg hbe]; rfl
      have hs : (splitChar (tail v) 0x2B#8).1 = [[], v.build] := by
        have := scan_piece 0x2B#8 [] [] v.build (by simp)
        rw [List.nil_append] at this
        rw [splitChar_eq _ _ htl, ht, this, scan_last _ _ _ hb]
        rfl
      rw [labels, if_neg (by rw [ht]; simp), hs]
      simp only [List.headD_cons, trim_nil]
      rcases hmk [] with ⟨⟨e, he⟩, hn⟩ | ⟨p, he, hpv⟩
      · rw [he]; exact .inl ⟨⟨e, rfl⟩, hn⟩
      · rw [he]
        simp only
        rw [if_neg (by simp)]
        rcases hmk v.build with ⟨⟨e, he⟩, hn⟩ | ⟨b, he, hbv⟩
        · have : ([[], v.build] : List (List Byte)).getD 1 [] = v.build := rfl
          rw [this, he]; exact .inl ⟨⟨e, rfl⟩, hn⟩
        · have : ([[], v.build] : List (List Byte)).getD 1 [] = v.build := rfl
          rw [this, he]
          simp only
          rw [if_neg (by simp [wrap16_def]), hpv, hbv, hpe]
          exact .inr rfl
  · by_cases hbe : v.build = []
    · have ht : tail v = 0x2D#8 :: v.preRelease := by rw [tail, if_neg hpe, if_pos hbe, List.append_nil]
      have hs : (splitChar (tail v) 0x2B#8).1 = [0x2D#8 :: v.preRelease] := by
        rw [splitChar_eq _ _ htl, ht, scan_last _ _ _ (by
          simp only [List.mem_cons, not_or]; exact ⟨by decide, hp⟩)]
        rfl
      rw [labels, if_neg (by rw [ht]; simp), hs]
      simp only [List.headD_cons, trim_dash _ hph hpl]
      rcases hmk v.preRelease with ⟨⟨e, he⟩, hn⟩ | ⟨p, he, hpv⟩
      · rw [he]; exact .inl ⟨⟨e, rfl⟩, hn⟩
      · rw [he]
        simp only
        rw [if_pos (by simp), hpv, hbe]
        exact .inr rfl
    · have ht : tail v = (0x2D#8 :: v.preRelease) ++ 0x2B#8 :: v.build := by rw [tail, if_neg hpe, if_neg hbe]
      have hs : (splitChar (tail v) 0x2B#8).1 = [0x2D#8 :: v.preRelease, v.build] := by
        rw [splitChar_eq _ _ htl, ht, scan_piece _ _ _ _ (by
          simp only [List.mem_cons, not_or]; exact ⟨by decide, hp⟩), scan_last _ _ _ hb]
        rfl
      rw [labels, if_neg (by rw [ht]; simp), hs]
      simp only [List.headD_cons, trim_dash _ hph hpl]
      rcases hmk v.preRelease with ⟨⟨e, he⟩, hn⟩ | ⟨p, he, hpv⟩
      · rw [he]; exact .inl ⟨⟨e, rfl⟩, hn⟩
      · rw [he]
        simp only
        rw [if_neg (by simp)]
        have hg : ([0x2D#8 :: v.preRelease, v.build] : List (List Byte)).getD 1 [] = v.build := rfl
        rw [hg]
        rcases hmk v.build with ⟨⟨e, he⟩, hn⟩ | ⟨b, he, hbv⟩
        · rw [he]; exact .inl ⟨⟨e, rfl⟩, hn⟩
        · rw [he]
          simp only
          rw [if_neg (by simp [wrap16_def]), hpv, hbv]
          exact .inr rfl

/-- **C35** for a text with anything after it in memory: parsing the text gives back the version (or the memory manager's
error), provided there is a label or the byte after the text is not a digit. -/
theorem C35_parse_text_partial (alloc : Nat → Except Err MutView) (ha : AllocOk alloc) (v : Version) (hv : Admissible v)
    (after : List Byte)
    (hafter : v.preRelease = [] → v.build = [] → ∃ c rest, after = c :: rest ∧ isDigit c = false) :
    ((∃ e, parse alloc false (text v) after = .ok (.error e)) ∧ ¬HasMemory alloc) ∨
    parse alloc false (text v) after = .ok (.ok v) := by
  have hn := numbers_text v hv.1 hv.2.1 hv.2.2.1 hv.2.2.2.2.2.2.2 after (fun ht => by
    rw [tail] at ht
    apply hafter
    · by_cases h : v.preRelease = []
      · exact h
      · rw [if_neg h] at ht; cases ht
    · by_cases h : v.build = []
      · exact h
      · rw [if_neg h] at ht; exact absurd ht (by simp))
  rw [parse, if_neg Bool.false_ne_true, hn]
  simp only [Outcome.bind_ok]
  rcases labels_tail alloc ha v hv with ⟨⟨e, he⟩, hm⟩ | h
  · rw [he]; exact .inl ⟨⟨e, rfl⟩, hm⟩
  · rw [h]; exact .inr rfl

open StringBuilder in
theorem run_text (v : Version) (hv : Admissible v) (buf : List Byte) (hb : buf.length = v.bufferSize) :
    Holds v.bufferSize (run (.ofBuffer buf) v.items) (text v) := by
  obtain ⟨its, h1, h2, h3, h4, h5⟩ := items_texts v hv
  have hlen := hv.2.2.2.2.2.2.2
  have hbs := bufferSize_eq v
  obtain ⟨out, ho1, ho2⟩ := run_holds v.items (fun i hi => by
    rw [← h1] at hi
    obtain ⟨p, hp, rfl⟩ := List.mem_map.mp hi
    exact h5 p hp) (ofBuffer_holds buf (by omega))
  have hacc := accumulates_all its h3 [] (cap := buf.length) (by rw [h4, List.length_nil]; omega)
  rw [h1, h2, List.nil_append] at hacc
  rw [accumulates_unique ho1 hacc, hb] at ho2
  exact ho2

open StringBuilder in
/-- A number that fits leaves a zero after it. -/
theorem number_zero {cap : Nat} {w : ByteWriter} {acc : List Byte} (h : Holds cap w acc) (n : Nat) (hn : n < 2 ^ 64)
    (hf : acc.length + ((decimalText n).length + 1) ≤ cap) :
    (appendNumber w n).data[acc.length + (decimalText n).length]? = some 0#8 := by
  have hpos : 0 < (decimalText n).length := List.length_pos_iff.mpr (Decimal.decimalText_spec hn).1
  rw [appendNumber]
  generalize decimalText n = t at hpos hf ⊢
  obtain ⟨⟨hr1, hr2, hr3⟩, hl, hd, hc, hp⟩ := h
  have hcap : w.viewRemaining.length = cap - acc.length := by
    rw [ByteWriter.viewRemaining, slice_length]; omega
  rw [hcap, if_pos ⟨hpos, by omega⟩, snprintfAt, if_neg (by omega), List.take_of_length_le (by omega), ByteWriter.advance]
  have hres : (ByteWriter.overwrite w.data w.position (t ++ [0#8]))[acc.length + t.length]? = some 0#8 := by
    rw [ByteWriter.overwrite, hp, List.getElem?_append_left (by
      simp only [List.length_append, List.length_take, List.length_singleton]; omega)]
    rw [List.getElem?_append_right (by rw [List.length_take]; omega), List.getElem?_append_right (by
      rw [List.length_take]; omega), List.length_take]
    rw [show acc.length + t.length - min acc.length w.data.length - t.length = 0 by omega]
    rfl
  split <;> exact hres

open StringBuilder in
/-- The byte after the text of a version without labels, in the buffer of the string, is zero. -/
theorem run_text_zero (v : Version) (hv : Admissible v) (buf : List Byte) (hb : buf.length = v.bufferSize)
    (hp : v.preRelease = []) (hbd : v.build = []) :
    (run (.ofBuffer buf) v.items).data[(text v).length]? = some 0#8 := by
  have hlen := hv.2.2.2.2.2.2.2
  have hbs := bufferSize_eq v
  have hit : v.items = [.number v.major, .char 0x2E#8, .number v.minor, .char 0x2E#8] ++ [.number v.patch] := by
    rw [items, if_pos hp, if_pos hbd]; rfl
  obtain ⟨h1, h2, h3, _⟩ := hv
  have hrun := run_holds [.number v.major, .char 0x2E#8, .number v.minor, .char 0x2E#8] (by
    intro i hi
    simp at hi
    rcases hi with rfl | rfl | rfl | rfl
    · simp only [Item.Valid]; omega
    · trivial
    · simp only [Item.Valid]; omega
    · trivial) (ofBuffer_holds buf (by omega))
  obtain ⟨out, ho1, ho2⟩ := hrun
  have hd : ∀ n, n < 2 ^ 32 → IsText (.number n) (decimalText n) := fun n hn => Decimal.decimalText_spec (by omega)
  have htl : (text v).length = (decimalText v.major).length + 1 + (decimalText v.minor).length + 1 +
      (decimalText v.patch).length := by
    rw [text, if_pos hp, if_pos hbd]; simp only [List.length_append, List.length_cons, List.length_nil]; omega
  have hacc := accumulates_all [(.number v.major, decimalText v.major), (.char 0x2E#8, [0x2E#8]),
    (.number v.minor, decimalText v.minor), (.char 0x2E#8, [0x2E#8])] (by
      intro p hp
      simp at hp
      rcases hp with rfl | rfl | rfl | rfl
      · exact hd _ h1
      · rfl
      · exact hd _ h2
      · rfl) [] (cap := buf.length) (by simp; omega)
  have hout := accumulates_unique ho1 hacc
  have hol : out.length + (decimalText v.patch).length = (text v).length := by
    rw [hout, htl]; simp; omega
  rw [hit, run, List.foldl_append, ← hol]
  exact number_zero ho2 v.patch (by omega) (by omega)

/-- **C35**: parsing the string made by `toString` gives back the version, build metadata included. (An error only when
there is no memory, and an empty string is made only when there is no memory.) -/
theorem C35_round_trip (alloc alloc' : Nat → Except Err MutView) (ha : AllocOk alloc) (ha' : AllocOk alloc') (v : Version)
    (hv : Admissible v) (hm : ∃ m, alloc v.bufferSize = .ok m) :
    (v.toString alloc).view = text v ∧
    (((∃ e, parseStr alloc' (v.toString alloc) = .ok (.error e)) ∧ ¬HasMemory alloc') ∨
      parseStr alloc' (v.toString alloc) = .ok (.ok v)) := by
  obtain ⟨m, hm⟩ := hm
  obtain ⟨hml, _⟩ := ha _ _ hm
  have hh := run_text v hv m.bytes hml
  have hlen := hv.2.2.2.2.2.2.2
  obtain ⟨_, h2, h3⟩ := StringBuilder.view_holds hh hlen
  have hts : v.toString alloc = StringBuilder.build (StringBuilder.run (.ofBuffer m.bytes) v.items) := by
    rw [toString, hm]
  rw [hts]
  refine ⟨h3, ?_⟩
  rw [parseStr, h3]
  refine C35_parse_text_partial alloc' ha' v hv _ fun hp hb => ?_
  have hz := run_text_zero v hv m.bytes hml hp hb
  have hdrop : (StringBuilder.build (StringBuilder.run (.ofBuffer m.bytes) v.items)).size = (text v).length := h2
  rw [hdrop]
  have hbuf : (StringBuilder.build (StringBuilder.run (.ofBuffer m.bytes) v.items)).buffer =
    (StringBuilder.run (.ofBuffer m.bytes) v.items).data := rfl
  rw [hbuf, List.drop_eq_getElem_cons (List.getElem?_eq_some_iff.mp hz).1, (List.getElem?_eq_some_iff.mp hz).2]
  exact ⟨0#8, _, rfl, by decide⟩

/-- **C35**: without memory the string is empty: size 0, no memory of its own. -/
theorem C35_no_memory (alloc : Nat → Except Err MutView) (v : Version) (e : Err) (h : alloc v.bufferSize = .error e) :
    (v.toString alloc).size = 0 ∧ (v.toString alloc).buffer.length = 0 ∧ (v.toString alloc).view = [] := by
  rw [toString, h]
  exact ⟨rfl, rfl, rfl⟩

example : (fun _ => .error .nomem : Nat → Except Err MutView) (Version.bufferSize ⟨1, 2, 3, [], []⟩) = .error .nomem := rfl

/-- **C35, negation**: parsing a view of the text "1.2.3" with nothing after it reads past the end of the memory. -/
theorem C35_view_negation : parse (fun n => .ok ⟨false, List.replicate n 7#8⟩) false
    [0x31#8, 0x2E#8, 0x32#8, 0x2E#8, 0x33#8] [] = .ub := by decide +kernel

/-- **C35, negation**: a pre-release label with a dash at its end is not read back. -/
theorem C35_dash_negation : text ⟨1, 2, 3, [0x61#8, 0x2D#8], []⟩ = [0x31#8, 0x2E#8, 0x32#8, 0x2E#8, 0x33#8, 0x2D#8, 0x61#8, 0x2D#8] ∧
    parse (fun n => .ok ⟨false, List.replicate n 7#8⟩) false
      [0x31#8, 0x2E#8, 0x32#8, 0x2E#8, 0x33#8, 0x2D#8, 0x61#8, 0x2D#8] [0#8] = .ok (.ok ⟨1, 2, 3, [0x61#8], []⟩) := by
  decide +kernel

example : Admissible ⟨1, 2, 3, [0x61#8], [0x62#8]⟩ := by
  refine ⟨by decide, by decide, by decide, by decide, by decide, by decide, by decide, by decide +kernel⟩
example : parseStr (fun n => .ok ⟨false, List.replicate n 7#8⟩)
    (toString (fun n => .ok ⟨false, List.replicate n 7#8⟩) ⟨10, 2, 30, [], []⟩) = .ok (.ok ⟨10, 2, 30, [], []⟩) := by
  decide +kernel

/-! ### C36 -/

theorem numbers_terminated (str : List Byte) (hs : str.length < 2 ^ 16) (ps : List (List Byte))
    (hp : IsSplit [0x2E#8] str ps) :
    ∃ r, (∀ after, numbers str (str ++ 0#8 :: after) = .ok r) ∧ (r = none ↔ ps.length < 3) ∧
      ∀ x, r = some x → x.2.2.2.length < 2 ^ 16 := by
  have hps : (splitChar str 0x2E#8).1 = ps := by
    rw [splitChar_eq _ _ hs]; exact isSplit_unique (scan_spec _ str (by simp)) hp
  have hjoin := isSplit_join hp
  have hdrop : ∀ k, k ≤ str.length → ∀ after, (str ++ 0#8 :: after).drop k = str.drop k ++ 0#8 :: after := by
    intro k hk after
    rw [List.drop_append_of_le_length hk]
  obtain ⟨v0, n0, _, hn0⟩ := number_terminated str
  match ps, hps, hjoin with
  | [], _, _ => exact absurd hp (by simp [IsSplit])
  | [p], hps, _ =>
    refine ⟨none, fun after => ?_, by simp, by simp⟩
    rw [numbers, hps]
    simp only
    rw [hn0]
    rfl
  | [p, q], hps, hjoin =>
    have hl : p.length + 1 ≤ str.length := by
      rw [← hjoin]; simp [List.intercalate]
    obtain ⟨v1, n1, _, hn1⟩ := number_terminated (str.drop (p.length + 1))
    refine ⟨none, fun after => ?_, by simp, by simp⟩
    rw [numbers, hps]
    simp only
    rw [hn0, hdrop _ hl, hn1]
    rfl
  | p :: q :: t :: ts, hps, hjoin =>
    have hl : p.length + 1 + q.length + 1 ≤ str.length := by
      rw [← hjoin]; simp [List.intercalate, List.intersperse_cons_cons]; omega
    obtain ⟨v1, n1, _, hn1⟩ := number_terminated (str.drop (p.length + 1))
    obtain ⟨v2, n2, hn2', hn2⟩ := number_terminated (str.drop (p.length + 1 + q.length + 1))
    rw [List.length_drop] at hn2'
    refine ⟨some (v0, v1, v2, str.drop (p.length + 1 + q.length + 1 + n2)), fun after => ?_, by simp, ?_⟩
    · rw [numbers, hps]
      simp only
      rw [hn0, hdrop _ (by omega), hn1, hdrop _ hl, hn2]
      simp only [Outcome.bind_ok]
      have hap : afterPatch str (str ++ 0#8 :: after) (p.length + 1 + q.length + 1 + n2) =
          .ok (str.drop (p.length + 1 + q.length + 1 + n2)) := by
        generalize hpe : p.length + 1 + q.length + 1 + n2 = pe
        rw [afterPatch]
        by_cases he : pe = str.length
        · rw [if_pos he, he, List.drop_length]
        · rw [if_neg he]
          have hsz : (((str.length : Int) - pe) % 65536).toNat = (str.drop pe).length := by
            rw [List.length_drop]; omega
          rw [hsz, if_pos (by rw [List.length_append, List.length_drop]; omega), hdrop _ (by omega), List.take_left]
      rw [hap]
      rfl
    · intro x hx
      cases hx
      simp only [List.length_drop]
      omega

/-- **C36** (partial: the text is followed by a zero byte in memory): parsing has no undefined behaviour, its result does
not depend on what else is in memory, and texts without three dot-separated pieces are rejected. Missing: views followed
by anything else, where the negation below holds. -/
theorem C36_terminated_partial (alloc : Nat → Except Err MutView) (str : List Byte) (hs : str.length < 2 ^ 16) :
    ∃ r, (∀ after, parse alloc false str (0#8 :: after) = .ok r) ∧
      ∀ ps, IsSplit [0x2E#8] str ps → ps.length < 3 → r = .error .invalidInput := by
  have hsplit := scan_spec [0x2E#8] str (by simp)
  obtain ⟨r, hr, hnone, _⟩ := numbers_terminated str hs _ hsplit
  match r, hr, hnone with
  | none, hr, hnone =>
    refine ⟨.error .invalidInput, fun after => ?_, fun ps _ _ => rfl⟩
    rw [parse, if_neg Bool.false_ne_true, hr]
    rfl
  | some (a, b, c, rest), hr, hnone =>
    refine ⟨match labels alloc rest with
      | .error e => .error e
      | .ok (pre, build) => .ok ⟨a, b, c, pre, build⟩, fun after => ?_, fun ps hps hlt => ?_⟩
    · rw [parse, if_neg Bool.false_ne_true, hr]
      simp only [Outcome.bind_ok]
      rcases labels alloc rest with e | ⟨pre, build⟩ <;> rfl
    · rw [isSplit_unique hps hsplit] at hlt
      exact absurd (hnone.mpr hlt) (by simp)

/-- **C36, negation**: the text "1.2.3" followed in memory by a zero gives 1.2.3; followed by the digit 4 and a zero the
patch number is 34 and the label is read from 65535 bytes of memory beyond the view. -/
theorem C36_depends_on_memory (after : List Byte) (ha : 65534 ≤ after.length) :
    numbers [0x31#8, 0x2E#8, 0x32#8, 0x2E#8, 0x33#8] ([0x31#8, 0x2E#8, 0x32#8, 0x2E#8, 0x33#8] ++ 0#8 :: after) =
      .ok (some (1, 2, 3, [])) ∧
    numbers [0x31#8, 0x2E#8, 0x32#8, 0x2E#8, 0x33#8] ([0x31#8, 0x2E#8, 0x32#8, 0x2E#8, 0x33#8] ++ 0x34#8 :: 0#8 :: after) =
      .ok (some (1, 2, 34, 0#8 :: after.take 65534)) := by
  have h1 : decimalText 1 = [0x31#8] := by decide +kernel
  have h2 : decimalText 2 = [0x32#8] := by decide +kernel
  have h3 : decimalText 3 = [0x33#8] := by decide +kernel
  have h34 : decimalText 34 = [0x33#8, 0x34#8] := by decide +kernel
  constructor
  · have := numbers_text ⟨1, 2, 3, [], []⟩ (by decide) (by decide) (by decide) (by decide +kernel) (0#8 :: after) (fun _ => ⟨0#8, after, rfl, by decide⟩)
    have ht : text ⟨1, 2, 3, [], []⟩ = [0x31#8, 0x2E#8, 0x32#8, 0x2E#8, 0x33#8] := by decide +kernel
    rw [ht] at this
    exact this
  · have hsp : (splitChar [0x31#8, 0x2E#8, 0x32#8, 0x2E#8, 0x33#8] 0x2E#8).1 = [[0x31#8], [0x32#8], [0x33#8]] := by
      decide +kernel
    have n1 := number_decimal 1 (by omega) 0x2E#8 ([0x32#8, 0x2E#8, 0x33#8] ++ 0x34#8 :: 0#8 :: after) (by decide)
    have n2 := number_decimal 2 (by omega) 0x2E#8 ([0x33#8] ++ 0x34#8 :: 0#8 :: after) (by decide)
    have n3 := number_decimal 34 (by omega) 0#8 after (by decide)
    rw [h1] at n1
    rw [h2] at n2
    rw [h34] at n3
    rw [numbers, hsp]
    simp only
    have e0 : [0x31#8, 0x2E#8, 0x32#8, 0x2E#8, 0x33#8] ++ 0x34#8 :: 0#8 :: after =
      [0x31#8] ++ 0x2E#8 :: ([0x32#8, 0x2E#8, 0x33#8] ++ 0x34#8 :: 0#8 :: after) := rfl
    have e1 : ([0x31#8, 0x2E#8, 0x32#8, 0x2E#8, 0x33#8] ++ 0x34#8 :: 0#8 :: after).drop ([0x31#8].length + 1) =
      [0x32#8] ++ 0x2E#8 :: ([0x33#8] ++ 0x34#8 :: 0#8 :: after) := rfl
    have e2 : ([0x31#8, 0x2E#8, 0x32#8, 0x2E#8, 0x33#8] ++ 0x34#8 :: 0#8 :: after).drop
      ([0x31#8].length + 1 + [0x32#8].length + 1) = [0x33#8, 0x34#8] ++ 0#8 :: after := rfl
    rw [e1, e2, n2, n3, e0, n1, ← e0]
    simp only [Outcome.bind_ok]
    have hap : afterPatch [0x31#8, 0x2E#8, 0x32#8, 0x2E#8, 0x33#8]
        ([0x31#8, 0x2E#8, 0x32#8, 0x2E#8, 0x33#8] ++ 0x34#8 :: 0#8 :: after)
        ([0x31#8].length + 1 + [0x32#8].length + 1 + [0x33#8, 0x34#8].length) = .ok (0#8 :: after.take 65534) := by
      simp only [List.length_cons, List.length_nil]
      rw [afterPatch, if_neg (by simp)]
      simp only [List.length_append, List.length_cons, List.length_nil]
      rw [if_pos (by omega)]
      rfl
    rw [hap]
    rfl

/-- **C36, negation**: the text "1.2.3" with nothing after it in memory is undefined behaviour; "a.b.c" is accepted as
0.0.0 with label "c"; "4294967296.0.0" is accepted as 0.0.0; an empty view without data is undefined behaviour. -/
theorem C36_accepts_negation :
    parse (fun n => .ok ⟨false, List.replicate n 7#8⟩) false [0x31#8, 0x2E#8, 0x32#8, 0x2E#8, 0x33#8] [] = .ub ∧
    parse (fun n => .ok ⟨false, List.replicate n 7#8⟩) false [0x61#8, 0x2E#8, 0x62#8, 0x2E#8, 0x63#8] [0#8] =
      .ok (.ok ⟨0, 0, 0, [0x63#8], []⟩) ∧
    parse (fun n => .ok ⟨false, List.replicate n 7#8⟩) false
      [0x34#8, 0x32#8, 0x39#8, 0x34#8, 0x39#8, 0x36#8, 0x37#8, 0x32#8, 0x39#8, 0x36#8, 0x2E#8, 0x30#8, 0x2E#8, 0x30#8]
      [0#8] = .ok (.ok ⟨0, 0, 0, [], []⟩) ∧
    parse (fun n => .ok ⟨false, List.replicate n 7#8⟩) true [] [] = .ub := by
  decide +kernel

end Solace.Version
