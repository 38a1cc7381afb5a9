import Verif.Props.C03_C05_ByteWriter
import Verif.Model.Uuid
import Verif.Spec.Strings
import Verif.Spec.Hex
import Verif.Lemmas.Base16
import Verif.Lemmas.Chunks
import Verif.Lemmas.String
import Verif.Lemmas.MemoryView
import Verif.Props.C09_C11_Base16
import Verif.Props.C21_C28_StringView
/-
C37-C39: UUIDs.
-/
namespace Solace.Uuid
open ByteWriter Base16 Strings

/-- The canonical form: groups of 8, 4, 4, 4 and 12 characters. -/
def join (a b c d e : List Byte) : List Byte := a ++ 0x2D#8 :: (b ++ 0x2D#8 :: (c ++ 0x2D#8 :: (d ++ 0x2D#8 :: e)))

/-- The text of a UUID: the hexadecimal text of bytes 0-3, 4-5, 6-7, 8-9 and 10-15, separated by dashes. -/
def text (u : List Byte) : List Byte :=
  join (Hex.text (u.take 4)) (Hex.text ((u.drop 4).take 2)) (Hex.text ((u.drop 6).take 2)) (Hex.text ((u.drop 8).take 2))
    (Hex.text ((u.drop 10).take 6))

/-- 32 digits with dashes in the canonical places. -/
def Canonical (s : List Byte) : Prop :=
  ∃ a b c d e, s = join a b c d e ∧ a.length = 8 ∧ b.length = 4 ∧ c.length = 4 ∧ d.length = 4 ∧ e.length = 12 ∧
    ∀ x ∈ a ++ b ++ c ++ d ++ e, Hex.IsDigit x

/-- A UUID is the concatenation of its groups. -/
theorem cut (u : List Byte) (hu : u.length = 16) :
    u.take 4 ++ ((u.drop 4).take 2 ++ ((u.drop 6).take 2 ++ ((u.drop 8).take 2 ++ (u.drop 10).take 6))) = u := by
  have h : ∀ i k, (u.drop i).take k ++ u.drop (i + k) = u.drop i := by
    intro i k
    rw [← List.drop_drop, List.take_append_drop]
  rw [List.take_of_length_le (l := u.drop 10) (by rw [List.length_drop]; omega), h 8 2, h 6 2, h 4 2, List.take_append_drop]

theorem hexText_append (a b : List Byte) : Hex.text (a ++ b) = Hex.text a ++ Hex.text b := by
  simp [Hex.text]

theorem text_length' (u : List Byte) (h : u.length = 16) : (text u).length = 36 := by
  simp only [text, join, List.length_append, List.length_cons, Base16.text_length, List.length_take, List.length_drop]
  omega

theorem encode_wrote (w : ByteWriter) (h : w.Ready) (bs : List Byte) (hf : w.position + 2 * bs.length ≤ w.limit) :
    (Base16.encode w bs).1 = w.wrote (Hex.text bs) := by
  rw [C09_text bs w h hf]

/-- Writing into any buffer of at least 36 bytes gives the text. -/
theorem toStringInto_eq (u buffer : List Byte) (hu : u.length = 16) (hb : 36 ≤ buffer.length)
    (hm : buffer.length < 2 ^ 64) : toStringInto u buffer = text u := by
  have hw : (ByteWriter.ofBuffer buffer).Ready := ⟨Nat.zero_le _, Nat.le_refl _, hm⟩
  have step : ∀ (acc bs : List Byte), acc.length + 2 * bs.length ≤ 36 →
      (Base16.encode ((ByteWriter.ofBuffer buffer).wrote acc) bs).1 = (ByteWriter.ofBuffer buffer).wrote (acc ++ Hex.text bs) := by
    intro acc bs hl
    obtain ⟨h1, h2, h3⟩ := wrote_ready _ acc hw (by simp [ByteWriter.ofBuffer]; omega)
    rw [encode_wrote _ h1 _ (by rw [h2, h3]; simp [ByteWriter.ofBuffer]; omega), wrote_wrote]
    simp [ByteWriter.ofBuffer]; omega
  have dash : ∀ (acc : List Byte), acc.length + 1 ≤ 36 →
      (((ByteWriter.ofBuffer buffer).wrote acc).write [0x2D#8]).1 = (ByteWriter.ofBuffer buffer).wrote (acc ++ [0x2D#8]) := by
    intro acc hl
    obtain ⟨h1, h2, h3⟩ := wrote_ready _ acc hw (by simp [ByteWriter.ofBuffer]; omega)
    rw [write_ready _ _ h1 (by rw [h2, h3]; simp [ByteWriter.ofBuffer]; omega), wrote_wrote]
    simp [ByteWriter.ofBuffer]; omega
  have s1 : MemoryView.slice u 0 4 = u.take 4 := by rw [slice_eq]; rfl
  have s2 : MemoryView.slice u 4 6 = (u.drop 4).take 2 := by rw [slice_eq]
  have s3 : MemoryView.slice u 6 8 = (u.drop 6).take 2 := by rw [slice_eq]
  have s4 : MemoryView.slice u 8 10 = (u.drop 8).take 2 := by rw [slice_eq]
  have s5 : MemoryView.slice u 10 16 = (u.drop 10).take 6 := by rw [slice_eq]
  rw [toStringInto, s1, s2, s3, s4, s5]
  have h0 := step [] (u.take 4) (by simp; omega)
  rw [wrote_nil] at h0
  have L4 : ∀ bs : List Byte, (Hex.text bs).length = 2 * bs.length := Base16.text_length
  simp only [h0]
  rw [dash _ (by simp [L4]; omega), step _ _ (by simp [L4]; omega), dash _ (by simp [L4]; omega),
    step _ _ (by simp [L4]; omega), dash _ (by simp [L4]; omega), step _ _ (by simp [L4]; omega),
    dash _ (by simp [L4]; omega), step _ _ (by simp [L4]; omega)]
  have ht : [] ++ Hex.text (u.take 4) ++ [0x2D#8] ++ Hex.text ((u.drop 4).take 2) ++ [0x2D#8] ++
      Hex.text ((u.drop 6).take 2) ++ [0x2D#8] ++ Hex.text ((u.drop 8).take 2) ++ [0x2D#8] ++
      Hex.text ((u.drop 10).take 6) = text u := by
    simp [text, join]
  rw [ht, slice_eq]
  simp only [stringSize, wrote, ByteWriter.ofBuffer, List.drop_zero, Nat.sub_zero]
  have hl := text_length' u hu
  simp only [overwrite, List.take_zero, List.nil_append]
  rw [← hl, List.take_left]

theorem parseLoop_dash (n : Nat) (rest done : List Byte) :
    parseLoop (n + 1) (0x2D#8 :: rest) done = parseLoop n rest done := by
  rw [parseLoop.eq_def]
  simp only [if_true]

theorem parseLoop_pair (n : Nat) (c d : Byte) (hc : c ≠ 0x2D#8) (rest done : List Byte) :
    parseLoop (n + 1) (c :: d :: rest) done =
      match Base16.decode16 c d with
      | .ok (.ok v) => if done.length < staticSize then parseLoop (n - 1) rest (done ++ [v]) else .ub
      | .ok (.error e) => .ok (.error e)
      | .throws => .throws
      | .terminate => .terminate
      | .ub => .ub := by
  rw [parseLoop.eq_def]
  simp only
  rw [if_neg hc]
  rfl

theorem digit_not_dash (c : Byte) (h : Hex.IsDigit c) : c ≠ 0x2D#8 := by
  rintro rfl; exact absurd h (by decide)

/-- The loop over a run of hexadecimal digits. -/
theorem parseLoop_hex (s bs : List Byte) (h : Hex.parse s = some bs) (n : Nat) (rest done : List Byte)
    (hd : done.length + bs.length ≤ 16) :
    parseLoop (s.length + n) (s ++ rest) done = parseLoop n rest (done ++ bs) := by
  induction s using Hex.parse.induct generalizing bs done with
  | case1 => cases h; simp
  | case2 => cases h
  | case3 a b tl hh l bs' hr hb ha ih =>
    rw [Hex.parse, ha, hb, hr] at h
    cases h
    have hda : Hex.IsDigit a := by rw [Hex.IsDigit, ha]; simp
    have hdb : Hex.IsDigit b := by rw [Hex.IsDigit, hb]; simp
    simp only [List.length_cons] at hd
    have e : (a :: b :: tl).length + n = (tl.length + n + 1) + 1 := by simp; omega
    rw [e, List.cons_append, List.cons_append, parseLoop_pair _ _ _ (digit_not_dash a hda), decode16_eq _ _ (value_ascii a hda) (value_ascii b hdb), ha, hb]
    simp only
    rw [if_pos (by simp [staticSize]; omega), Nat.add_sub_cancel, ih bs' hr _ (by simp; omega)]
    simp
  | case4 a b tl hx ih =>
    rw [Hex.parse] at h
    split at h
    · next h1 h2 h3 => exact absurd h3 (hx _ _ _ h1 h2)
    · cases h

theorem parse_join (a b c d e ba bb bc bd be : List Byte) (ha : Hex.parse a = some ba) (hb : Hex.parse b = some bb)
    (hc : Hex.parse c = some bc) (hd : Hex.parse d = some bd) (he : Hex.parse e = some be)
    (hl : ba.length + bb.length + bc.length + bd.length + be.length = 16) (hj : (join a b c d e).length = 36)
    (stack after : List Byte) (hs : stack.length = 16) :
    parse stack (join a b c d e) after = .ok (.ok (ba ++ bb ++ bc ++ bd ++ be)) := by
  have h : parseLoop stringSize (join a b c d e ++ after) [] = .ok (.ok (ba ++ bb ++ bc ++ bd ++ be)) := by
    have e1 : stringSize = a.length + (b.length + (c.length + (d.length + (e.length + 0) + 1) + 1) + 1 + 1) := by
      simp only [join, List.length_append, List.length_cons] at hj
      rw [stringSize]; omega
    have e2 : join a b c d e ++ after = a ++ 0x2D#8 :: (b ++ 0x2D#8 :: (c ++ 0x2D#8 :: (d ++ 0x2D#8 :: (e ++ after)))) := by
      simp [join]
    rw [e1, e2, parseLoop_hex a ba ha _ _ _ (by simp; omega), parseLoop_dash]
    rw [show b.length + (c.length + (d.length + (e.length + 0) + 1) + 1) + 1 =
      b.length + (c.length + (d.length + (e.length + 0) + 1) + 1 + 1) by omega,
      parseLoop_hex b bb hb _ _ _ (by simp; omega), parseLoop_dash,
      show c.length + (d.length + (e.length + 0) + 1) + 1 = c.length + (d.length + (e.length + 0) + 1 + 1) by omega,
      parseLoop_hex c bc hc _ _ _ (by simp; omega), parseLoop_dash,
      show d.length + (e.length + 0) + 1 = d.length + (e.length + 0 + 1) by omega,
      parseLoop_hex d bd hd _ _ _ (by simp; omega), parseLoop_dash]
    have := parseLoop_hex e be he 0 after ([] ++ ba ++ bb ++ bc ++ bd) (by simp; omega)
    rw [Nat.add_zero] at this
    rw [this, parseLoop.eq_def]
    simp
  rw [parse, if_neg (by rw [hj]; simp [stringSize]), h]
  simp only [Outcome.bind_ok]
  rw [List.drop_of_length_le (by simp; omega), List.append_nil]
  rfl

/-- **C37** (full): for every 16-byte value the text is 36 characters of lower-case digits in groups of 8, 4, 4, 4 and 12,
whatever was in the buffer, and parsing it gives the value back, whatever is in memory after it or was on the stack. -/
theorem C37_round_trip (u : List Byte) (hu : u.length = 16) (buffer stack after : List Byte) (hb : 36 ≤ buffer.length)
    (hm : buffer.length < 2 ^ 64) (hs : stack.length = 16) :
    toStringInto u buffer = text u ∧ (text u).length = 36 ∧
    parse stack (toStringInto u buffer) after = .ok (.ok u) := by
  have h1 := toStringInto_eq u buffer hu hb hm
  have h2 := text_length' u hu
  refine ⟨h1, h2, ?_⟩
  rw [h1, text]
  rw [text] at h2
  rw [parse_join _ _ _ _ _ _ _ _ _ _ (Base16.parse_text _) (Base16.parse_text _) (Base16.parse_text _)
    (Base16.parse_text _) (Base16.parse_text _) (by simp only [List.length_take, List.length_drop]; omega) h2 _ _ hs]
  simp only [List.append_assoc]
  rw [cut u hu]

theorem text_canonical (u : List Byte) (hu : u.length = 16) : Canonical (text u) ∧
    ∀ c ∈ text u, c = 0x2D#8 ∨ Hex.IsLowerDigit c := by
  have hlow : ∀ (bs : List Byte), ∀ c ∈ Hex.text bs, Hex.IsLowerDigit c := by
    intro bs c hc
    simp only [Hex.text, List.mem_flatMap] at hc
    obtain ⟨b, _, hc⟩ := hc
    simp only [List.mem_cons, List.not_mem_nil, or_false] at hc
    rcases hc with rfl | rfl
    · exact digit_lower _ (by omega)
    · exact digit_lower _ (by omega)
  have hdig : ∀ (bs : List Byte), ∀ c ∈ Hex.text bs, Hex.IsDigit c := by
    intro bs c hc
    have : ∀ c : Byte, Hex.IsLowerDigit c → Hex.IsDigit c := by decide +kernel
    exact this c (hlow bs c hc)
  constructor
  · refine ⟨_, _, _, _, _, rfl, ?_, ?_, ?_, ?_, ?_, ?_⟩
    all_goals try (simp only [Base16.text_length, List.length_take, List.length_drop]; omega)
    intro x hx
    simp only [List.mem_append] at hx
    rcases hx with (((hx | hx) | hx) | hx) | hx <;> exact hdig _ _ hx
  · intro c hc
    simp only [text, join, List.mem_append, List.mem_cons] at hc
    rcases hc with h | h | h | h | h | h | h | h | h
    all_goals first | exact .inl h | exact .inr (hlow _ _ h)

/-- **C37** for the `String` returned by `toString()`: when memory can be had, its view is the canonical lower-case text
and parsing it gives the UUID back. -/
theorem C37_string (alloc : Nat → Except Err MutView) (ha : Str.AllocOk alloc) (v : MutView) (hv : alloc 36 = .ok v)
    (hnn : v.null = false) (u : List Byte) (hu : u.length = 16) (buffer stack after : List Byte)
    (hb : buffer.length = 36) (hs : stack.length = 16) :
    (toString alloc buffer u).view = text u ∧ Canonical (text u) ∧ (∀ c ∈ text u, c = 0x2D#8 ∨ Hex.IsLowerDigit c) ∧
    parse stack (toString alloc buffer u).view after = .ok (.ok u) := by
  obtain ⟨h1, h2, h3⟩ := C37_round_trip u hu buffer stack after (by omega) (by omega) hs
  have hview : (toString alloc buffer u).view = text u := by
    rw [toString, h1]
    have hmake : ∃ t, Str.make alloc (text u) = .ok t ∧ t.view = text u := by
      have hlen := ha 36 v hv
      refine ⟨⟨text u ++ v.bytes.drop (text u).length, (text u).length⟩, ?_, ?_⟩
      · rw [Str.make, h2, hv]
        simp only
        rw [MutView.write, if_neg (by simp [hnn]), if_neg (by rw [h2]; have := hlen.1; omega)]
        simp only [h2]
      · rw [Str.view, slice_eq, List.drop_zero, Nat.sub_zero, List.take_left]
    obtain ⟨t, ht, hv'⟩ := hmake
    rw [ht]
    exact hv'
  refine ⟨hview, (text_canonical u hu).1, (text_canonical u hu).2, ?_⟩
  rw [hview, ← h1, h3]

example : (List.range 16).length = 16 ∧ text ((List.range 16).map (BitVec.ofNat 8)) =
    "00010203-0405-0607-0809-0a0b0c0d0e0f".toList.map (fun c => BitVec.ofNat 8 c.toNat) := by decide +kernel

/-! ### C38 -/

/-- The characters other than dashes. -/
def others (s : List Byte) : List Byte := s.filter fun c : Byte => c ≠ 0x2D#8

theorem others_dash (s : List Byte) : others (0x2D#8 :: s) = others s := by simp [others]

theorem others_cons (c : Byte) (h : c ≠ 0x2D#8) (s : List Byte) : others (c :: s) = c :: others s := by simp [others, h]

theorem mem_others (c : Byte) (s : List Byte) : c ∈ others s ↔ c ∈ s ∧ c ≠ 0x2D#8 := by simp [others]

/-- Every dash comes after an even number of other characters. -/
def EvenDashes (s : List Byte) : Prop :=
  ∀ p q, s = p ++ 0x2D#8 :: q → (others p).length % 2 = 0

theorem evenDashes_dash (t : List Byte) : EvenDashes (0x2D#8 :: t) ↔ EvenDashes t := by
  constructor
  · intro h p q e
    have := h (0x2D#8 :: p) q (by rw [e]; rfl)
    rwa [others_dash] at this
  · intro h p q e
    match p with
    | [] => rfl
    | c :: p' =>
      simp only [List.cons_append, List.cons.injEq] at e
      obtain ⟨rfl, e⟩ := e
      have := h p' q e
      rwa [others_dash]

theorem evenDashes_pair (c d : Byte) (hc : c ≠ 0x2D#8) (hd : d ≠ 0x2D#8) (t : List Byte) :
    EvenDashes (c :: d :: t) ↔ EvenDashes t := by
  constructor
  · intro h p q e
    have := h (c :: d :: p) q (by rw [e]; rfl)
    rw [others_cons c hc, others_cons d hd] at this
    simp only [List.length_cons] at this
    omega
  · intro h p q e
    match p with
    | [] => exact absurd (List.cons.inj e).1 hc
    | [x] =>
      simp only [List.cons_append, List.nil_append, List.cons.injEq] at e
      exact absurd e.2.1 hd
    | x :: y :: p' =>
      simp only [List.cons_append, List.cons.injEq] at e
      obtain ⟨rfl, rfl, e⟩ := e
      have := h p' q e
      rw [others_cons c hc, others_cons d hd]
      simp only [List.length_cons]
      omega

theorem parse_pair_none (a b : Byte) (t : List Byte) (h : Hex.value a = none ∨ Hex.value b = none ∨ Hex.parse t = none) :
    Hex.parse (a :: b :: t) = none := by
  rw [Hex.parse]
  split
  · next h1 h2 h3 => rcases h with h | h | h <;> simp_all
  · rfl

theorem parseLoop_spec : ∀ (k : Nat) (s : List Byte), s.length = k → (∀ c ∈ s, c.toNat < 128) →
    ∀ (done after : List Byte), 2 * done.length + (others s).length = 32 →
    (∃ bs, Hex.parse (others s) = some bs ∧ EvenDashes s ∧
      parseLoop s.length (s ++ after) done = .ok (.ok (done ++ bs))) ∨
    (¬(EvenDashes s ∧ (Hex.parse (others s)).isSome) ∧
      ∃ e, parseLoop s.length (s ++ after) done = .ok (.error e)) := by
  intro k
  induction k using Nat.strongRecOn with
  | _ k ih =>
    intro s hk hascii done after hcount
    match s with
    | [] =>
      refine .inl ⟨[], rfl, ?_, ?_⟩
      · intro p q e
        simp at e
      · rw [parseLoop.eq_def]; simp
    | c :: t =>
      by_cases hc : c = 0x2D#8
      · subst hc
        rw [others_dash] at hcount ⊢
        rw [List.length_cons, List.cons_append, parseLoop_dash, evenDashes_dash]
        exact ih t.length (by simp at hk; omega) t rfl (fun c h => hascii c (by simp [h])) done after hcount
      · rw [others_cons c hc] at hcount ⊢
        rw [List.length_cons] at hcount
        match t with
        | [] => have : (others []).length = 0 := rfl
                omega
        | d :: t' =>
          have ha1 := hascii c (by simp)
          have ha2 := hascii d (by simp)
          have hstep : parseLoop (c :: d :: t').length (c :: d :: t' ++ after) done =
              match Base16.decode16 c d with
              | .ok (.ok v) => if done.length < staticSize then parseLoop t'.length (t' ++ after) (done ++ [v]) else .ub
              | .ok (.error e) => .ok (.error e)
              | .throws => .throws
              | .terminate => .terminate
              | .ub => .ub := by
            rw [List.length_cons, List.length_cons, List.cons_append, List.cons_append, parseLoop_pair _ _ _ hc,
              Nat.add_sub_cancel]
          rw [hstep, decode16_eq _ _ ha1 ha2]
          by_cases hd : d = 0x2D#8
          · subst hd
            refine .inr ⟨fun h => ?_, .ilseq, ?_⟩
            · have := h.1 [c] t' rfl
              rw [others_cons c hc] at this
              simp [others] at this
            · have : Hex.value 0x2D#8 = none := by decide
              rw [this]
              cases Hex.value c <;> rfl
          · rw [others_cons d hd] at hcount ⊢
            rw [List.length_cons] at hcount
            rw [evenDashes_pair c d hc hd]
            cases h1 : Hex.value c with
            | none =>
              refine .inr ⟨?_, .ilseq, rfl⟩
              rw [parse_pair_none _ _ _ (.inl h1)]
              simp
            | some x =>
              cases h2 : Hex.value d with
              | none =>
                refine .inr ⟨?_, .ilseq, rfl⟩
                rw [parse_pair_none _ _ _ (.inr (.inl h2))]
                simp
              | some y =>
                simp only
                rw [if_pos (by simp [staticSize]; omega)]
                rcases ih t'.length (by simp at hk; omega) t' rfl (fun c h => hascii c (by simp [h]))
                  (done ++ [BitVec.ofNat 8 (16 * x + y)]) after (by simp at hcount ⊢; omega) with
                  ⟨bs, h3, h4, h5⟩ | ⟨h3, e, h4⟩
                · refine .inl ⟨BitVec.ofNat 8 (16 * x + y) :: bs, ?_, h4, ?_⟩
                  · rw [Hex.parse, h1, h2, h3]
                  · rw [h5]; simp
                · refine .inr ⟨fun h => h3 ⟨h.1, ?_⟩, e, h4⟩
                  cases hp : Hex.parse (others t') with
                  | none => rw [parse_pair_none _ _ _ (.inr (.inr hp))] at h; simp at h
                  | some _ => rfl

theorem count_filter (s : List Byte) : s.count 0x2D#8 + (others s).length = s.length := by
  induction s with
  | nil => rfl
  | cons c t ih =>
    by_cases hc : c = 0x2D#8
    · subst hc; rw [others_dash, List.count_cons_self, List.length_cons]; omega
    · rw [others_cons c hc, List.count_cons_of_ne hc, List.length_cons, List.length_cons]; omega

/-- **C38** (partial): a text whose size is not 36 is an error. An ASCII text of 36 characters with exactly four dashes is
handled without undefined behaviour, independently of the memory around: it is accepted exactly when the other 32
characters are digits and each dash comes after an even number of them, and then the value is that of the digits.
Missing: dashes are not required to be in the canonical places, and with any other number of dashes or with non-ASCII
characters the negations below hold. -/
theorem C38_four_dashes_partial (stack str after : List Byte) (hs : stack.length = 16) :
    (str.length ≠ 36 → ∃ e, parse stack str after = .ok (.error e)) ∧
    (str.length = 36 → (∀ c ∈ str, c.toNat < 128) → str.count 0x2D#8 = 4 →
      (∃ u, parse stack str after = .ok (.ok u) ∧ EvenDashes str ∧ Hex.parse (others str) = some u) ∨
      ((∃ e, parse stack str after = .ok (.error e)) ∧
        ¬(EvenDashes str ∧ ∀ c ∈ str, c ≠ 0x2D#8 → Hex.IsDigit c))) := by
  constructor
  · intro h
    exact ⟨.nodata, by rw [parse, show stringSize = 36 from rfl, if_pos h]⟩
  · intro hl hascii hcount
    have hcf := count_filter str
    rw [hcount, hl] at hcf
    have key := parseLoop_spec _ str rfl hascii [] after (by simp only [List.length_nil]; omega)
    rw [hl] at key
    rcases key with ⟨bs, h1, h2, h3⟩ | ⟨h1, e, h2⟩
    · refine .inl ⟨bs, ?_, h2, h1⟩
      rw [parse, if_neg (by rw [hl]; simp [stringSize]), show stringSize = 36 from rfl, h3]
      simp only [Outcome.bind_ok, List.nil_append]
      have hlen : bs.length = 16 := by
        have := Base16.text_parse _ _ h1
        have := congrArg List.length this
        rw [Base16.text_length, List.length_map] at this
        omega
      rw [List.drop_of_length_le (by omega), List.append_nil]
      rfl
    · refine .inr ⟨⟨e, ?_⟩, fun h => h1 ⟨h.1, ?_⟩⟩
      · rw [parse, if_neg (by rw [hl]; simp [stringSize]), show stringSize = 36 from rfl, h2]
        rfl
      · rw [Base16.parse_isSome_iff]
        refine ⟨by omega, fun c hc => ?_⟩
        rw [mem_others] at hc
        exact h.2 c hc.1 hc.2

/-- Canonical texts are accepted, and the value is that of their digits. -/
theorem C38_accepts_canonical (stack str after : List Byte) (hs : stack.length = 16) (hc : Canonical str) :
    ∃ u, parse stack str after = .ok (.ok u) ∧ u.length = 16 ∧ text u = str.map Hex.toLower := by
  obtain ⟨a, b, c, d, e, rfl, ha, hb, hc, hd, he, hx⟩ := hc
  have part : ∀ p : List Byte, p.length % 2 = 0 → (∀ x ∈ p, x ∈ a ++ b ++ c ++ d ++ e) →
      ∃ bs, Hex.parse p = some bs ∧ 2 * bs.length = p.length ∧ Hex.text bs = p.map Hex.toLower := by
    intro p hp hm
    obtain ⟨bs, hbs⟩ := Option.isSome_iff_exists.mp ((Base16.parse_isSome_iff p).mpr ⟨hp, fun x h => hx x (hm x h)⟩)
    have h1 := Base16.text_parse _ _ hbs
    have h2 := congrArg List.length h1
    rw [Base16.text_length, List.length_map] at h2
    exact ⟨bs, hbs, h2, h1⟩
  obtain ⟨ba, pa, la, ta⟩ := part a (by omega) (by simp +contextual)
  obtain ⟨bb, pb, lb, tb⟩ := part b (by omega) (by simp +contextual)
  obtain ⟨bc, pc, lc, tc⟩ := part c (by omega) (by simp +contextual)
  obtain ⟨bd, pd, ld, td⟩ := part d (by omega) (by simp +contextual)
  obtain ⟨be, pe, le, te⟩ := part e (by omega) (by simp +contextual)
  refine ⟨_, parse_join a b c d e ba bb bc bd be pa pb pc pd pe (by omega)
    (by simp only [join, List.length_append, List.length_cons]; omega) stack after hs, ?_, ?_⟩
  · simp only [List.length_append]; omega
  · have l4 : ba.length = 4 := by omega
    have l2 : bb.length = 2 := by omega
    have l2' : bc.length = 2 := by omega
    have l2'' : bd.length = 2 := by omega
    have l6 : be.length = 6 := by omega
    have hdash : Hex.toLower 0x2D#8 = 0x2D#8 := by decide
    simp only [join, List.map_append, List.map_cons, hdash, ← ta, ← tb, ← tc, ← td, ← te]
    have e1 : (ba ++ bb ++ bc ++ bd ++ be).take 4 = ba := by
      rw [List.append_assoc, List.append_assoc, List.append_assoc, ← l4, List.take_left]
    have e2 : ((ba ++ bb ++ bc ++ bd ++ be).drop 4).take 2 = bb := by
      rw [List.append_assoc, List.append_assoc, List.append_assoc, ← l4, List.drop_left, ← l2, List.take_left]
    have e3 : ((ba ++ bb ++ bc ++ bd ++ be).drop 6).take 2 = bc := by
      rw [show ba ++ bb ++ bc ++ bd ++ be = (ba ++ bb) ++ (bc ++ (bd ++ be)) by simp,
        show 6 = (ba ++ bb).length by simp; omega, List.drop_left, ← l2', List.take_left]
    have e4 : ((ba ++ bb ++ bc ++ bd ++ be).drop 8).take 2 = bd := by
      rw [show ba ++ bb ++ bc ++ bd ++ be = (ba ++ bb ++ bc) ++ (bd ++ be) by simp,
        show 8 = (ba ++ bb ++ bc).length by simp; omega, List.drop_left, ← l2'', List.take_left]
    have e5 : ((ba ++ bb ++ bc ++ bd ++ be).drop 10).take 6 = be := by
      rw [show 10 = (ba ++ bb ++ bc ++ bd).length by simp; omega, List.drop_left, List.take_of_length_le (by omega)]
    rw [text, e1, e2, e3, e4, e5]
    rfl

/-- **C38, negation**: texts that are not canonical are accepted - dashes in front of 32 digits; with 36 dashes the result
is whatever was on the stack. -/
theorem C38_accepts_other (stack after : List Byte) (hs : stack.length = 16) :
    ¬Canonical (List.replicate 4 0x2D#8 ++ List.replicate 32 0x30#8) ∧
    parse stack (List.replicate 4 0x2D#8 ++ List.replicate 32 0x30#8) after = .ok (.ok (List.replicate 16 0#8)) ∧
    parse stack (List.replicate 36 0x2D#8) after = .ok (.ok stack) := by
  refine ⟨?_, ?_, ?_⟩
  · rintro ⟨a, b, c, d, e, h, ha, _, _, _, _, hx⟩
    match a, ha with
    | x :: a', _ =>
      have h1 := (List.cons.inj h).1
      exact digit_not_dash x (hx x (by simp)) h1.symm
  · have h4 := (C38_four_dashes_partial _ (List.replicate 4 0x2D#8 ++ List.replicate 32 0x30#8) after hs).2
      (by decide) (by decide +kernel) (by decide +kernel)
    have even : EvenDashes (List.replicate 4 0x2D#8 ++ List.replicate 32 0x30#8) := by
      simp only [List.replicate_succ (n := 3), List.replicate_succ (n := 2), List.replicate_succ (n := 1),
        List.replicate_succ (n := 0), List.replicate_zero, List.cons_append, List.nil_append, evenDashes_dash]
      intro p q e
      have : 0x2D#8 ∈ List.replicate 32 0x30#8 := by rw [e]; simp
      rw [List.mem_replicate] at this
      exact absurd this.2 (by decide)
    rcases h4 with ⟨u, hu, _, hp⟩ | ⟨⟨e, he⟩, hn⟩
    · have : Hex.parse (others (List.replicate 4 0x2D#8 ++ List.replicate 32 0x30#8)) =
          some (List.replicate 16 0#8) := by decide +kernel
      rw [hp] at this
      cases this
      exact hu
    · exact absurd ⟨even, by decide +kernel⟩ hn
  · have h : ∀ n, parseLoop n (List.replicate n 0x2D#8 ++ after) [] = .ok (.ok []) := by
      intro n
      induction n with
      | zero => rw [parseLoop.eq_def]
      | succ n ih => rw [List.replicate_succ, List.cons_append, parseLoop_dash, ih]
    rw [parse, if_neg (by simp [stringSize]), show stringSize = 36 from rfl, h 36]
    rfl

/-- **C38, negation**: 36 digits without dashes store 18 bytes into the array of 16; a character above 127 indexes the
digit table out of bounds; with a dash at the very front the last digit is paired with memory after the text. -/
theorem C38_undefined (stack after : List Byte) :
    parse stack (List.replicate 36 0x30#8) after = .ub ∧
    (∀ c : Byte, 128 ≤ c.toNat → ∀ rest : List Byte, rest.length = 35 → parse stack (c :: rest) after = .ub) ∧
    parse stack (List.replicate 5 0x2D#8 ++ List.replicate 31 0x30#8) [] = .ub := by
  refine ⟨?_, ?_, ?_⟩
  · have h := parseLoop_hex (List.replicate 32 0x30#8) (List.replicate 16 0#8) (by decide +kernel) 4
      (List.replicate 4 0x30#8 ++ after) [] (by simp)
    have h2 : parseLoop 4 (List.replicate 4 0x30#8 ++ after) (List.replicate 16 0#8) = .ub := by
      have hd : Base16.decode16 0x30#8 0x30#8 = .ok (.ok 0#8) := by decide +kernel
      rw [show List.replicate 4 0x30#8 ++ after = 0x30#8 :: 0x30#8 :: (0x30#8 :: 0x30#8 :: after) from rfl,
        parseLoop_pair _ _ _ (by decide), hd]
      rfl
    have e : List.replicate 36 0x30#8 ++ after = List.replicate 32 0x30#8 ++ (List.replicate 4 0x30#8 ++ after) := rfl
    rw [List.length_replicate, List.nil_append, h2] at h
    rw [parse, if_neg (by simp [stringSize]), show stringSize = 32 + 4 from rfl, e, h]
    rfl
  · intro c hc rest hr
    have hne : c ≠ 0x2D#8 := by rintro rfl; exact absurd hc (by decide)
    match rest, hr with
    | d :: rest', hr =>
      rw [parse, if_neg (by simp [stringSize] at hr ⊢; omega), show stringSize = 35 + 1 from rfl, List.cons_append,
        List.cons_append, parseLoop_pair _ _ _ hne, Base16.decode16, charToBin_ub c hc]
      rfl
  · have h1 : parseLoop stringSize (List.replicate 5 0x2D#8 ++ List.replicate 31 0x30#8) [] = .ub := by decide +kernel
    rw [parse, if_neg (by simp [stringSize]), List.append_nil, h1]
    rfl

/-! ### C39 -/

theorem memcmp_spec : ∀ (a b : List Byte), a.length = b.length →
    (memcmp a b < 0 ∧ lexLt a b) ∨ (memcmp a b = 0 ∧ a = b) ∨ (0 < memcmp a b ∧ lexLt b a)
  | [], [], _ => .inr (.inl ⟨rfl, rfl⟩)
  | x :: xs, y :: ys, h => by
    rw [memcmp]
    by_cases h1 : x.toNat < y.toNat
    · rw [if_pos h1]; exact .inl ⟨by decide, .inl h1⟩
    · rw [if_neg h1]
      by_cases h2 : y.toNat < x.toNat
      · rw [if_pos h2]; exact .inr (.inr ⟨by decide, .inl h2⟩)
      · rw [if_neg h2]
        have hxy : x = y := BitVec.eq_of_toNat_eq (by omega)
        subst hxy
        rcases memcmp_spec xs ys (by simpa using h) with ⟨h3, h4⟩ | ⟨h3, h4⟩ | ⟨h3, h4⟩
        · exact .inl ⟨h3, .inr ⟨rfl, h4⟩⟩
        · exact .inr (.inl ⟨h3, by rw [h4]⟩)
        · exact .inr (.inr ⟨h3, .inr ⟨rfl, h4⟩⟩)

theorem lexLt_irrefl (a : List Byte) : ¬lexLt a a := fun h => StringView.shortlex_irrefl a (.inr ⟨rfl, h⟩)

theorem lexLt_asymm {a b : List Byte} (h : lexLt a b) (h' : lexLt b a) : False :=
  lexLt_irrefl a (StringView.lexLt_trans h h')

theorem lt_iff (a b : List Byte) (h : a.length = b.length) : lt a b = true ↔ lexLt a b := by
  rw [lt, decide_eq_true_eq]
  rcases memcmp_spec a b h with ⟨h1, h2⟩ | ⟨h1, h2⟩ | ⟨h1, h2⟩
  · exact ⟨fun _ => h2, fun _ => h1⟩
  · exact ⟨fun h => (by omega), fun h => absurd (h2 ▸ h) (lexLt_irrefl _)⟩
  · exact ⟨fun h => (by omega), fun h => (lexLt_asymm h h2).elim⟩

theorem equals_iff' (a b : List Byte) (h : a.length = b.length) : equals a b = true ↔ a = b := by
  rw [equals, beq_iff_eq]
  rcases memcmp_spec a b h with ⟨h1, h2⟩ | ⟨h1, h2⟩ | ⟨h1, h2⟩
  · exact ⟨fun h => (by omega), fun h => absurd (h ▸ h2) (lexLt_irrefl _)⟩
  · exact ⟨fun _ => h2, fun _ => h1⟩
  · exact ⟨fun h => (by omega), fun h => absurd (h ▸ h2) (lexLt_irrefl _)⟩

/-- Equal-length prefixes: lexicographic order of concatenations. -/
theorem lexLt_append : ∀ (p q s t : List Byte), p.length = q.length →
    (lexLt (p ++ s) (q ++ t) ↔ lexLt p q ∨ (p = q ∧ lexLt s t))
  | [], [], s, t, _ => by simp [lexLt]
  | x :: p, y :: q, s, t, h => by
    have ih := lexLt_append p q s t (by simpa using h)
    simp only [List.cons_append, lexLt, ih, List.cons.injEq]
    constructor
    · rintro (h | ⟨h, h' | h'⟩)
      · exact .inl (.inl h)
      · exact .inl (.inr ⟨h, h'⟩)
      · exact .inr ⟨⟨h, h'.1⟩, h'.2⟩
    · rintro ((h | ⟨h, h'⟩) | ⟨⟨h, h'⟩, h''⟩)
      · exact .inl h
      · exact .inr ⟨h, .inl h'⟩
      · exact .inr ⟨h, .inr ⟨h', h''⟩⟩

theorem digit_lt (m n : Nat) (hm : m < 16) (hn : n < 16) : (Hex.digit m).toNat < (Hex.digit n).toNat ↔ m < n := by
  have : ∀ m n : Fin 16, (Hex.digit m).toNat < (Hex.digit n).toNat ↔ m.val < n.val := by decide +kernel
  exact this ⟨m, hm⟩ ⟨n, hn⟩

theorem digit_eq (m n : Nat) (hm : m < 16) (hn : n < 16) : Hex.digit m = Hex.digit n ↔ m = n := by
  have : ∀ m n : Fin 16, Hex.digit m = Hex.digit n ↔ m.val = n.val := by decide +kernel
  exact this ⟨m, hm⟩ ⟨n, hn⟩

theorem hexText_inj (a b : List Byte) (h : Hex.text a = Hex.text b) : a = b := by
  have := congrArg Hex.parse h
  rw [Base16.parse_text, Base16.parse_text] at this
  exact Option.some.inj this

theorem hexText_lexLt : ∀ (a b : List Byte), a.length = b.length → (lexLt (Hex.text a) (Hex.text b) ↔ lexLt a b)
  | [], [], _ => Iff.rfl
  | x :: xs, y :: ys, h => by
    have ih := hexText_lexLt xs ys (by simpa using h)
    have e1 : Hex.text (x :: xs) = Hex.digit (x.toNat / 16) :: Hex.digit (x.toNat % 16) :: Hex.text xs := rfl
    have e2 : Hex.text (y :: ys) = Hex.digit (y.toNat / 16) :: Hex.digit (y.toNat % 16) :: Hex.text ys := rfl
    rw [e1, e2]
    simp only [lexLt, ih, digit_lt _ _ (show x.toNat / 16 < 16 by omega) (show y.toNat / 16 < 16 by omega),
      digit_eq _ _ (show x.toNat / 16 < 16 by omega) (show y.toNat / 16 < 16 by omega),
      digit_lt _ _ (show x.toNat % 16 < 16 by omega) (show y.toNat % 16 < 16 by omega),
      digit_eq _ _ (show x.toNat % 16 < 16 by omega) (show y.toNat % 16 < 16 by omega)]
    have hxy : x = y ↔ x.toNat = y.toNat := ⟨fun h => by rw [h], BitVec.eq_of_toNat_eq⟩
    rw [hxy]
    constructor
    · rintro (h | ⟨h, h' | ⟨h', h''⟩⟩)
      · exact .inl (by omega)
      · exact .inl (by omega)
      · exact .inr ⟨by omega, h''⟩
    · rintro (h | ⟨h, h'⟩)
      · by_cases hq : x.toNat / 16 < y.toNat / 16
        · exact .inl hq
        · exact .inr ⟨by omega, .inl (by omega)⟩
      · exact .inr ⟨by omega, .inr ⟨by omega, h'⟩⟩

theorem text_lexLt (a b : List Byte) (ha : a.length = 16) (hb : b.length = 16) :
    lexLt (text a) (text b) ↔ lexLt a b := by
  have ea : a = a.take 4 ++ ((a.drop 4).take 2 ++ ((a.drop 6).take 2 ++ ((a.drop 8).take 2 ++ (a.drop 10).take 6))) := (cut a ha).symm
  have eb : b = b.take 4 ++ ((b.drop 4).take 2 ++ ((b.drop 6).take 2 ++ ((b.drop 8).take 2 ++ (b.drop 10).take 6))) := (cut b hb).symm
  rw [text, text]
  generalize ha1 : a.take 4 = a1 at ea ⊢
  generalize ha2 : (a.drop 4).take 2 = a2 at ea ⊢
  generalize ha3 : (a.drop 6).take 2 = a3 at ea ⊢
  generalize ha4 : (a.drop 8).take 2 = a4 at ea ⊢
  generalize ha5 : (a.drop 10).take 6 = a5 at ea ⊢
  generalize hb1 : b.take 4 = b1 at eb ⊢
  generalize hb2 : (b.drop 4).take 2 = b2 at eb ⊢
  generalize hb3 : (b.drop 6).take 2 = b3 at eb ⊢
  generalize hb4 : (b.drop 8).take 2 = b4 at eb ⊢
  generalize hb5 : (b.drop 10).take 6 = b5 at eb ⊢
  have l1 : a1.length = b1.length := by rw [← ha1, ← hb1]; simp; omega
  have l2 : a2.length = b2.length := by rw [← ha2, ← hb2]; simp; omega
  have l3 : a3.length = b3.length := by rw [← ha3, ← hb3]; simp; omega
  have l4 : a4.length = b4.length := by rw [← ha4, ← hb4]; simp; omega
  have l5 : a5.length = b5.length := by rw [← ha5, ← hb5]; simp; omega
  rw [ea, eb]
  have dash : ∀ p q : List Byte, lexLt (0x2D#8 :: p) (0x2D#8 :: q) ↔ lexLt p q := by
    intro p q; simp [lexLt]
  have inj : ∀ p q : List Byte, Hex.text p = Hex.text q ↔ p = q := fun p q => ⟨hexText_inj p q, fun h => by rw [h]⟩
  have tl : ∀ p q : List Byte, p.length = q.length → (Hex.text p).length = (Hex.text q).length := by
    intro p q h; rw [Base16.text_length, Base16.text_length, h]
  rw [join, join, lexLt_append _ _ _ _ (tl _ _ l1), dash, lexLt_append _ _ _ _ (tl _ _ l2), dash,
    lexLt_append _ _ _ _ (tl _ _ l3), dash, lexLt_append _ _ _ _ (tl _ _ l4), dash, hexText_lexLt _ _ l1,
    hexText_lexLt _ _ l2, hexText_lexLt _ _ l3, hexText_lexLt _ _ l4, hexText_lexLt _ _ l5, inj, inj, inj, inj,
    lexLt_append _ _ _ _ l1, lexLt_append _ _ _ _ l2, lexLt_append _ _ _ _ l3, lexLt_append _ _ _ _ l4]

/-- **C39** (full): `<` is irreflexive, transitive and total up to `==`, which is equality of all bytes; the other
operators are defined from it accordingly; `<` is the order of the texts; `isNull` is the all-zero UUID. -/
theorem C39_strict_total_order (a b c : List Byte) (ha : a.length = 16) (hb : b.length = 16) (hc : c.length = 16) :
    lt a a = false ∧ (lt a b = true → lt b c = true → lt a c = true) ∧
    (lt a b = true ∨ equals a b = true ∨ lt b a = true) ∧ (equals a b = true ↔ a = b) ∧
    (gt a b = true ↔ lt b a = true) ∧ (le a b = true ↔ lt a b = true ∨ a = b) ∧ (ge a b = true ↔ lt b a = true ∨ a = b) ∧
    (lt a b = true ↔ lexLt (text a) (text b)) := by
  have hab : a.length = b.length := by omega
  have hba : b.length = a.length := by omega
  have hbc : b.length = c.length := by omega
  have hac : a.length = c.length := by omega
  have tri : lexLt a b ∨ a = b ∨ lexLt b a := by
    rcases memcmp_spec a b hab with ⟨_, h⟩ | ⟨_, h⟩ | ⟨_, h⟩
    · exact .inl h
    · exact .inr (.inl h)
    · exact .inr (.inr h)
  refine ⟨?_, ?_, ?_, equals_iff' a b hab, Iff.rfl, ?_, ?_, ?_⟩
  · rw [← Bool.not_eq_true, lt_iff a a rfl]; exact lexLt_irrefl a
  · rw [lt_iff a b hab, lt_iff b c hbc, lt_iff a c hac]; exact StringView.lexLt_trans
  · rw [lt_iff a b hab, lt_iff b a hba, equals_iff' a b hab]; exact tri
  · rw [le, Bool.not_eq_true', ← Bool.not_eq_true, lt_iff b a hba, lt_iff a b hab]
    constructor
    · intro h
      rcases tri with h' | h' | h'
      · exact .inl h'
      · exact .inr h'
      · exact absurd h' h
    · rintro (h | h) h'
      · exact lexLt_asymm h h'
      · exact lexLt_irrefl a (by rw [h] at h' ⊢; exact h')
  · rw [ge, Bool.not_eq_true', ← Bool.not_eq_true, lt_iff b a hba, lt_iff a b hab]
    constructor
    · intro h
      rcases tri with h' | h' | h'
      · exact absurd h' h
      · exact .inr h'
      · exact .inl h'
    · rintro (h | h) h'
      · exact lexLt_asymm h h'
      · exact lexLt_irrefl a (by rw [h] at h' ⊢; exact h')
  · rw [lt_iff a b hab, text_lexLt a b ha hb]

theorem foldl_sum (u : List Byte) : ∀ s, u.foldl (fun s v => s + v.toNat) s = 0 ↔ s = 0 ∧ ∀ v ∈ u, v = 0#8 := by
  induction u with
  | nil => simp
  | cons v u ih =>
    intro s
    have hv : v = 0#8 ↔ v.toNat = 0 := ⟨fun h => by rw [h]; rfl, fun h => BitVec.eq_of_toNat_eq h⟩
    rw [List.foldl_cons, ih]
    simp only [List.mem_cons, forall_eq_or_imp, hv]
    constructor
    · rintro ⟨h1, h2⟩; exact ⟨by omega, by omega, h2⟩
    · rintro ⟨h1, h2, h3⟩; exact ⟨by omega, h3⟩

/-- **C39**, second half (full). -/
theorem C39_isNull (u : List Byte) (hu : u.length = 16) : isNull u = true ↔ u = List.replicate 16 0#8 := by
  rw [isNull, beq_iff_eq, foldl_sum, List.eq_replicate_iff]
  exact ⟨fun h => ⟨hu, h.2⟩, fun h => ⟨rfl, h.2⟩⟩

example : lt (List.replicate 15 0#8 ++ [0x7F#8]) (List.replicate 15 0#8 ++ [0x80#8]) = true := by decide +kernel

/-- **C39**, making UUIDs: from a view of at least 16 bytes its first 16 bytes; shorter views are refused with an exception. From
four words their bytes in memory order. -/
theorem C39_make (v : List Byte) (a0 a1 a2 a3 : List Byte) (h0 : a0.length = 4) (h1 : a1.length = 4) (h2 : a2.length = 4)
    (h3 : a3.length = 4) :
    (16 ≤ v.length → ofView v = .ok (v.take 16)) ∧ (v.length < 16 → ofView v = .throws) ∧
    ofWords a0 a1 a2 a3 = a0 ++ a1 ++ a2 ++ a3 := by
  refine ⟨fun h => if_neg (by rw [staticSize]; omega), fun h => if_pos (by rw [staticSize]; omega), ?_⟩
  have h := (ByteWriter.C05_writes_accumulate (List.replicate 16 0#8) (by decide) [a0, a1, a2, a3]).2.2.1
  have hacc : (ByteWriter.accumulate (List.replicate 16 0#8).length [] [a0, a1, a2, a3]).1 = a0 ++ a1 ++ a2 ++ a3 := by
    simp [ByteWriter.accumulate, h0, h1, h2, h3]
  rw [hacc] at h
  refine Eq.trans (b := ((ByteWriter.ofBuffer (List.replicate 16 0#8)).writeAll [a0, a1, a2, a3]).1.data) rfl (h.trans ?_)
  rw [List.drop_eq_nil_of_le (by simp [h0, h1, h2, h3]), List.append_nil]

example : ofWords [1, 2, 3, 4] [5, 6, 7, 8] [9, 10, 11, 12] [13, 14, 15, 16] =
    [1, 2, 3, 4, 5, 6, 7, 8, 9, 10, 11, 12, 13, 14, 15, 16] := by decide +kernel

end Solace.Uuid
