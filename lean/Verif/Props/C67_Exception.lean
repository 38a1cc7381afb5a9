import Verif.Spec.Exception
import Verif.Lemmas.Decimal
/-
C67: texts of exceptions.
-/
namespace Solace.Exn
open Decimal (IsDecimal)
open Writer (Call)

/-- What the calls contribute. -/
def Writer.Call.text : Call → List Byte
  | .append d => d
  | .print t => t

def texts (cs : List Call) : List Byte := (cs.map Writer.Call.text).flatten

theorem texts_cons (c : Call) (cs : List Call) : texts (c :: cs) = c.text ++ texts cs := rfl

/-- There is room for everything, and for the terminating NUL of every printed text. -/
def Fits : Nat → List Call → Prop
  | _, [] => True
  | r, .append d :: cs => d.length ≤ r ∧ Fits (r - d.length) cs
  | r, .print t :: cs => t.length < r ∧ Fits (r - t.length) cs

/-- The writer holds the text `t` and zeros. -/
def holding (size : Nat) (t : List Byte) : Writer :=
  ⟨size, t.length, some (t ++ List.replicate (size + 1 - t.length) 0#8)⟩

theorem poke_holding (size : Nat) (t d : List Byte) (k : Nat) (h : t.length + d.length + k ≤ size + 1) :
    (holding size t).poke (d ++ List.replicate k 0#8) =
      .ok (some ((t ++ d) ++ List.replicate (size + 1 - (t ++ d).length) 0#8)) := by
  rw [Writer.poke]
  split
  · next he =>
    obtain ⟨rfl, hk⟩ := List.append_eq_nil_iff.mp he
    rw [List.append_nil]; rfl
  · show (if t.length + (d ++ List.replicate k 0#8).length ≤ (t ++ List.replicate (size + 1 - t.length) 0#8).length then
      Outcome.ok (some (List.take t.length (t ++ List.replicate (size + 1 - t.length) 0#8) ++ (d ++ List.replicate k 0#8) ++
        List.drop (t.length + (d ++ List.replicate k 0#8).length) (t ++ List.replicate (size + 1 - t.length) 0#8)))
      else Outcome.ub) = _
    rw [if_pos (by simp; omega), List.take_left' rfl, List.drop_append, List.drop_replicate]
    have hd : List.drop (t.length + (d ++ List.replicate k 0#8).length) t = [] := List.drop_eq_nil_of_le (by omega)
    rw [hd, List.nil_append]
    congr 2
    simp only [List.length_append, List.length_replicate, List.append_assoc]
    congr 2
    rw [List.replicate_append_replicate]
    congr 1
    omega

theorem append_fits (size : Nat) (hs : size < 2 ^ 16) (t d : List Byte) (h : t.length + d.length ≤ size) :
    (holding size t).append d = .ok (holding size (t ++ d)) := by
  rw [Writer.append, Writer.remaining]
  have hr : sub16 (holding size t).size (holding size t).offset = size - t.length :=
    sub16_of_le (by simp only [holding]; omega) hs
  rw [hr, Nat.min_eq_left (by omega)]
  have hp := poke_holding size t d 0 (by omega)
  rw [List.replicate_zero, List.append_nil] at hp
  simp only [List.take_length]
  rw [hp, Outcome.bind_ok]
  simp only [holding]
  rw [wrap16_of_lt (by omega), List.length_append]

theorem print_fits (size : Nat) (hs : size < 2 ^ 16) (t d : List Byte) (h : t.length + d.length < size) :
    (holding size t).print d = .ok (holding size (t ++ d)) := by
  rw [Writer.print, Writer.remaining]
  have hr : sub16 (holding size t).size (holding size t).offset = size - t.length :=
    sub16_of_le (by simp only [holding]; omega) hs
  rw [hr, if_neg (by omega), List.take_of_length_le (by omega)]
  have hp := poke_holding size t d 1 (by omega)
  rw [List.replicate_one] at hp
  rw [hp, Outcome.bind_ok]
  simp only [holding]
  rw [wrap16_of_lt (by omega), List.length_append]

theorem calls_fit (size : Nat) (hs : size < 2 ^ 16) (cs : List Call) : ∀ t : List Byte, t.length ≤ size →
    Fits (size - t.length) cs →
    (holding size t).calls cs = .ok (holding size (t ++ texts cs)) ∧ (t ++ texts cs).length ≤ size := by
  induction cs with
  | nil => intro t ht _; exact ⟨by rw [texts, List.map_nil, List.flatten_nil, List.append_nil]; rfl, by simpa [texts]⟩
  | cons c cs ih =>
    intro t ht hf
    cases c with
    | append d =>
      obtain ⟨h1, h2⟩ := hf
      have hl : (t ++ d).length ≤ size := by rw [List.length_append]; omega
      rw [Writer.calls, append_fits size hs t d (by omega), Outcome.bind_ok, texts_cons, ← List.append_assoc]
      exact ih (t ++ d) hl (by rw [List.length_append, ← Nat.sub_sub]; exact h2)
    | print d =>
      obtain ⟨h1, h2⟩ := hf
      have hl : (t ++ d).length ≤ size := by rw [List.length_append]; omega
      rw [Writer.calls, print_fits size hs t d (by omega), Outcome.bind_ok, texts_cons, ← List.append_assoc]
      exact ih (t ++ d) hl (by rw [List.length_append, ← Nat.sub_sub]; exact h2)

/-- A message that is complete: the view is the text and, when it has no NUL, so is the C string. -/
def Complete (r : Outcome ErrorString) (t : List Byte) : Prop :=
  ∃ s, r = .ok s ∧ s.view = .ok t ∧ (0#8 ∉ t → s.what = .ok (some t))

theorem takeWhile_nul (t rest : List Byte) (h : 0#8 ∉ t) : (t ++ 0#8 :: rest).takeWhile (· ≠ 0#8) = t := by
  rw [List.takeWhile_append_of_pos fun c hc => by simpa using fun e : c = 0#8 => h (e ▸ hc)]
  simp

theorem compose_fits (n : Nat) (cs : List Call) (hn : n < 2 ^ 16) (hf : Fits n cs) : Complete (compose true n cs) (texts cs) := by
  obtain ⟨h1, h2⟩ := calls_fit n hn cs [] (Nat.zero_le _) hf
  rw [List.nil_append] at h1 h2
  have hc : (Writer.create true (wrap16 n)) = holding n [] := by
    rw [wrap16_of_lt hn]; rfl
  refine ⟨⟨(texts cs).length, some (texts cs ++ List.replicate (n + 1 - (texts cs).length) 0#8)⟩, ?_, ?_, fun h0 => ?_⟩
  · rw [compose, hc, h1]; rfl
  · rw [ErrorString.view]
    simp only
    rw [if_pos (by simp), List.take_left' rfl]
  · rw [ErrorString.what]
    simp only
    rw [show n + 1 - (texts cs).length = (n - (texts cs).length) + 1 by omega, List.replicate_succ,
      if_pos (by simp), takeWhile_nul _ _ h0]

theorem ofView_complete (t : List Byte) : Complete (ErrorString.ofView true t) t := by
  refine ⟨_, rfl, ?_, fun h0 => ?_⟩
  · rw [ErrorString.view]
    simp only
    rw [if_pos (by simp), List.take_left' rfl]
  · rw [ErrorString.what]
    simp only
    rw [if_pos (by simp), takeWhile_nul _ _ h0]

theorem len_space : (lit " ").length = 1 := by decide +kernel
theorem len_open : (lit "[").length = 1 := by decide +kernel
theorem len_close : (lit "]: ").length = 3 := by decide +kernel
theorem len_illegal : (lit "Illegal argument '").length = 18 := by decide +kernel
theorem len_quote : (lit "'").length = 1 := by decide +kernel
theorem len_quote1 : (lit " '").length = 2 := by decide +kernel
theorem len_quote2 : (lit "'=").length = 2 := by decide +kernel
theorem len_colon : (lit ": ").length = 2 := by decide +kernel
theorem len_range : (lit " [").length = 2 := by decide +kernel
theorem len_comma : (lit ", ").length = 2 := by decide +kernel
theorem len_paren : (lit ")").length = 1 := by decide +kernel

theorem join_complete (lhs rhs : List Byte) (h : (lhs ++ lit " " ++ rhs).length < 2 ^ 16) :
    Complete (formatJoin true lhs rhs) (lhs ++ lit " " ++ rhs) := by
  simp only [List.length_append] at h
  have := compose_fits (lhs.length + rhs.length + (lit " ").length) [.append lhs, .append (lit " "), .append rhs] (by omega)
    ⟨by omega, by omega, by omega, trivial⟩
  simpa [texts, Writer.Call.text, formatJoin] using this

theorem illegal_complete (name : List Byte) (h : (lit "Illegal argument '" ++ name ++ lit "'").length + 8 < 2 ^ 16) :
    Complete (formatIllegalArg true name) (lit "Illegal argument '" ++ name ++ lit "'") := by
  simp only [List.length_append, len_illegal, len_quote] at h
  have := compose_fits (measureLit "Illegal argument '" + name.length + measureLit "'")
    [.print (lit "Illegal argument '"), .append name, .print (lit "'")]
    (by rw [measureLit, measureLit, len_illegal, len_quote]; omega)
    (by simp only [Fits, and_true, measureLit, len_illegal, len_quote]; omega)
  simpa [texts, Writer.Call.text, formatIllegalArg] using this

theorem signedText_spec (c : Int) (h : -2 ^ 31 ≤ c ∧ c < 2 ^ 31) : IsSigned c (signedText c) := by
  have hd := Decimal.decimalText_spec (n := c.natAbs) (by omega)
  rw [signedText]
  split
  · next hc => exact .inr ⟨hc, _, rfl, hd⟩
  · next hc => exact .inl ⟨by omega, hd⟩

theorem isSigned_unique {c : Int} {a b : List Byte} (ha : IsSigned c a) (hb : IsSigned c b) : a = b := by
  rcases ha with ⟨h1, h2⟩ | ⟨h1, u, h2, h3⟩ <;> rcases hb with ⟨g1, g2⟩ | ⟨g1, v, g2, g3⟩
  · exact Decimal.isDecimal_unique h2 g2
  · omega
  · omega
  · rw [h2, g2, Decimal.isDecimal_unique h3 g3]

theorem errno_complete (strerror : Int → List Byte) (code : Int) (text t : List Byte) (hc : -2 ^ 31 ≤ code ∧ code < 2 ^ 31)
    (ht : IsErrnoText strerror code text t) (h : t.length + 8 < 2 ^ 16) :
    Complete (formatErrno true strerror code text) t := by
  obtain ⟨c, h1, rfl⟩ := ht
  rw [isSigned_unique h1 (signedText_spec code hc)] at h ⊢
  simp only [List.length_append, len_open, len_close] at h
  have := compose_fits
    (text.length + measureLit "[" + (signedText code).length + measureLit "]: " + wrap16 (strerror code).length)
    [.append text, .print (lit "["), .print (signedText code), .print (lit "]: "), .print (strerror code)]
    (by rw [measureLit, measureLit, len_open, len_close, wrap16_of_lt (by omega)]; omega)
    (by rw [wrap16_of_lt (by omega)]; simp only [Fits, and_true, measureLit, len_open, len_close]; omega)
  simpa [texts, Writer.Call.text, formatErrno] using this

theorem range_complete (pre name reason : List Byte) (index lo hi : Nat) (t : List Byte)
    (hr : index < 2 ^ 64 ∧ lo < 2 ^ 64 ∧ hi < 2 ^ 64) (ht : IsRangeText pre name reason index lo hi t)
    (h : t.length + 8 < 2 ^ 16) : Complete (formatIndex true pre name reason index lo hi) t := by
  obtain ⟨i, l, u, h1, h2, h3, rfl⟩ := ht
  rw [Decimal.isDecimal_unique h1 (Decimal.decimalText_spec hr.1), Decimal.isDecimal_unique h2 (Decimal.decimalText_spec hr.2.1),
    Decimal.isDecimal_unique h3 (Decimal.decimalText_spec hr.2.2)] at h ⊢
  by_cases hn : name = []
  · subst hn
    simp only [if_true, List.length_append, len_space, len_range, len_comma, len_paren, len_colon] at h
    have := compose_fits (pre.length + measureLit " '" + ([] : List Byte).length + measureLit "'=" +
        (decimalText index).length + measureLit " " +
        reason.length + measureLit " [" + (decimalText lo).length + measureLit ", " + (decimalText hi).length +
        measureLit ")")
      ([.append pre] ++ [.print (lit ": ")] ++
        [.print (decimalText index), .print (lit " "), .append reason, .print (lit " ["), .print (decimalText lo),
          .print (lit ", "), .print (decimalText hi), .print (lit ")")])
      (by simp only [measureLit, len_space, len_range, len_comma, len_paren, len_quote1, len_quote2, List.length_nil]; omega)
      (by simp only [Fits, and_true, List.cons_append, List.nil_append, measureLit, len_space, len_range, len_comma, len_paren,
            len_quote1, len_quote2, len_colon, List.length_nil]; omega)
    simpa [texts, Writer.Call.text, formatIndex] using this
  · rw [if_neg hn] at h ⊢
    simp only [List.length_append, len_space, len_range, len_comma, len_paren, len_quote1, len_quote2] at h
    have := compose_fits (pre.length + measureLit " '" + name.length + measureLit "'=" +
        (decimalText index).length + measureLit " " +
        reason.length + measureLit " [" + (decimalText lo).length + measureLit ", " + (decimalText hi).length +
        measureLit ")")
      ([.append pre] ++ [.print (lit " '"), .append name, .print (lit "'=")] ++
        [.print (decimalText index), .print (lit " "), .append reason, .print (lit " ["), .print (decimalText lo),
          .print (lit ", "), .print (decimalText hi), .print (lit ")")])
      (by simp only [measureLit, len_space, len_range, len_comma, len_paren, len_quote1, len_quote2]; omega)
      (by simp only [Fits, and_true, List.cons_append, List.nil_append, measureLit, len_space, len_range, len_comma, len_paren,
            len_quote1, len_quote2]; omega)
    simpa [texts, Writer.Call.text, formatIndex, hn] using this

/-- **C67** (partial: memory is available and the text is at least eight characters shorter than 2^16): composing the message
writes inside the buffer only, the message is the whole text, and `what()` is the same text when it has no NUL. -/
theorem C67_text_partial (strerror : Int → List Byte) (e : Exception) (he : InRange e) (t : List Byte)
    (ht : IsText strerror e t) (h : t.length + 8 < 2 ^ 16) : Complete (construct true strerror e) t := by
  have hj : t.length < 2 ^ 16 := by omega
  cases e with
  | message x => cases ht; exact ofView_complete _
  | illegalArgument => cases ht; exact ofView_complete _
  | illegalArgumentNamed n => cases ht; exact illegal_complete n h
  | indexOutOfRange => cases ht; exact ofView_complete _
  | indexOutOfRangeOf i lo hi => exact range_complete _ _ _ i lo hi t he ht h
  | indexOutOfRangeWith i lo hi p => exact range_complete _ _ _ i lo hi t he ht h
  | overflow i lo hi => exact range_complete _ _ _ i lo hi t he ht h
  | overflowNamed n i lo hi => exact range_complete _ _ _ i lo hi t he ht h
  | noSuchElement => cases ht; exact ofView_complete _
  | noSuchElementNamed n => cases ht; exact join_complete _ n hj
  | invalidState => cases ht; exact ofView_complete _
  | invalidStateTag g => cases ht; exact join_complete _ g hj
  | io x => cases ht; exact ofView_complete _
  | ioCode c => exact errno_complete strerror c _ t he ht h
  | ioCodeText c x => exact errno_complete strerror c x t he ht h
  | notOpen => cases ht; exact ofView_complete _

/-- Every exception has exactly one text. -/
theorem isText_unique (strerror : Int → List Byte) (e : Exception) (a b : List Byte) (ha : IsText strerror e a)
    (hb : IsText strerror e b) : a = b := by
  have hr : ∀ pre name reason i lo hi, IsRangeText pre name reason i lo hi a → IsRangeText pre name reason i lo hi b → a = b := by
    rintro pre name reason i lo hi ⟨x1, x2, x3, h1, h2, h3, rfl⟩ ⟨y1, y2, y3, g1, g2, g3, rfl⟩
    rw [Decimal.isDecimal_unique h1 g1, Decimal.isDecimal_unique h2 g2, Decimal.isDecimal_unique h3 g3]
  have hc : ∀ c x, IsErrnoText strerror c x a → IsErrnoText strerror c x b → a = b := by
    rintro c x ⟨u, h1, rfl⟩ ⟨v, g1, rfl⟩
    rw [isSigned_unique h1 g1]
  cases e with
  | indexOutOfRangeOf i lo hi => exact hr _ _ _ _ _ _ ha hb
  | indexOutOfRangeWith i lo hi p => exact hr _ _ _ _ _ _ ha hb
  | overflow i lo hi => exact hr _ _ _ _ _ _ ha hb
  | overflowNamed n i lo hi => exact hr _ _ _ _ _ _ ha hb
  | ioCode c => exact hc _ _ ha hb
  | ioCodeText c x => exact hc _ _ ha hb
  | _ => exact Eq.trans ha (Eq.symm hb)

theorem decimalDigits_length (fuel n : Nat) : (decimalDigits fuel n).length ≤ fuel := by
  induction fuel generalizing n with
  | zero => exact Nat.le_refl _
  | succ fuel ih =>
    rw [decimalDigits]
    split
    · simp
    · have := ih (n / 10)
      simp only [List.length_append, List.length_singleton]
      omega

theorem signedText_length (c : Int) : (signedText c).length ≤ 21 := by
  have : (decimalText c.natAbs).length ≤ 20 := decimalDigits_length _ _
  rw [signedText]
  split
  · simp only [List.length_cons]; omega
  · omega

/-- **C67** fails for long texts: `IOException(code, text)` whose measured size reaches 2^16 writes outside the buffer. The
size wraps to something shorter than `text`; the first literal makes `_offset` exceed `_size`; from then on `remaining()` is
about 2^16 and the error code is printed behind the end of the allocation. -/
theorem C67_long_text_overruns (strerror : Int → List Byte) (code : Int) (hc : -2 ^ 31 ≤ code ∧ code < 2 ^ 31)
    (text : List Byte) (ht : text.length < 2 ^ 16) (hs : (strerror code).length < 2 ^ 15)
    (hl : 2 ^ 16 ≤ text.length + (signedText code).length + (strerror code).length + 6) :
    construct true strerror (.ioCodeText code text) = .ub := by
  have hd := signedText_length code
  have hw : wrap16 (strerror code).length = (strerror code).length := wrap16_of_lt (by omega)
  rw [construct, formatErrno, compose, measureLit, measureLit, len_open, len_close, hw]
  generalize hz : wrap16 (text.length + (1 + 1) + (signedText code).length + (3 + 1) + (strerror code).length) = size
  have hsz : size + 2 ^ 16 = text.length + (1 + 1) + (signedText code).length + (3 + 1) + (strerror code).length := by
    rw [wrap16_def] at hz; omega
  have h0 : signedText code ≠ [] := by
    rcases signedText_spec code hc with ⟨-, h, -⟩ | ⟨-, u, h, -⟩
    · exact h
    · rw [h]; simp
  have hlen := List.length_pos_iff.mpr h0
  have hcut : (holding size []).append text = .ok (holding size (text.take size)) := by
    have hr : (holding size []).remaining = size := by
      rw [Writer.remaining]; exact sub16_of_le (Nat.zero_le _) (by simp only [holding]; omega)
    have hp := poke_holding size [] (text.take size) 0 (by rw [List.length_take, List.length_nil]; omega)
    rw [List.replicate_zero, List.append_nil, List.nil_append] at hp
    rw [Writer.append, hr]
    rw [Nat.min_eq_right (by omega), hp, Outcome.bind_ok]
    simp only [holding, List.length_nil, Nat.zero_add, List.length_take]
    rw [Nat.min_eq_left (by omega), wrap16_of_lt (by omega)]
  have hlt : (text.take size).length = size := by rw [List.length_take]; omega
  have hone : ∀ b, (⟨size, size, b⟩ : Writer).print (lit "[") = .ok ⟨size, size + 1, b⟩ := by
    intro b
    rw [Writer.print, Writer.remaining, sub16_of_le (Nat.le_refl _) (by simp only; omega), Nat.sub_self, if_pos rfl, Writer.poke,
      if_pos rfl, Outcome.bind_ok, len_open, wrap16_of_lt (by simp only; omega)]
  have htwo : ∀ b : List Byte, b.length = size + 1 → (⟨size, size + 1, some b⟩ : Writer).print (signedText code) = .ub := by
    intro b hb
    have hr : (⟨size, size + 1, some b⟩ : Writer).remaining = 65535 := by
      rw [Writer.remaining, sub16_of_lt (by simp only; omega) (by simp only; omega)]
      simp only; omega
    rw [Writer.print, hr, if_neg (by omega), Writer.poke, if_neg (by simp)]
    simp only
    rw [if_neg (by rw [List.length_append, hb]; simp)]
    rfl
  rw [show Writer.create true size = holding size [] from rfl, Writer.calls, hcut, Outcome.bind_ok, Writer.calls]
  simp only [holding, hlt]
  rw [hone, Outcome.bind_ok, Writer.calls, htwo _ (by simp; omega)]
  rfl

/-- **C67** fails for long names: the text of `NoSuchElementException(name)` is cut. -/
theorem C67_long_name_truncated (strerror : Int → List Byte) (name : List Byte) (hn : name.length < 2 ^ 16)
    (hl : 2 ^ 16 ≤ (lit "No such element").length + 1 + name.length) :
    ∃ s v, construct true strerror (.noSuchElementNamed name) = .ok s ∧ s.view = .ok v ∧ v.length < 16 := by
  have hle : (lit "No such element").length = 15 := by decide +kernel
  have happ : ∀ size t d, size < 16 → t.length ≤ size → ∃ t', (holding size t).append d = .ok (holding size t') ∧ t'.length ≤ size := by
    intro size t d hs ht
    have hr : (holding size t).remaining = size - t.length := by
      rw [Writer.remaining]; exact sub16_of_le (by simp only [holding]; omega) (by simp only [holding]; omega)
    have hp := poke_holding size t (d.take (min d.length (size - t.length))) 0 (by rw [List.length_take]; omega)
    rw [List.replicate_zero, List.append_nil] at hp
    refine ⟨t ++ d.take (min d.length (size - t.length)), ?_, by rw [List.length_append, List.length_take]; omega⟩
    rw [Writer.append, hr, hp, Outcome.bind_ok]
    simp only [holding, List.length_append, List.length_take]
    rw [wrap16_of_lt (by omega)]
    congr 3
    omega
  rw [construct, formatJoin, compose, hle, len_space]
  generalize hz : wrap16 (15 + name.length + 1) = size
  have hsz : size < 16 := by rw [wrap16_def] at hz; omega
  obtain ⟨t1, h1, l1⟩ := happ size [] (lit "No such element") hsz (Nat.zero_le _)
  obtain ⟨t2, h2, l2⟩ := happ size t1 (lit " ") hsz l1
  obtain ⟨t3, h3, l3⟩ := happ size t2 name hsz l2
  refine ⟨(holding size t3).build, t3, ?_, ?_, by omega⟩
  · rw [show Writer.create true size = holding size [] from rfl, Writer.calls, h1, Outcome.bind_ok, Writer.calls, h2,
      Outcome.bind_ok, Writer.calls, h3]
    rfl
  · show ErrorString.view ⟨t3.length, some (t3 ++ List.replicate (size + 1 - t3.length) 0#8)⟩ = _
    rw [ErrorString.view]
    simp only
    rw [if_pos (by simp), List.take_left' rfl]

/-- **C67** fails when `calloc` fails: a plain message is copied through the null pointer, and so is everything after the
first literal of a composed one. -/
theorem C67_no_memory (strerror : Int → List Byte) (t name : List Byte) (ht : t ≠ []) (hn : name ≠ []) :
    construct false strerror (.message t) = .ub ∧ construct false strerror (.illegalArgumentNamed name) = .ub := by
  refine ⟨?_, ?_⟩
  · rw [construct, ErrorString.ofView, if_neg (by simp), if_neg ht]
  · have hpos := List.length_pos_iff.mpr hn
    have h1 : (⟨0, 0, none⟩ : Writer).print (lit "Illegal argument '") = .ok ⟨0, 18, none⟩ := by
      rw [Writer.print, Writer.remaining, sub16_of_le (Nat.le_refl _) (by simp only; omega), Nat.sub_self, if_pos rfl, Writer.poke,
        if_pos rfl, Outcome.bind_ok, len_illegal, wrap16_of_lt (by simp only; omega)]
    have h2 : (⟨0, 18, none⟩ : Writer).append name = .ub := by
      rw [Writer.append, Writer.remaining, sub16_of_lt (by simp) (by simp)]
      simp only
      rw [Writer.poke, if_neg]
      · rfl
      · intro hc
        have := congrArg List.length hc
        rw [List.length_take, List.length_nil] at this
        omega
    rw [construct, formatIllegalArg, compose, Writer.create, if_neg (by simp), Writer.calls, h1, Outcome.bind_ok, Writer.calls,
      h2]
    rfl

example : (construct true (fun _ => lit "Success") (.ioCodeText (-5) (lit "x"))).bind (fun s => s.view) =
    .ok (lit "x[-5]: Success") := by decide +kernel
example : (construct true (fun _ => []) (.overflowNamed (lit "index") 7 0 5)).bind (fun s => s.view) =
    .ok (lit "Value 'index'=7 overflows range [0, 5)") := by decide +kernel
example : InRange (.overflowNamed (lit "index") 7 0 5) ∧ (lit "Value 'index'=7 overflows range [0, 5)").length + 8 < 2 ^ 16 := by
  refine ⟨by simp [InRange], by decide +kernel⟩
/-- The hypotheses of `C67_long_text_overruns` can be met. -/
example : (fun (_ : Int) => lit "Success") 5 = lit "Success" ∧ (lit "Success").length < 2 ^ 15 ∧
    2 ^ 16 ≤ (List.replicate 65535 0x61#8).length + (signedText 5).length + (lit "Success").length + 6 := by
  refine ⟨rfl, by decide +kernel, by rw [List.length_replicate]; omega⟩

end Solace.Exn
