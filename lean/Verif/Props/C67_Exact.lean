import Verif.Props.C67_Exception
/-
C67 exactly: for exceptions of every kind and views of every length, when the message is complete and when composing it writes
outside the buffer; and what happens when `calloc` fails.
-/
namespace Solace.Exn
open Writer (Call)

/-- One of the calls writes something, wherever the writer stands: printing always writes a NUL. -/
def Writes : List Call → Prop
  | [] => False
  | .append d :: cs => d ≠ [] ∨ Writes cs
  | .print _ :: _ => True

/-- Some printed text is longer than the room that is left, and a later call writes. -/
def Over : Nat → List Call → Prop
  | _, [] => False
  | r, .append d :: cs => Over (r - d.length) cs
  | r, .print t :: cs => (t.length ≤ r ∧ Over (r - t.length) cs) ∨ (r < t.length ∧ Writes cs)

/-- The offset stays below 2^16 (except after the last call). -/
def Small (size : Nat) : List Call → Prop
  | [] => True
  | .append _ :: cs => Small size cs
  | .print t :: cs => (cs ≠ [] → size + t.length < 2 ^ 16) ∧ Small size cs

/-- A buffer of `size + 1` bytes, or no buffer and no size. -/
def Buf (size : Nat) (b : Option (List Byte)) : Prop := (b = none ∧ size = 0) ∨ ∃ x, b = some x ∧ x.length = size + 1

theorem poke_inside (size off : Nat) (b : Option (List Byte)) (hb : Buf size b) (d : List Byte)
    (h : d = [] ∨ (b ≠ none ∧ off + d.length ≤ size + 1)) :
    ∃ b', (⟨size, off, b⟩ : Writer).poke d = .ok b' ∧ Buf size b' := by
  rw [Writer.poke]
  by_cases hd : d = []
  · rw [if_pos hd]; exact ⟨b, rfl, hb⟩
  · rw [if_neg hd]
    rcases h with h | ⟨h1, h2⟩
    · exact absurd h hd
    rcases hb with ⟨h, _⟩ | ⟨x, rfl, hx⟩
    · exact absurd h h1
    · simp only
      rw [if_pos (by omega)]
      refine ⟨_, rfl, .inr ⟨_, rfl, ?_⟩⟩
      simp only [List.length_append, List.length_take, List.length_drop]
      omega

theorem poke_outside (size off : Nat) (b : Option (List Byte)) (hb : Buf size b) (d : List Byte) (hd : d ≠ []) (ho : size < off) :
    (⟨size, off, b⟩ : Writer).poke d = .ub := by
  rw [Writer.poke, if_neg hd]
  rcases hb with ⟨rfl, _⟩ | ⟨x, rfl, hx⟩
  · rfl
  · have := List.length_pos_iff.mpr hd
    simp only
    rw [if_neg (by omega)]

theorem append_inside (size off : Nat) (hs : size < 2 ^ 16) (ho : off ≤ size) (b : Option (List Byte)) (hb : Buf size b) (d : List Byte) :
    ∃ b', (⟨size, off, b⟩ : Writer).append d = .ok ⟨size, off + min d.length (size - off), b'⟩ ∧ Buf size b' := by
  have hr : (⟨size, off, b⟩ : Writer).remaining = size - off := sub16_of_le ho hs
  rw [Writer.append, hr]
  have hl : (d.take (min d.length (size - off))).length = min d.length (size - off) := by rw [List.length_take]; omega
  obtain ⟨b', h1, h2⟩ := poke_inside size off b hb (d.take (min d.length (size - off))) (by
    rcases hb with ⟨_, h⟩ | ⟨x, h, _⟩
    · left; apply List.eq_nil_of_length_eq_zero; omega
    · right; exact ⟨by rw [h]; simp, by omega⟩)
  refine ⟨b', ?_, h2⟩
  simp only
  rw [h1, Outcome.bind_ok, wrap16_of_lt (by omega)]

theorem print_inside (size off : Nat) (hs : size < 2 ^ 16) (ho : off ≤ size) (b : Option (List Byte)) (hb : Buf size b) (t : List Byte) :
    ∃ b', (⟨size, off, b⟩ : Writer).print t = .ok ⟨size, wrap16 (off + t.length), b'⟩ ∧ Buf size b' := by
  have hr : (⟨size, off, b⟩ : Writer).remaining = size - off := sub16_of_le ho hs
  rw [Writer.print, hr]
  obtain ⟨b', h1, h2⟩ := poke_inside size off b hb (if size - off = 0 then [] else t.take (size - off - 1) ++ [0#8]) (by
    by_cases h : size - off = 0
    · left; rw [if_pos h]
    · right
      rw [if_neg h, List.length_append, List.length_take, List.length_singleton]
      refine ⟨?_, by omega⟩
      rcases hb with ⟨_, h'⟩ | ⟨x, h', _⟩
      · omega
      · rw [h']; simp)
  refine ⟨b', ?_, h2⟩
  rw [h1, Outcome.bind_ok]

theorem append_outside (size off : Nat) (hs : size < off) (ho : off < 2 ^ 16) (b : Option (List Byte)) (hb : Buf size b) (d : List Byte)
    (hd : d ≠ []) : (⟨size, off, b⟩ : Writer).append d = .ub := by
  have hp := List.length_pos_iff.mpr hd
  have hr : (⟨size, off, b⟩ : Writer).remaining = size + 2 ^ 16 - off := by
    rw [Writer.remaining, sub16_of_lt (by simp only; omega) (by simp only; omega)]
  rw [Writer.append, hr]
  simp only
  rw [poke_outside size off b hb _ (by
    intro h
    have := congrArg List.length h
    rw [List.length_take, List.length_nil] at this
    omega) hs]
  rfl

theorem print_outside (size off : Nat) (hs : size < off) (ho : off < 2 ^ 16) (b : Option (List Byte)) (hb : Buf size b) (t : List Byte) :
    (⟨size, off, b⟩ : Writer).print t = .ub := by
  have hr : (⟨size, off, b⟩ : Writer).remaining = size + 2 ^ 16 - off := by
    rw [Writer.remaining, sub16_of_lt (by simp only; omega) (by simp only; omega)]
  rw [Writer.print, hr, if_neg (by omega), poke_outside size off b hb _ (by simp) hs]
  rfl

/-- A writer that stands behind its end: undefined as soon as something is written. -/
theorem calls_outside (size : Nat) (cs : List Call) : ∀ off b, size < off → off < 2 ^ 16 → Buf size b →
    ((⟨size, off, b⟩ : Writer).calls cs = .ub ∧ Writes cs) ∨
      (¬ Writes cs ∧ (⟨size, off, b⟩ : Writer).calls cs = .ok ⟨size, off, b⟩) := by
  induction cs with
  | nil => intro off b _ _ _; exact .inr ⟨id, rfl⟩
  | cons c cs ih =>
    intro off b hs ho hb
    cases c with
    | append d =>
      by_cases hd : d = []
      · subst hd
        have : (⟨size, off, b⟩ : Writer).append [] = .ok ⟨size, off, b⟩ := by
          rw [Writer.append, List.length_nil, Nat.zero_min, List.take_nil, Writer.poke, if_pos rfl, Outcome.bind_ok, Nat.add_zero,
            wrap16_of_lt (by exact ho)]
        rw [Writer.calls, this, Outcome.bind_ok]
        simpa [Writes] using ih off b hs ho hb
      · left
        rw [Writer.calls, append_outside size off hs ho b hb d hd]
        exact ⟨rfl, .inl hd⟩
    | print t =>
      left
      rw [Writer.calls, print_outside size off hs ho b hb t]
      exact ⟨rfl, trivial⟩

/-- What a chain of calls does: undefined exactly when it goes over, otherwise a writer with a buffer of the same size. -/
theorem calls_exact (size : Nat) (hs : size < 2 ^ 16) (cs : List Call) : ∀ off b, off ≤ size → Buf size b → Small size cs →
    ((⟨size, off, b⟩ : Writer).calls cs = .ub ∧ Over (size - off) cs) ∨
      (¬ Over (size - off) cs ∧ ∃ off' b', (⟨size, off, b⟩ : Writer).calls cs = .ok ⟨size, off', b'⟩ ∧ Buf size b') := by
  induction cs with
  | nil => intro off b _ hb _; exact .inr ⟨id, off, b, rfl, hb⟩
  | cons c cs ih =>
    intro off b ho hb hsm
    cases c with
    | append d =>
      obtain ⟨b', h1, h2⟩ := append_inside size off hs ho b hb d
      rw [Writer.calls, h1, Outcome.bind_ok, Over]
      have := ih (off + min d.length (size - off)) b' (by omega) h2 hsm
      rw [show size - (off + min d.length (size - off)) = size - off - d.length by omega] at this
      exact this
    | print t =>
      obtain ⟨b', h1, h2⟩ := print_inside size off hs ho b hb t
      rw [Writer.calls, h1, Outcome.bind_ok, Over]
      by_cases hle : t.length ≤ size - off
      · rw [wrap16_of_lt (by omega)]
        rcases ih (off + t.length) b' (by omega) h2 hsm.2 with ⟨h3, h4⟩ | ⟨h3, h4⟩
        · rw [Nat.sub_add_eq] at h4
          exact .inl ⟨h3, .inl ⟨hle, h4⟩⟩
        · rw [Nat.sub_add_eq] at h3
          exact .inr ⟨fun h => h.elim (fun h => h3 h.2) (fun h => by have := h.1; omega), h4⟩
      · by_cases hc : cs = []
        · subst hc
          exact .inr ⟨fun h => h.elim (fun h => hle h.1) (fun h => h.2), _, _, rfl, h2⟩
        · have hlt := hsm.1 hc
          rw [wrap16_of_lt (by omega)]
          rcases calls_outside size cs (off + t.length) b' (by omega) (by omega) h2 with ⟨h3, h4⟩ | ⟨h3, h4⟩
          · exact .inl ⟨h3, .inr ⟨by omega, h4⟩⟩
          · exact .inr ⟨fun h => h.elim (fun h => hle h.1) (fun h => h3 h.2), _, _, h4, h2⟩

theorem compose_exact (n : Nat) (cs : List Call) (hsm : Small (n % 2 ^ 16) cs) :
    (compose true n cs = .ub ∧ Over (n % 2 ^ 16) cs) ∨
      (¬ Over (n % 2 ^ 16) cs ∧ ∃ s b, compose true n cs = .ok s ∧ s.message = some b ∧ b.length = n % 2 ^ 16 + 1) := by
  have hlt : n % 2 ^ 16 < 2 ^ 16 := Nat.mod_lt _ (by decide)
  have hc : Writer.create true (wrap16 n) = ⟨n % 2 ^ 16, 0, some (List.replicate (n % 2 ^ 16 + 1) 0#8)⟩ := by
    rw [wrap16_def]; rfl
  rw [compose, hc]
  rcases calls_exact (n % 2 ^ 16) hlt cs 0 (some (List.replicate (n % 2 ^ 16 + 1) 0#8)) (Nat.zero_le _)
    (.inr ⟨_, rfl, List.length_replicate⟩) hsm with ⟨h1, h2⟩ | ⟨h1, off, b, h2, h3⟩
  · rw [h1]; exact .inl ⟨rfl, h2⟩
  · rcases h3 with ⟨h3, h4⟩ | ⟨x, h3, h4⟩
    · exfalso
      subst h3
      -- a buffer does not disappear
      have : ∀ (cs : List Call) (w w' : Writer), w.calls cs = .ok w' → w.buffer ≠ none → w'.buffer ≠ none := by
        have hp : ∀ (w : Writer) d b, w.poke d = .ok b → w.buffer ≠ none → b ≠ none := by
          intro w d b h hw
          rw [Writer.poke] at h
          split at h
          · cases h; exact hw
          · split at h
            · cases h
            · split at h
              · cases h; simp
              · cases h
        intro cs
        induction cs with
        | nil => intro w w' h hw; cases h; exact hw
        | cons c cs ih =>
          intro w w' h hw
          cases c with
          | append d =>
            rw [Writer.calls, Writer.append] at h
            cases hk : w.poke (d.take (min d.length w.remaining)) with
            | ok b => rw [hk, Outcome.bind_ok, Outcome.bind_ok] at h; exact ih _ _ h (hp _ _ _ hk hw)
            | _ => rw [hk] at h; cases h
          | print t =>
            rw [Writer.calls, Writer.print] at h
            cases hk : w.poke (if w.remaining = 0 then [] else t.take (w.remaining - 1) ++ [0#8]) with
            | ok b => rw [hk, Outcome.bind_ok, Outcome.bind_ok] at h; exact ih _ _ h (hp _ _ _ hk hw)
            | _ => rw [hk] at h; cases h
      exact this cs _ _ h2 (by simp) rfl
    · right
      refine ⟨h1, ⟨off, b⟩, x, ?_, h3, h4⟩
      rw [h2, Outcome.bind_ok]
      rfl

/-- A message whose measured size wraps is not the whole text. -/
theorem not_complete {n : Nat} {cs : List Call} {t : List Byte} (hsm : Small (n % 2 ^ 16) cs) (hn : 2 ^ 16 ≤ n)
    (ht : n ≤ t.length + 8) : ¬ Complete (compose true n cs) t := by
  rintro ⟨s, h1, h2, -⟩
  rcases compose_exact n cs hsm with ⟨h, -⟩ | ⟨-, s', b, h, hb, hl⟩
  · rw [h] at h1; cases h1
  · rw [h] at h1
    cases h1
    rw [ErrorString.view, hb] at h2
    simp only at h2
    split at h2
    · have h2 := congrArg List.length (Outcome.ok.inj h2)
      rw [List.length_take] at h2
      omega
    · cases h2

/-- The views of an exception have less than 2^16 characters, as every `StringView` does. -/
def Views : Exception → Prop
  | .message t => t.length < 2 ^ 16
  | .illegalArgumentNamed n => n.length < 2 ^ 16
  | .indexOutOfRangeWith _ _ _ p => p.length < 2 ^ 16
  | .overflowNamed n _ _ _ => n.length < 2 ^ 16
  | .noSuchElementNamed n => n.length < 2 ^ 16
  | .invalidStateTag t => t.length < 2 ^ 16
  | .io t => t.length < 2 ^ 16
  | .ioCodeText _ t => t.length < 2 ^ 16
  | _ => True

/-- How much larger than the text the buffer is asked to be. -/
def slack : Exception → Nat
  | .illegalArgumentNamed _ => 2
  | .indexOutOfRangeOf _ _ _ => 8
  | .indexOutOfRangeWith _ _ _ _ => 8
  | .overflow _ _ _ => 8
  | .overflowNamed n _ _ _ => if n = [] then 8 else 6
  | .ioCode _ => 2
  | .ioCodeText _ _ => 2
  | _ => 0

/-- The lengths of the text for which composing it writes outside the buffer. -/
def Overruns : Exception → Nat → Prop
  | .illegalArgumentNamed _, n => 65534 ≤ n ∧ n ≤ 65551
  | .indexOutOfRangeWith _ _ _ _, n => 2 ^ 16 ≤ n + 8
  | .overflowNamed m _ _ _, n => 2 ^ 16 ≤ n + if m = [] then 8 else 6
  | .ioCodeText _ _, n => 2 ^ 16 ≤ n + 2
  | _, _ => False

theorem decimalText_length (n : Nat) : 0 < (decimalText n).length ∧ (decimalText n).length ≤ 20 := by
  refine ⟨?_, decimalDigits_length _ _⟩
  rw [decimalText]
  show 0 < (decimalDigits (19 + 1) n).length
  rw [decimalDigits]
  split <;> simp

/-- The exact statement for one exception. -/
def Exactly (strerror : Int → List Byte) (e : Exception) (t : List Byte) : Prop :=
  (Complete (construct true strerror e) t ↔ t.length + slack e < 2 ^ 16) ∧
  (construct true strerror e = .ub ↔ Overruns e t.length) ∧
  (construct true strerror e = .ub ∨ ∃ s, construct true strerror e = .ok s)

theorem exactly_plain {strerror : Int → List Byte} {e : Exception} {t : List Byte}
    (hc : construct true strerror e = ErrorString.ofView true t) (hs : slack e = 0) (ho : ∀ n, ¬ Overruns e n)
    (ht : t.length < 2 ^ 16) : Exactly strerror e t := by
  refine ⟨?_, ?_, ?_⟩
  · rw [hc, hs]; exact ⟨fun _ => ht, fun _ => ofView_complete t⟩
  · rw [hc]
    refine ⟨fun h => ?_, fun h => absurd h (ho _)⟩
    rw [ErrorString.ofView, if_pos rfl] at h
    cases h
  · right; rw [hc, ErrorString.ofView, if_pos rfl]; exact ⟨_, rfl⟩

theorem exactly_compose {strerror : Int → List Byte} {e : Exception} {t : List Byte} {n : Nat} {cs : List Call}
    (hc : construct true strerror e = compose true n cs) (hn : n = t.length + slack e) (h8 : slack e ≤ 8)
    (hfit : n < 2 ^ 16 → Complete (compose true n cs) t ∧ ¬ Overruns e t.length)
    (hbig : 2 ^ 16 ≤ n → Small (n % 2 ^ 16) cs ∧ (Over (n % 2 ^ 16) cs ↔ Overruns e t.length)) : Exactly strerror e t := by
  rw [Exactly, hc, ← hn]
  by_cases hlt : n < 2 ^ 16
  · obtain ⟨⟨s, h1, h2⟩, h3⟩ := hfit hlt
    exact ⟨⟨fun _ => hlt, fun _ => ⟨s, h1, h2⟩⟩, ⟨fun h => (by rw [h1] at h; cases h), fun h => absurd h h3⟩, .inr ⟨s, h1⟩⟩
  · obtain ⟨hsm, hov⟩ := hbig (by omega)
    refine ⟨⟨fun h => ?_, fun h => absurd h hlt⟩, ?_⟩
    · exact absurd h (not_complete hsm (by omega) (by omega))
    · rw [← hov]
      rcases compose_exact n cs hsm with ⟨h1, h2⟩ | ⟨h1, s, b, h2, -⟩
      · exact ⟨⟨fun _ => h2, fun _ => h1⟩, .inl h1⟩
      · exact ⟨⟨fun h => (by rw [h2] at h; cases h), fun h => absurd h h1⟩, .inr ⟨s, h2⟩⟩

theorem exactly_join {strerror : Int → List Byte} {e : Exception} (lhs rhs : List Byte)
    (hc : construct true strerror e = formatJoin true lhs rhs) (hs : slack e = 0) (ho : ∀ n, ¬ Overruns e n) :
    Exactly strerror e (lhs ++ lit " " ++ rhs) := by
  refine exactly_compose (n := lhs.length + rhs.length + (lit " ").length) (cs := [.append lhs, .append (lit " "), .append rhs])
    hc ?_ (by omega) ?_ fun _ => ⟨trivial, ⟨fun h => h.elim, fun h => absurd h (ho _)⟩⟩
  · rw [hs]; simp only [List.length_append]; omega
  · intro h
    exact ⟨join_complete lhs rhs (by simp only [List.length_append]; omega), ho _⟩

theorem exactly_illegal (strerror : Int → List Byte) (name : List Byte) (hn : name.length < 2 ^ 16) :
    Exactly strerror (.illegalArgumentNamed name) (lit "Illegal argument '" ++ name ++ lit "'") := by
  refine exactly_compose (n := measureLit "Illegal argument '" + name.length + measureLit "'")
    (cs := [.print (lit "Illegal argument '"), .append name, .print (lit "'")]) rfl ?_ (by simp [slack]) ?_ ?_
  · simp only [slack, measureLit, List.length_append, len_illegal, len_quote]; omega
  · intro h
    simp only [measureLit, len_illegal, len_quote] at h
    have := compose_fits (measureLit "Illegal argument '" + name.length + measureLit "'")
      [.print (lit "Illegal argument '"), .append name, .print (lit "'")]
      (by rw [measureLit, measureLit, len_illegal, len_quote]; omega)
      (by simp only [Fits, and_true, measureLit, len_illegal, len_quote]; omega)
    refine ⟨by simpa [texts, Writer.Call.text] using this, ?_⟩
    simp only [Overruns, List.length_append, len_illegal, len_quote]; omega
  · intro h
    simp only [measureLit, len_illegal, len_quote] at h
    refine ⟨?_, ?_⟩
    · simp only [Small, measureLit, len_illegal, len_quote, and_true, ne_eq, not_true_eq_false, false_implies]
      intro _; omega
    · simp only [Over, Writes, Overruns, measureLit, List.length_append, len_illegal, len_quote, and_false, or_false, false_or, or_true, and_true]
      omega

theorem signedText_pos (c : Int) : 0 < (signedText c).length := by
  have := (decimalText_length c.natAbs).1
  rw [signedText]
  split
  · simp
  · exact this

theorem exactly_errno {strerror : Int → List Byte} {e : Exception} (code : Int) (text t : List Byte)
    (hr : -2 ^ 31 ≤ code ∧ code < 2 ^ 31) (hse : (strerror code).length < 2 ^ 15) (htl : text.length < 2 ^ 16)
    (hc : construct true strerror e = formatErrno true strerror code text) (hs : slack e = 2)
    (ho : (∀ n, Overruns e n ↔ 2 ^ 16 ≤ n + 2) ∨ ((∀ n, ¬ Overruns e n) ∧ text.length ≤ 18))
    (ht : IsErrnoText strerror code text t) : Exactly strerror e t := by
  obtain ⟨c, h1, rfl⟩ := ht
  rw [isSigned_unique h1 (signedText_spec code hr)]
  have hw : wrap16 (strerror code).length = (strerror code).length := wrap16_of_lt (by omega)
  have hd := signedText_length code
  have hp := signedText_pos code
  refine exactly_compose
    (n := text.length + measureLit "[" + (signedText code).length + measureLit "]: " + wrap16 (strerror code).length)
    (cs := [.append text, .print (lit "["), .print (signedText code), .print (lit "]: "), .print (strerror code)])
    hc ?_ (by omega) ?_ ?_
  · rw [hs, hw]; simp only [measureLit, List.length_append, len_open, len_close]; omega
  · intro h
    have := compose_fits
      (text.length + measureLit "[" + (signedText code).length + measureLit "]: " + wrap16 (strerror code).length)
      [.append text, .print (lit "["), .print (signedText code), .print (lit "]: "), .print (strerror code)] h
      (by rw [hw] at h ⊢; simp only [Fits, and_true, measureLit, len_open, len_close] at h ⊢; omega)
    refine ⟨by simpa [texts, Writer.Call.text] using this, ?_⟩
    rw [hw] at h
    simp only [measureLit, List.length_append, len_open, len_close] at h ⊢
    rcases ho with ho | ⟨ho, hl⟩
    · rw [ho]; omega
    · exact ho _
  · intro h
    rw [hw] at h ⊢
    simp only [measureLit, List.length_append, len_open, len_close] at h ⊢
    generalize hz : (text.length + (1 + 1) + (signedText code).length + (3 + 1) + (strerror code).length) % 2 ^ 16 = w
    have hsz : w + 2 ^ 16 = text.length + (1 + 1) + (signedText code).length + (3 + 1) + (strerror code).length := by omega
    refine ⟨?_, ?_⟩
    · simp only [Small, len_open, len_close, and_true, ne_eq, not_true_eq_false, false_implies]
      refine ⟨fun _ => ?_, fun _ => ?_, fun _ => ?_⟩ <;> omega
    · simp only [Over, Writes, len_open, len_close, and_false, or_false, and_true]
      rcases ho with ho | ⟨ho, hl⟩
      · rw [ho]; omega
      · omega

theorem exactly_range {strerror : Int → List Byte} {e : Exception} (pre name reason : List Byte) (index lo hi : Nat) (t : List Byte)
    (hr : index < 2 ^ 64 ∧ lo < 2 ^ 64 ∧ hi < 2 ^ 64) (hpre : pre.length < 2 ^ 16) (hreason : reason.length ≤ 18)
    (hname : name = [] ∨ (pre.length ≤ 18 ∧ name.length < 2 ^ 16))
    (hc : construct true strerror e = formatIndex true pre name reason index lo hi) (hs : slack e = if name = [] then 8 else 6)
    (ho : (∀ n, Overruns e n ↔ 2 ^ 16 ≤ n + slack e) ∨ ((∀ n, ¬ Overruns e n) ∧ pre.length ≤ 18 ∧ name = []))
    (ht : IsRangeText pre name reason index lo hi t) : Exactly strerror e t := by
  obtain ⟨i, l, u, h1, h2, h3, rfl⟩ := ht
  rw [Decimal.isDecimal_unique h1 (Decimal.decimalText_spec hr.1), Decimal.isDecimal_unique h2 (Decimal.decimalText_spec hr.2.1),
    Decimal.isDecimal_unique h3 (Decimal.decimalText_spec hr.2.2)]
  obtain ⟨i1, i2⟩ := decimalText_length index
  obtain ⟨l1, l2⟩ := decimalText_length lo
  obtain ⟨u1, u2⟩ := decimalText_length hi
  rw [formatIndex] at hc
  by_cases hn : name = []
  · subst hn
    rw [if_pos rfl] at hs ⊢
    simp only [ne_eq, not_true_eq_false, if_false] at hc
    refine exactly_compose hc ?_ (by omega) ?_ ?_
    · rw [hs]
      simp only [measureLit, List.length_append, len_space, len_range, len_comma, len_paren, len_quote1, len_quote2, len_colon, List.length_nil]
      omega
    · intro h
      refine ⟨?_, ?_⟩
      · have := compose_fits _ ([.append pre] ++ [.print (lit ": ")] ++
          [.print (decimalText index), .print (lit " "), .append reason, .print (lit " ["), .print (decimalText lo),
            .print (lit ", "), .print (decimalText hi), .print (lit ")")]) h
          (by
            simp only [measureLit, len_space, len_range, len_comma, len_paren, len_quote1, len_quote2, List.length_nil] at h
            simp only [Fits, and_true, List.cons_append, List.nil_append, measureLit, len_space, len_range, len_comma, len_paren,
              len_quote1, len_quote2, len_colon, List.length_nil]; omega)
        simpa [texts, Writer.Call.text] using this
      · simp only [measureLit, List.length_append, len_space, len_range, len_comma, len_paren, len_quote1, len_quote2, len_colon,
          List.length_nil] at h ⊢
        rcases ho with ho | ⟨ho, -⟩
        · rw [ho, hs]; omega
        · exact ho _
    · intro h
      simp only [measureLit, List.length_append, len_space, len_range, len_comma, len_paren, len_quote1, len_quote2, len_colon,
        List.length_nil] at h ⊢
      generalize hz : _ % 2 ^ 16 = w
      have hsz : w + 2 ^ 16 = pre.length + 16 + (decimalText index).length + reason.length + (decimalText lo).length +
        (decimalText hi).length := by omega
      refine ⟨?_, ?_⟩
      · simp only [Small, List.cons_append, List.nil_append, len_space, len_range, len_comma, len_paren, len_colon, and_true, ne_eq,
          not_true_eq_false, false_implies]
        refine ⟨fun _ => ?_, fun _ => ?_, fun _ => ?_, fun _ => ?_, fun _ => ?_, fun _ => ?_, fun _ => ?_⟩ <;> omega
      · simp only [Over, Writes, List.cons_append, List.nil_append, len_space, len_range, len_comma, len_paren, len_colon, and_false,
          or_false, or_true, and_true]
        rcases ho with ho | ⟨ho, hl, -⟩
        · rw [ho, hs]; omega
        · omega
  · rcases hname with hname | ⟨hpl, hnl⟩
    · exact absurd hname hn
    have hpos := List.length_pos_iff.mpr hn
    have ho := ho.resolve_right fun h => hn h.2.2
    rw [if_neg hn] at hs ⊢
    simp only [ne_eq, hn, not_false_eq_true, if_true] at hc
    refine exactly_compose hc ?_ (by omega) ?_ ?_
    · rw [hs]
      simp only [measureLit, List.length_append, len_space, len_range, len_comma, len_paren, len_quote1, len_quote2]
      omega
    · intro h
      refine ⟨?_, ?_⟩
      · have := compose_fits _ ([.append pre] ++ [.print (lit " '"), .append name, .print (lit "'=")] ++
          [.print (decimalText index), .print (lit " "), .append reason, .print (lit " ["), .print (decimalText lo),
            .print (lit ", "), .print (decimalText hi), .print (lit ")")]) h
          (by
            simp only [measureLit, len_space, len_range, len_comma, len_paren, len_quote1, len_quote2] at h
            simp only [Fits, and_true, List.cons_append, List.nil_append, measureLit, len_space, len_range, len_comma, len_paren,
              len_quote1, len_quote2]; omega)
        simpa [texts, Writer.Call.text] using this
      · simp only [measureLit, List.length_append, len_space, len_range, len_comma, len_paren, len_quote1, len_quote2] at h ⊢
        rw [ho, hs]; omega
    · intro h
      simp only [measureLit, List.length_append, len_space, len_range, len_comma, len_paren, len_quote1, len_quote2] at h ⊢
      generalize hz : _ % 2 ^ 16 = w
      have hsz : w + 2 ^ 16 = pre.length + name.length + 16 + (decimalText index).length + reason.length + (decimalText lo).length +
        (decimalText hi).length := by omega
      refine ⟨?_, ?_⟩
      · simp only [Small, List.cons_append, List.nil_append, len_space, len_range, len_comma, len_paren, len_quote1, len_quote2,
          and_true, ne_eq, not_true_eq_false, false_implies]
        refine ⟨fun _ => ?_, fun _ => ?_, fun _ => ?_, fun _ => ?_, fun _ => ?_, fun _ => ?_, fun _ => ?_, fun _ => ?_⟩ <;> omega
      · simp only [Over, Writes, List.cons_append, List.nil_append, len_space, len_range, len_comma, len_paren, len_quote1, len_quote2,
          and_false, or_false, or_true, and_true]
        rw [ho, hs]; omega

/-- **C67** (exactly, memory available): for every exception, with views of any length, the message is the whole text if and only
if the text and `slack` have less than 2^16 characters. Composing it writes outside the buffer exactly for the lengths in
`Overruns`: never for plain texts and those joined by a space, for the name of an illegal argument between 65515 and 65532
characters, and for range and system errors whenever the message is not complete. (`strerror` gives less than 2^15 characters.) -/
theorem C67_exact (strerror : Int → List Byte) (hse : ∀ c, (strerror c).length < 2 ^ 15) (e : Exception) (he : InRange e)
    (hv : Views e) (t : List Byte) (ht : IsText strerror e t) :
    (Complete (construct true strerror e) t ↔ t.length + slack e < 2 ^ 16) ∧
    (construct true strerror e = .ub ↔ Overruns e t.length) ∧
    (construct true strerror e = .ub ∨ ∃ s, construct true strerror e = .ok s) := by
  have r1 : (lit "is out of range").length ≤ 18 := by decide +kernel
  have r2 : (lit "overflows range").length ≤ 18 := by decide +kernel
  have p1 : (lit "Index out of range").length ≤ 18 := by decide +kernel
  have p2 : (lit "Value").length ≤ 18 := by decide +kernel
  have p3 : (lit "IOException").length ≤ 18 := by decide +kernel
  have l1 : (lit "IllegalArgumentException").length < 2 ^ 16 := by decide +kernel
  have l2 : (lit "No such element").length < 2 ^ 16 := by decide +kernel
  have l3 : (lit "Invalid State").length < 2 ^ 16 := by decide +kernel
  have l4 : (lit "File descriptor not opened").length < 2 ^ 16 := by decide +kernel
  show Exactly strerror e t
  cases e with
  | message x => cases ht; exact exactly_plain rfl rfl (fun _ => id) hv
  | illegalArgument => cases ht; exact exactly_plain rfl rfl (fun _ => id) l1
  | illegalArgumentNamed n => cases ht; exact exactly_illegal strerror n hv
  | indexOutOfRange => cases ht; exact exactly_plain rfl rfl (fun _ => id) (by omega)
  | indexOutOfRangeOf i lo hi =>
    exact exactly_range _ _ _ i lo hi t he (by omega) r1 (.inl rfl) rfl rfl (.inr ⟨fun _ => id, p1, rfl⟩) ht
  | indexOutOfRangeWith i lo hi p =>
    exact exactly_range _ _ _ i lo hi t he hv r1 (.inl rfl) rfl rfl (.inl fun _ => Iff.rfl) ht
  | overflow i lo hi =>
    exact exactly_range _ _ _ i lo hi t he (by omega) r2 (.inl rfl) rfl rfl (.inr ⟨fun _ => id, p2, rfl⟩) ht
  | overflowNamed n i lo hi =>
    exact exactly_range _ _ _ i lo hi t he (by omega) r2 (.inr ⟨p2, hv⟩) rfl rfl (.inl fun _ => Iff.rfl) ht
  | noSuchElement => cases ht; exact exactly_plain rfl rfl (fun _ => id) l2
  | noSuchElementNamed n => cases ht; exact exactly_join _ n rfl rfl (fun _ => id)
  | invalidState => cases ht; exact exactly_plain rfl rfl (fun _ => id) l3
  | invalidStateTag g => cases ht; exact exactly_join _ g rfl rfl (fun _ => id)
  | io x => cases ht; exact exactly_plain rfl rfl (fun _ => id) hv
  | ioCode c => exact exactly_errno c _ t he (hse c) (by omega) rfl rfl (.inr ⟨fun _ => id, p3⟩) ht
  | ioCodeText c x => exact exactly_errno c x t he (hse c) hv rfl rfl (.inl fun _ => Iff.rfl) ht
  | notOpen => cases ht; exact exactly_plain rfl rfl (fun _ => id) l4

/-- What a chain of calls does without memory: undefined exactly when something is printed that is not empty and a later call
writes. -/
theorem compose_no_memory (n : Nat) (cs : List Call) (hsm : Small 0 cs) :
    (compose false n cs = .ub ∧ Over 0 cs) ∨ (¬ Over 0 cs ∧ ∃ off, compose false n cs = .ok ⟨off, none⟩) := by
  rw [compose, show Writer.create false (wrap16 n) = ⟨0, 0, none⟩ from rfl]
  rcases calls_exact 0 (by omega) cs 0 none (Nat.le_refl _) (.inl ⟨rfl, rfl⟩) hsm with ⟨h1, h2⟩ | ⟨h1, off, b, h2, h3⟩
  · rw [h1]; exact .inl ⟨rfl, h2⟩
  · right
    refine ⟨h1, off, ?_⟩
    have : ∀ (cs : List Call) (w w' : Writer), w.calls cs = .ok w' → w.buffer = none → w'.buffer = none := by
      have hp : ∀ (w : Writer) d b, w.poke d = .ok b → w.buffer = none → b = none := by
        intro w d b h hw
        rw [Writer.poke, hw] at h
        split at h
        · cases h; rfl
        · cases h
      intro cs
      induction cs with
      | nil => intro w w' h hw; cases h; exact hw
      | cons c cs ih =>
        intro w w' h hw
        cases c with
        | append d =>
          rw [Writer.calls, Writer.append] at h
          cases hk : w.poke (d.take (min d.length w.remaining)) with
          | ok b => rw [hk, Outcome.bind_ok, Outcome.bind_ok] at h; exact ih _ _ h (hp _ _ _ hk hw)
          | _ => rw [hk] at h; cases h
        | print t =>
          rw [Writer.calls, Writer.print] at h
          cases hk : w.poke (if w.remaining = 0 then [] else t.take (w.remaining - 1) ++ [0#8]) with
          | ok b => rw [hk, Outcome.bind_ok, Outcome.bind_ok] at h; exact ih _ _ h (hp _ _ _ hk hw)
          | _ => rw [hk] at h; cases h
    have hb := this cs _ _ h2 rfl
    rw [h2, Outcome.bind_ok, Writer.build]
    simp only at hb ⊢
    rw [hb]

/-- The exceptions that can be constructed when `calloc` fails: those without a text and those with a text joined by a space. -/
def WithoutMemory : Exception → Prop
  | .message t => t = []
  | .io t => t = []
  | .noSuchElementNamed _ => True
  | .invalidStateTag _ => True
  | _ => False

theorem lit_ne_nil (s : String) (h : 0 < (lit s).length) : lit s ≠ [] := List.length_pos_iff.mp h

theorem join_no_memory (lhs rhs : List Byte) : formatJoin false lhs rhs = .ok ⟨0, none⟩ := by
  have h : ∀ d, (⟨0, 0, none⟩ : Writer).append d = .ok ⟨0, 0, none⟩ := by
    intro d
    have hr : (⟨0, 0, none⟩ : Writer).remaining = 0 := sub16_of_le (Nat.le_refl _) (by simp)
    rw [Writer.append, hr, Nat.min_zero]
    simp only [List.take_zero, Nat.add_zero]
    rw [Writer.poke, if_pos rfl, Outcome.bind_ok, wrap16_of_lt (by omega)]
  rw [formatJoin, compose, show Writer.create false _ = ⟨0, 0, none⟩ from rfl, Writer.calls, h, Outcome.bind_ok, Writer.calls, h,
    Outcome.bind_ok, Writer.calls, h, Outcome.bind_ok, Writer.calls]
  rfl

/-- **C67** (exactly, `calloc` fails): constructing the exception is undefined, except for those in `WithoutMemory`. These have
no characters, and `what()` is the null pointer. -/
theorem C67_no_memory_exact (strerror : Int → List Byte) (e : Exception) :
    (¬ WithoutMemory e → construct false strerror e = .ub) ∧
    (WithoutMemory e → ∃ s, construct false strerror e = .ok s ∧ s.view = .ok [] ∧ s.what = .ok none) := by
  have hof : ∀ t : List Byte, t ≠ [] → ErrorString.ofView false t = .ub := by
    intro t ht; rw [ErrorString.ofView, if_neg (by simp), if_neg ht]
  have hlit : ∀ s : String, 0 < (lit s).length → ErrorString.ofView false (lit s) = .ub := fun s h => hof _ (lit_ne_nil s h)
  have herr : ∀ code text, formatErrno false strerror code text = .ub := by
    intro code text
    have hs := signedText_length code
    rcases compose_no_memory
      (text.length + measureLit "[" + (signedText code).length + measureLit "]: " + wrap16 (strerror code).length)
      [.append text, .print (lit "["), .print (signedText code), .print (lit "]: "), .print (strerror code)]
      (by
        simp only [Small, len_open, len_close, and_true, ne_eq, not_true_eq_false, false_implies]
        refine ⟨fun _ => ?_, fun _ => ?_, fun _ => ?_⟩ <;> omega) with ⟨h, -⟩ | ⟨h, -⟩
    · exact h
    · refine absurd ?_ h
      simp only [Over, Writes, len_open]
      right; exact ⟨by omega, trivial⟩
  have hrng : ∀ pre name reason i lo hi, formatIndex false pre name reason i lo hi = .ub := by
    intro pre name reason i lo hi
    have i2 := (decimalText_length i).2
    have l2 := (decimalText_length lo).2
    have u2 := (decimalText_length hi).2
    rw [formatIndex]
    split
    · refine ((compose_no_memory _ _ ?_).resolve_right fun h => h.1 ?_).1
      · simp only [Small, List.cons_append, List.nil_append, len_space, len_range, len_comma, len_paren, len_quote1, len_quote2,
          and_true, ne_eq, not_true_eq_false, false_implies]
        refine ⟨fun _ => ?_, fun _ => ?_, fun _ => ?_, fun _ => ?_, fun _ => ?_, fun _ => ?_, fun _ => ?_, fun _ => ?_⟩ <;> omega
      · simp only [Over, Writes, List.cons_append, List.nil_append, len_quote1]
        right; exact ⟨by omega, .inr trivial⟩
    · refine ((compose_no_memory _ _ ?_).resolve_right fun h => h.1 ?_).1
      · simp only [Small, List.cons_append, List.nil_append, len_space, len_range, len_comma, len_paren, len_colon,
          and_true, ne_eq, not_true_eq_false, false_implies]
        refine ⟨fun _ => ?_, fun _ => ?_, fun _ => ?_, fun _ => ?_, fun _ => ?_, fun _ => ?_, fun _ => ?_⟩ <;> omega
      · simp only [Over, Writes, List.cons_append, List.nil_append, len_colon]
        right; exact ⟨by omega, trivial⟩
  have hemp : ∃ s, (ErrorString.ofView false [] : Outcome ErrorString) = .ok s ∧ s.view = .ok [] ∧ s.what = .ok none :=
    ⟨_, rfl, rfl, rfl⟩
  have hjoin : ∀ a b, ∃ s, formatJoin false a b = .ok s ∧ s.view = .ok [] ∧ s.what = .ok none := fun a b =>
    ⟨_, join_no_memory a b, rfl, rfl⟩
  cases e with
  | message x => exact ⟨fun h => hof x h, fun h => by cases h; exact hemp⟩
  | illegalArgument => exact ⟨fun _ => hlit _ (by decide +kernel), fun h => h.elim⟩
  | illegalArgumentNamed n =>
    refine ⟨fun _ => ?_, fun h => h.elim⟩
    rw [construct, formatIllegalArg]
    refine ((compose_no_memory _ _ ?_).resolve_right fun h => h.1 ?_).1
    · simp only [Small, len_illegal, len_quote, and_true, ne_eq, not_true_eq_false, false_implies]
      intro _; omega
    · simp only [Over, Writes, len_illegal]
      right; exact ⟨by omega, .inr trivial⟩
  | indexOutOfRange => exact ⟨fun _ => hlit _ (by decide +kernel), fun h => h.elim⟩
  | indexOutOfRangeOf i lo hi => exact ⟨fun _ => hrng _ _ _ i lo hi, fun h => h.elim⟩
  | indexOutOfRangeWith i lo hi p => exact ⟨fun _ => hrng _ _ _ i lo hi, fun h => h.elim⟩
  | overflow i lo hi => exact ⟨fun _ => hrng _ _ _ i lo hi, fun h => h.elim⟩
  | overflowNamed n i lo hi => exact ⟨fun _ => hrng _ _ _ i lo hi, fun h => h.elim⟩
  | noSuchElement => exact ⟨fun _ => hlit _ (by decide +kernel), fun h => h.elim⟩
  | noSuchElementNamed n => exact ⟨fun h => absurd trivial h, fun _ => hjoin _ _⟩
  | invalidState => exact ⟨fun _ => hlit _ (by decide +kernel), fun h => h.elim⟩
  | invalidStateTag g => exact ⟨fun h => absurd trivial h, fun _ => hjoin _ _⟩
  | io x => exact ⟨fun h => hof x h, fun h => by cases h; exact hemp⟩
  | ioCode c => exact ⟨fun _ => herr c _, fun h => h.elim⟩
  | ioCodeText c x => exact ⟨fun _ => herr c x, fun h => h.elim⟩
  | notOpen => exact ⟨fun _ => hlit _ (by decide +kernel), fun h => h.elim⟩

/-- A name of 65520 characters meets the hypotheses and overruns; one of 65533 does not and is not complete. -/
example : Views (.illegalArgumentNamed (List.replicate 65520 0x61#8)) ∧ Overruns (.illegalArgumentNamed []) (65520 + 19) ∧
    ¬ Overruns (.illegalArgumentNamed []) (65533 + 19) ∧ ¬ (65533 + 19 + slack (.illegalArgumentNamed []) < 2 ^ 16) := by
  refine ⟨?_, ?_, ?_, ?_⟩
  · show (List.replicate 65520 0x61#8).length < 2 ^ 16
    rw [List.length_replicate]; omega
  · simp [Overruns]
  · simp [Overruns]
  · simp [slack]

end Solace.Exn
