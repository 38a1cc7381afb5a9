import Verif.Props.C37_C39_Uuid
/-
C38, completely: what `UUID::parse` does with every text.
-/
namespace Solace.Uuid

/-- `Tokens s bs`: `s` is a sequence of dashes and pairs of hexadecimal digits, and `bs` are the values of the pairs. -/
inductive Tokens : List Byte → List Byte → Prop
  | nil : Tokens [] []
  | dash {s bs} : Tokens s bs → Tokens (0x2D#8 :: s) bs
  | pair {c d x y s bs} : Hex.value c = some x → Hex.value d = some y → Tokens s bs →
      Tokens (c :: d :: s) (BitVec.ofNat 8 (16 * x + y) :: bs)

/-- `rest` does not begin with a dash or a pair of digits. -/
def Stuck (rest : List Byte) : Prop :=
  rest = [] ∨ ∃ c t, rest = c :: t ∧ c ≠ 0x2D#8 ∧
    (t = [] ∨ ∃ d t', t = d :: t' ∧ ¬(Hex.IsDigit c ∧ Hex.IsDigit d))

/-- Every text begins with a longest sequence of dashes and pairs. -/
theorem tokens_total : ∀ (n : Nat) (s : List Byte), s.length ≤ n →
    ∃ p bs rest, s = p ++ rest ∧ Tokens p bs ∧ Stuck rest
  | _, [], _ => ⟨[], [], [], rfl, .nil, .inl rfl⟩
  | 0, _ :: _, h => absurd h (by simp)
  | n + 1, c :: t, h => by
    by_cases hc : c = 0x2D#8
    · subst hc
      obtain ⟨p, bs, rest, e, ht, hs⟩ := tokens_total n t (by simpa using h)
      exact ⟨_ :: p, bs, rest, by rw [e]; rfl, .dash ht, hs⟩
    · match t, h with
      | [], _ => exact ⟨[], [], [c], rfl, .nil, .inr ⟨c, [], rfl, hc, .inl rfl⟩⟩
      | d :: t', h =>
        cases hx : Hex.value c with
        | none => exact ⟨[], [], _, rfl, .nil, .inr ⟨c, _, rfl, hc, .inr ⟨d, t', rfl, fun hh => hh.1 hx⟩⟩⟩
        | some x =>
          cases hy : Hex.value d with
          | none => exact ⟨[], [], _, rfl, .nil, .inr ⟨c, _, rfl, hc, .inr ⟨d, t', rfl, fun hh => hh.2 hy⟩⟩⟩
          | some y =>
            obtain ⟨p, bs, rest, e, ht, hs⟩ := tokens_total n t' (by simp only [List.length_cons] at h; omega)
            exact ⟨c :: d :: p, _, rest, by rw [e]; rfl, .pair hx hy ht, hs⟩

theorem decode_pair (c d : Byte) (x y : Nat) (hx : Hex.value c = some x) (hy : Hex.value d = some y) :
    Base16.decode16 c d = .ok (.ok (BitVec.ofNat 8 (16 * x + y))) := by
  have hc : Hex.IsDigit c := by rw [Hex.IsDigit, hx]; simp
  have hd : Hex.IsDigit d := by rw [Hex.IsDigit, hy]; simp
  rw [Base16.decode16_eq c d (Base16.value_ascii c hc) (Base16.value_ascii d hd), hx, hy]

theorem decode_bad (c d : Byte) (h : ¬(Hex.IsDigit c ∧ Hex.IsDigit d)) (hc : c.toNat < 128) (hd : d.toNat < 128) :
    Base16.decode16 c d = .ok (.error .ilseq) := by
  rw [Base16.decode16_eq c d hc hd]
  cases hx : Hex.value c with
  | none => rfl
  | some x =>
    cases hy : Hex.value d with
    | none => rfl
    | some y => exact absurd ⟨by rw [Hex.IsDigit, hx]; simp, by rw [Hex.IsDigit, hy]; simp⟩ h

theorem decode_ub (c d : Byte) (h : 128 ≤ c.toNat ∨ 128 ≤ d.toNat) : Base16.decode16 c d = .ub := by
  by_cases hc : c.toNat < 128
  · rw [Base16.decode16, Base16.charToBin_eq c hc, Base16.charToBin_ub d (by omega)]
    rfl
  · rw [Base16.decode16, Base16.charToBin_ub c (by omega)]
    rfl

theorem parseLoop_tokens {p bs : List Byte} (h : Tokens p bs) (n : Nat) (rest : List Byte) : ∀ done : List Byte,
    done.length ≤ 16 →
    parseLoop (p.length + n) (p ++ rest) done =
      if done.length + bs.length ≤ 16 then parseLoop n rest (done ++ bs) else .ub := by
  induction h with
  | nil => intro done hd; rw [if_pos (by simpa using hd)]; simp
  | @dash s bs _ ih =>
    intro done hd
    rw [List.length_cons, List.cons_append, show s.length + 1 + n = (s.length + n) + 1 by omega, parseLoop_dash, ih done hd]
  | @pair c d x y s bs hx hy _ ih =>
    intro done hd
    have hc : c ≠ 0x2D#8 := digit_not_dash c (by rw [Hex.IsDigit, hx]; simp)
    rw [List.length_cons, List.length_cons, List.cons_append, List.cons_append,
      show s.length + 1 + 1 + n = (s.length + n + 1) + 1 by omega, parseLoop_pair _ _ _ hc, decode_pair c d x y hx hy]
    simp only [Nat.add_sub_cancel]
    by_cases h16 : done.length < staticSize
    · have h16' : done.length < 16 := h16
      rw [if_pos h16, ih _ (by rw [List.length_append, List.length_singleton]; omega), List.length_append,
        List.length_singleton, List.length_cons, List.append_assoc, List.singleton_append]
      by_cases hb : done.length + (bs.length + 1) ≤ 16
      · rw [if_pos hb, if_pos (by omega)]
      · rw [if_neg hb, if_neg (by omega)]
    · have h16' : ¬done.length < 16 := h16
      rw [if_neg h16, if_neg (by rw [List.length_cons]; omega)]

/-- **C38, exactly** (partial as the property fails outside the canonical form; nothing of the behaviour is left out).
Every text of 36 characters consists of a longest sequence of dashes and pairs of digits, followed by a rest, and:
1. more than 16 pairs: the array of 16 bytes is overrun, whatever the rest is;
2. no rest: accepted; the values of the pairs are the first bytes, and when there are less than 16 the other bytes are
   what the stack held before;
3. the rest has at least two characters: an error when they are ASCII, otherwise the digit table is indexed out of bounds;
4. the rest is one character: it is paired with the character in memory after the text. -/
theorem C38_exact_partial (stack str after : List Byte) (hl : str.length = 36) :
    ∃ p bs rest, str = p ++ rest ∧ Tokens p bs ∧ Stuck rest ∧
      (16 < bs.length → parse stack str after = .ub) ∧
      (bs.length ≤ 16 →
        (rest = [] → parse stack str after = .ok (.ok (bs ++ stack.drop bs.length))) ∧
        (∀ c d t, rest = c :: d :: t →
          (c.toNat < 128 → d.toNat < 128 → parse stack str after = .ok (.error .ilseq)) ∧
          (128 ≤ c.toNat ∨ 128 ≤ d.toNat → parse stack str after = .ub)) ∧
        (∀ c, rest = [c] →
          (after = [] → parse stack str after = .ub) ∧
          (∀ d t, after = d :: t →
            (∀ x y, Hex.value c = some x → Hex.value d = some y →
              parse stack str after = if bs.length < 16
                then .ok (.ok (bs ++ BitVec.ofNat 8 (16 * x + y) :: stack.drop (bs.length + 1))) else .ub) ∧
            (¬(Hex.IsDigit c ∧ Hex.IsDigit d) → c.toNat < 128 → d.toNat < 128 →
              parse stack str after = .ok (.error .ilseq)) ∧
            (128 ≤ c.toNat ∨ 128 ≤ d.toNat → parse stack str after = .ub)))) := by
  obtain ⟨p, bs, rest, e, ht, hs⟩ := tokens_total _ str (Nat.le_refl _)
  refine ⟨p, bs, rest, e, ht, hs, ?_⟩
  have hlen : p.length + rest.length = 36 := by rw [← hl, e, List.length_append]
  have hp : parse stack str after = (do
      match ← (if bs.length ≤ 16 then parseLoop rest.length (rest ++ after) bs else .ub) with
      | .error e => pure (.error e)
      | .ok done => pure (.ok (done ++ stack.drop done.length))) := by
    have h := parseLoop_tokens ht rest.length (rest ++ after) [] (by simp)
    rw [hlen, ← List.append_assoc, ← e, List.length_nil, Nat.zero_add, List.nil_append] at h
    rw [parse, if_neg (by rw [hl]; simp [stringSize]), show stringSize = 36 from rfl, h]
    rfl
  rw [hp]
  refine ⟨fun h => by rw [if_neg (by omega)]; rfl, fun h => ?_⟩
  rw [if_pos h]
  have two : ∀ (n : Nat) (c d : Byte) (t : List Byte), c ≠ 0x2D#8 → ¬(Hex.IsDigit c ∧ Hex.IsDigit d) →
      (c.toNat < 128 → d.toNat < 128 → parseLoop (n + 1) (c :: d :: t) bs = .ok (.error .ilseq)) ∧
      (128 ≤ c.toNat ∨ 128 ≤ d.toNat → parseLoop (n + 1) (c :: d :: t) bs = .ub) := by
    intro n c d t hc hn
    refine ⟨fun h1 h2 => ?_, fun h' => ?_⟩
    · rw [parseLoop_pair _ _ _ hc, decode_bad c d hn h1 h2]
    · rw [parseLoop_pair _ _ _ hc, decode_ub c d h']
  have ndig : ∀ c d : Byte, 128 ≤ c.toNat ∨ 128 ≤ d.toNat → ¬(Hex.IsDigit c ∧ Hex.IsDigit d) := by
    intro c d h ⟨h1, h2⟩
    have := Base16.value_ascii c h1
    have := Base16.value_ascii d h2
    omega
  refine ⟨?_, ?_, ?_⟩
  · rintro rfl
    rw [List.length_nil, parseLoop.eq_def]
    rfl
  · rintro c d t rfl
    rcases hs with hs | ⟨c', t', h1, hc, h2⟩
    · cases hs
    · obtain ⟨rfl, rfl⟩ := List.cons.inj h1
      rcases h2 with h2 | ⟨d', t'', h2, hn⟩
      · cases h2
      · obtain ⟨rfl, rfl⟩ := List.cons.inj h2
        obtain ⟨k1, k2⟩ := two (t.length + 1) c d (t ++ after) hc hn
        exact ⟨fun h1 h2 => by
            rw [List.length_cons, List.length_cons, List.cons_append, List.cons_append, k1 h1 h2]; rfl,
          fun h' => by rw [List.length_cons, List.length_cons, List.cons_append, List.cons_append, k2 h']; rfl⟩
  · rintro c rfl
    rcases hs with hs | ⟨c', t', h1, hc, _⟩
    · cases hs
    · obtain ⟨rfl, rfl⟩ := List.cons.inj h1
      refine ⟨?_, ?_⟩
      · rintro rfl
        rw [List.append_nil, List.length_singleton, parseLoop.eq_def]
        simp only
        rw [if_neg hc]
        rfl
      · rintro d t rfl
        rw [List.length_singleton, List.singleton_append]
        refine ⟨fun x y hx hy => ?_, fun hn h1 h2 => ?_, fun h' => ?_⟩
        · rw [parseLoop_pair _ _ _ hc, decode_pair c d x y hx hy]
          simp only
          by_cases h16 : bs.length < 16
          · rw [if_pos h16, if_pos (show bs.length < staticSize from h16), parseLoop.eq_def]
            simp
          · rw [if_neg h16, if_neg (show ¬bs.length < staticSize from h16)]
            rfl
        · rw [(two 0 c d t hc hn).1 h1 h2]; rfl
        · rw [(two 0 c d t hc (ndig c d h')).2 h']; rfl

/-- The hypotheses of the theorem are met, and the cases differ: here an odd number of dashes and a byte after the text. -/
example : parse (List.replicate 16 7#8) (List.replicate 5 0x2D#8 ++ List.replicate 31 0x31#8) [0x32#8] =
    .ok (.ok (List.replicate 15 0x11#8 ++ [0x12#8])) := by decide +kernel

/-- With six dashes the last byte is from the stack. -/
example : parse (List.replicate 16 7#8) (List.replicate 6 0x2D#8 ++ List.replicate 30 0x31#8) [] =
    .ok (.ok (List.replicate 15 0x11#8 ++ [7#8])) := by decide +kernel

end Solace.Uuid
