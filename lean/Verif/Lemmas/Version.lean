import Verif.Model.Version
import Verif.Lemmas.Decimal
import Verif.Lemmas.StringView
import Verif.Lemmas.String
import Verif.Props.C32_C33_StringBuilder
namespace Solace.Version
open StringView

theorem scan_piece (c : Byte) (p cur rest : List Byte) (h : c ∉ p) :
    scan [c] cur (p ++ c :: rest) = (cur ++ p) :: scan [c] [] rest := by
  induction p generalizing cur with
  | nil =>
    have hp : [c] <+: c :: rest := ⟨rest, rfl⟩
    rw [List.nil_append, scan_match (by simp) hp, List.append_nil, List.length_singleton, List.drop_one, List.tail_cons]
  | cons x p ih =>
    simp only [List.mem_cons, not_or] at h
    rw [List.cons_append, scan_cons (by
      rintro ⟨t, ht⟩
      exact h.1 (List.cons.inj ht).1), ih _ h.2, List.append_assoc]
    rfl

theorem scan_last (c : Byte) (p cur : List Byte) (h : c ∉ p) : scan [c] cur p = [cur ++ p] := by
  induction p generalizing cur with
  | nil => rw [scan_nil _ _ (by simp), List.append_nil]
  | cons x p ih =>
    simp only [List.mem_cons, not_or] at h
    rw [scan_cons (by
      rintro ⟨t, ht⟩
      exact h.1 (List.cons.inj ht).1), ih _ h.2, List.append_assoc]
    rfl

theorem isDigit_digit {d : Nat} (h : d < 10) : isDigit (Decimal.digit d) = true ∧ isSpace (Decimal.digit d) = false ∧
    (Decimal.digit d).toNat - 0x30 = d ∧ Decimal.digit d ≠ 0x2D#8 ∧ Decimal.digit d ≠ 0x2B#8 ∧ Decimal.digit d ≠ 0x2E#8 := by
  have : ∀ d : Fin 10, isDigit (Decimal.digit d) = true ∧ isSpace (Decimal.digit d) = false ∧
    (Decimal.digit d).toNat - 0x30 = d ∧ Decimal.digit d ≠ 0x2D#8 ∧ Decimal.digit d ≠ 0x2B#8 ∧ Decimal.digit d ≠ 0x2E#8 := by
    decide +kernel
  exact this ⟨d, h⟩

theorem fold_value (cs : List Byte) (h : ∀ c ∈ cs, ∃ d < 10, c = Decimal.digit d) (a : Nat) :
    cs.foldlM (fun a c => (Decimal.digitValue? c).map (10 * a + ·)) a =
      some (cs.foldl (fun a c => 10 * a + (c.toNat - 0x30)) a) := by
  induction cs generalizing a with
  | nil => rfl
  | cons c cs ih =>
    obtain ⟨d, hd, rfl⟩ := h c List.mem_cons_self
    rw [List.foldlM_cons, Decimal.digitValue_digit hd, List.foldl_cons, (isDigit_digit hd).2.2.1]
    exact ih (fun c hc => h c (List.mem_cons_of_mem _ hc)) _

theorem takeWhile_stop {α : Type} (p : α → Bool) (ds rest : List α) (h : ∀ c ∈ ds, p c = true)
    (hr : ∀ c, rest.head? = some c → p c = false) : (ds ++ rest).takeWhile p = ds := by
  induction ds with
  | nil =>
    cases rest with
    | nil => rfl
    | cons c r => rw [List.nil_append, List.takeWhile_cons, hr c rfl]; rfl
  | cons d ds ih =>
    rw [List.cons_append, List.takeWhile_cons, h d List.mem_cons_self, if_pos rfl,
      ih (fun c hc => h c (List.mem_cons_of_mem _ hc))]

/-- `strtoul` on the decimal notation of a number followed by something that is not a digit. -/
theorem strtoul_decimal (n : Nat) (hn : n < 2 ^ 64) (c : Byte) (rest : List Byte) (hc : isDigit c = false) :
    strtoul (decimalText n ++ c :: rest) = some (n, (decimalText n).length) := by
  have hd := Decimal.decimalText_digits hn
  obtain ⟨hne, hv, _⟩ := Decimal.decimalText_spec hn
  rw [Decimal.value?, fold_value _ hd] at hv
  obtain ⟨x, xs, hx⟩ := List.exists_cons_of_ne_nil hne
  obtain ⟨dx, hdx, hxd⟩ := hd x (by rw [hx]; exact List.mem_cons_self)
  obtain ⟨_, hsp, _, hm, hp, _⟩ := isDigit_digit hdx
  have h1 : (decimalText n ++ c :: rest).dropWhile isSpace = decimalText n ++ c :: rest := by
    rw [hx, List.cons_append, List.dropWhile_cons, hxd, hsp]; rfl
  have hh : (decimalText n ++ c :: rest).head? = some (Decimal.digit dx) := by
    rw [hx, List.cons_append, List.head?_cons, hxd]
  have htw : (decimalText n ++ c :: rest).takeWhile isDigit = decimalText n :=
    takeWhile_stop _ _ _ (fun y hy => by
      obtain ⟨d, h1, rfl⟩ := hd y hy
      exact (isDigit_digit h1).1) (fun y hy => by cases hy; exact hc)
  rw [strtoul, h1, hh]
  have e1 : (some (Decimal.digit dx) == some 0x2D#8) = false := beq_false_of_ne (fun h => hm (Option.some.inj h))
  have e2 : (some (Decimal.digit dx) == some 0x2B#8) = false := beq_false_of_ne (fun h => hp (Option.some.inj h))
  rw [e1, e2]
  simp only [Bool.or_self, if_neg Bool.false_ne_true]
  rw [htw, if_neg (by rw [List.length_append, List.length_cons]; omega), if_neg hne, digitsValue, Option.some.inj hv,
    if_neg (by omega), if_neg Bool.false_ne_true, Nat.sub_self, Nat.zero_add]

theorem number_decimal (n : Nat) (hn : n < 2 ^ 32) (c : Byte) (rest : List Byte) (hc : isDigit c = false) :
    number (decimalText n ++ c :: rest) = .ok (n, (decimalText n).length) := by
  rw [number, strtoul_decimal n (by omega) c rest hc]
  simp only
  rw [wrap32_of_lt hn]

theorem dropWhile_stop {α : Type} (p : α → Bool) (s : List α) (c : α) (rest : List α) (hc : p c = false) :
    (s ++ c :: rest).dropWhile p = s.dropWhile p ++ c :: rest := by
  induction s with
  | nil => rw [List.nil_append, List.dropWhile_cons, hc]; rfl
  | cons x s ih =>
    rw [List.cons_append, List.dropWhile_cons, List.dropWhile_cons, ih]
    cases p x <;> rfl

theorem takeWhile_stop' {α : Type} (p : α → Bool) (s : List α) (c : α) (rest : List α) (hc : p c = false) :
    (s ++ c :: rest).takeWhile p = s.takeWhile p := by
  induction s with
  | nil => rw [List.nil_append, List.takeWhile_cons, hc]; rfl
  | cons x s ih =>
    rw [List.cons_append, List.takeWhile_cons, List.takeWhile_cons, ih]

theorem length_takeWhile_le {α : Type} (p : α → Bool) (s : List α) : (s.takeWhile p).length ≤ s.length :=
  (List.takeWhile_prefix p).length_le

theorem length_dropWhile_le {α : Type} (p : α → Bool) (s : List α) : (s.dropWhile p).length ≤ s.length :=
  (List.dropWhile_suffix p).length_le

/-- `strtoul` on memory with a terminating zero stops there, and does not depend on what follows. -/
theorem strtoul_terminated (s : List Byte) :
    ∃ v n, n ≤ s.length ∧ ∀ after, strtoul (s ++ 0#8 :: after) = some (v, n) := by
  have hl1 := length_dropWhile_le isSpace s
  have hz : isSpace 0#8 = false := by decide
  have hdz : isDigit 0#8 = false := by decide
  have main : ∀ (s2 : List Byte), s2.length ≤ s.length → ∀ (neg : Bool), ∃ v n, n ≤ s.length ∧ ∀ after : List Byte,
      (if ((s2 ++ 0#8 :: after).takeWhile isDigit).length = (s2 ++ 0#8 :: after).length then none
       else if (s2 ++ 0#8 :: after).takeWhile isDigit = [] then some (0, 0)
       else some (digitsValue neg ((s2 ++ 0#8 :: after).takeWhile isDigit),
          (s ++ 0#8 :: after).length - (s2 ++ 0#8 :: after).length + ((s2 ++ 0#8 :: after).takeWhile isDigit).length)) =
        some (v, n) := by
    intro s2 h2 neg
    have hds := length_takeWhile_le isDigit s2
    by_cases he : s2.takeWhile isDigit = []
    · refine ⟨0, 0, Nat.zero_le _, fun after => ?_⟩
      rw [takeWhile_stop' _ _ _ _ hdz, if_neg (by rw [List.length_append, List.length_cons]; omega), if_pos he]
    · refine ⟨digitsValue neg (s2.takeWhile isDigit), s.length - s2.length + (s2.takeWhile isDigit).length, by omega, fun after => ?_⟩
      rw [takeWhile_stop' _ _ _ _ hdz, if_neg (by rw [List.length_append, List.length_cons]; omega), if_neg he]
      simp only [List.length_append, List.length_cons]
      rw [show s.length + (after.length + 1) - (s2.length + (after.length + 1)) = s.length - s2.length by omega]
  cases hs : s.dropWhile isSpace with
  | nil =>
    obtain ⟨v, n, hn, h⟩ := main [] (Nat.zero_le _) false
    refine ⟨v, n, hn, fun after => ?_⟩
    rw [← h after, strtoul, dropWhile_stop _ _ _ _ hz, hs, List.nil_append]
    rfl
  | cons x xs =>
    rw [hs, List.length_cons] at hl1
    obtain ⟨v, n, hn, h⟩ := main (if (x == 0x2D#8 || x == 0x2B#8) = true then xs else x :: xs)
      (by split; omega; rw [List.length_cons]; omega) (x == 0x2D#8)
    refine ⟨v, n, hn, fun after => ?_⟩
    rw [← h after, strtoul, dropWhile_stop _ _ _ _ hz, hs, List.cons_append]
    have hcase : ∀ (b : Bool), (if b = true then (x :: (xs ++ 0#8 :: after)).drop 1 else x :: (xs ++ 0#8 :: after)) =
        (if b = true then xs else x :: xs) ++ 0#8 :: after := by intro b; cases b <;> rfl
    have hsome : ∀ y : Byte, (some x == some y) = (x == y) := fun y => rfl
    simp only [List.head?_cons, hsome, hcase]

theorem number_terminated (s : List Byte) :
    ∃ v n, n ≤ s.length ∧ ∀ after, number (s ++ 0#8 :: after) = .ok (v, n) := by
  obtain ⟨v, n, hn, h⟩ := strtoul_terminated s
  exact ⟨wrap32 v, n, hn, fun after => by rw [number, h]⟩

end Solace.Version
