import Verif.Props.C34_C36_Version
import Verif.Spec.Numeral
/-! C36: the exact result of parsing a version. -/
namespace Solace.Version
open StringView Strings Str Numeral

theorem blank_iff (c : Byte) : isSpace c = true ↔ blank c := by
  have : ∀ n : Fin 256, isSpace (BitVec.ofFin n) = true ↔ blank (BitVec.ofFin n) := by
    unfold blank; decide +kernel
  exact this c.toFin

theorem digit_iff (c : Byte) : isDigit c = true ↔ digit c := by
  have : ∀ n : Fin 256, isDigit (BitVec.ofFin n) = true ↔ digit (BitVec.ofFin n) := by
    unfold digit; decide +kernel
  exact this c.toFin

theorem digit_char (c : Byte) (h : digit c) : isSpace c = false ∧ c ≠ 0x2D#8 ∧ c ≠ 0x2B#8 := by
  have : ∀ n : Fin 256, digit (BitVec.ofFin n) →
      isSpace (BitVec.ofFin n) = false ∧ BitVec.ofFin n ≠ 0x2D#8 ∧ BitVec.ofFin n ≠ 0x2B#8 := by
    unfold digit; decide +kernel
  exact this c.toFin h

theorem fold_eq (ds : List Byte) (a : Nat) :
    ds.foldl (fun a c => 10 * a + (c.toNat - 0x30)) a = a * 10 ^ ds.length + value ds := by
  induction ds generalizing a with
  | nil => simp [value]
  | cons c cs ih =>
    rw [List.foldl_cons, ih, value, List.length_cons, Nat.pow_succ, Nat.add_mul, Nat.add_assoc]
    congr 1
    rw [Nat.mul_comm 10 a, Nat.mul_assoc, Nat.mul_comm 10]

theorem dropWhile_all {α : Type} (p : α → Bool) (ws rest : List α) (h : ∀ c ∈ ws, p c = true)
    (hr : ∀ c, rest.head? = some c → p c = false) : (ws ++ rest).dropWhile p = rest := by
  induction ws with
  | nil =>
    cases rest with
    | nil => rfl
    | cons c r => rw [List.nil_append, List.dropWhile_cons, hr c rfl]; rfl
  | cons d ds ih =>
    rw [List.cons_append, List.dropWhile_cons, h d List.mem_cons_self, if_pos rfl,
      ih (fun c hc => h c (List.mem_cons_of_mem _ hc))]

/-- A byte at which `strtoul` stops wherever it meets it. -/
def Stops (c : Byte) : Prop := isSpace c = false ∧ isDigit c = false ∧ c ≠ 0x2D#8 ∧ c ≠ 0x2B#8

theorem number_begins {t ws sign ds rest : List Byte} (h : Begins t ws sign ds rest) (c : Byte) (hc : isDigit c = false)
    (after : List Byte) : number (t ++ c :: after) =
      .ok ((if 2 ^ 64 ≤ value ds then 2 ^ 64 - 1 else if sign = [0x2D#8] then 2 ^ 64 - value ds else value ds) % 2 ^ 32,
        t.length - rest.length) := by
  obtain ⟨rfl, hws, hsg, hne, hds, hr⟩ := h
  have hw : ∀ c ∈ ws, isSpace c = true := fun c hc => (blank_iff c).mpr (hws c hc)
  have hd : ∀ c ∈ ds, isDigit c = true := fun c hc => (digit_iff c).mpr (hds c hc)
  obtain ⟨d, ds', rfl⟩ := List.exists_cons_of_ne_nil hne
  obtain ⟨hd1, hd2, hd3⟩ := digit_char d (hds d List.mem_cons_self)
  have htw : (d :: ds' ++ (rest ++ c :: after)).takeWhile isDigit = d :: ds' :=
    takeWhile_stop _ _ _ hd (fun x hx => by
      cases rest with
      | nil => cases hx; exact hc
      | cons y ys =>
        have hxy : y = x := Option.some.inj hx
        cases hy : isDigit x with
        | false => rfl
        | true => exact absurd ((digit_iff x).mp hy) (hr x (by rw [List.head?_cons, hxy])))
  have hm : ws ++ (sign ++ (d :: ds' ++ rest)) ++ c :: after = ws ++ (sign ++ (d :: ds' ++ (rest ++ c :: after))) := by
    simp only [List.append_assoc]
  have hdrop : (ws ++ (sign ++ (d :: ds' ++ (rest ++ c :: after)))).dropWhile isSpace =
      sign ++ (d :: ds' ++ (rest ++ c :: after)) := by
    refine dropWhile_all _ _ _ hw fun x hx => ?_
    rcases hsg with rfl | rfl | rfl
    · cases hx; exact hd1
    · cases hx; decide
    · cases hx; decide
  have hlen : (d :: ds').length ≠ (d :: ds' ++ (rest ++ c :: after)).length := by
    simp only [List.length_append, List.length_cons]; omega
  have hval : ∀ neg : Bool, wrap32 (digitsValue neg (d :: ds')) =
      (if 2 ^ 64 ≤ value (d :: ds') then 2 ^ 64 - 1 else if neg then 2 ^ 64 - value (d :: ds') else value (d :: ds')) % 2 ^ 32 := by
    intro neg
    rw [digitsValue, fold_eq, Nat.zero_mul, Nat.zero_add, wrap32_def]
    split
    · rfl
    · cases neg
      · rfl
      · simp only [if_pos]
        omega
  have main : ∀ neg : Bool, (some (digitsValue neg (d :: ds'),
      (ws ++ (sign ++ (d :: ds' ++ (rest ++ c :: after)))).length - (d :: ds' ++ (rest ++ c :: after)).length + (d :: ds').length)) =
      some (digitsValue neg (d :: ds'), (ws ++ (sign ++ (d :: ds' ++ rest))).length - rest.length) := by
    intro neg
    congr 2
    simp only [List.length_append, List.length_cons]
    omega
  rw [hm, number, strtoul, hdrop]
  have hsome : ∀ x y : Byte, (some x == some y) = (x == y) := fun x y => rfl
  rcases hsg with rfl | rfl | rfl
  · have e1 : (d == 0x2D#8) = false := beq_false_of_ne hd2
    have e2 : (d == 0x2B#8) = false := beq_false_of_ne hd3
    simp only [List.nil_append, List.cons_append, List.head?_cons, hsome, e1, e2, Bool.or_self, if_neg Bool.false_ne_true]
    simp only [List.nil_append, List.cons_append] at htw hlen main
    rw [htw, if_neg hlen, if_neg (by simp), main]
    simp only [hval, if_neg Bool.false_ne_true]
    rfl
  · have e1 : ((0x2B#8 : Byte) == 0x2D#8) = false := by decide
    have e2 : ((0x2B#8 : Byte) == 0x2B#8) = true := by decide
    simp only [List.nil_append, List.cons_append, List.head?_cons, hsome, e1, e2, Bool.false_or, if_pos, List.drop_one,
      List.tail_cons]
    simp only [List.nil_append, List.cons_append] at htw hlen main
    rw [htw, if_neg hlen, if_neg (by simp), main]
    simp only [hval, if_neg Bool.false_ne_true]
    rfl
  · have e1 : ((0x2D#8 : Byte) == 0x2D#8) = true := by decide
    simp only [List.nil_append, List.cons_append, List.head?_cons, hsome, e1, Bool.true_or, if_pos, List.drop_one,
      List.tail_cons]
    simp only [List.nil_append, List.cons_append] at htw hlen main
    rw [htw, if_neg hlen, if_neg (by simp), main]
    simp only [hval, if_pos]

theorem takeWhile_mem {α : Type} (p : α → Bool) (s : List α) : ∀ c ∈ s.takeWhile p, p c = true := by
  induction s with
  | nil => intro c hc; cases hc
  | cons x s ih =>
    intro c hc
    rw [List.takeWhile_cons] at hc
    split at hc
    · rcases List.mem_cons.mp hc with rfl | h
      · assumption
      · exact ih c h
    · cases hc

theorem dropWhile_head {α : Type} (p : α → Bool) (s : List α) : ∀ c, (s.dropWhile p).head? = some c → p c = false := by
  induction s with
  | nil => intro c hc; cases hc
  | cons x s ih =>
    intro c hc
    rw [List.dropWhile_cons] at hc
    split at hc
    · exact ih c hc
    · cases hc; exact Bool.eq_false_iff.mpr (by assumption)

theorem begins_of {t m2 sign : List Byte} (h : t.dropWhile isSpace = sign ++ m2)
    (hs : sign = [] ∨ sign = [0x2B#8] ∨ sign = [0x2D#8]) (hne : m2.takeWhile isDigit ≠ []) :
    Begins t (t.takeWhile isSpace) sign (m2.takeWhile isDigit) (m2.dropWhile isDigit) where
  parts := by rw [List.takeWhile_append_dropWhile, ← h, List.takeWhile_append_dropWhile]
  blanks c hc := (blank_iff c).mp (takeWhile_mem _ _ c hc)
  signed := hs
  some_digit := hne
  digits c hc := (digit_iff c).mp (takeWhile_mem _ _ c hc)
  all_digits c hc hd := by
    have := dropWhile_head _ _ c hc
    rw [(digit_iff c).mpr hd] at this
    cases this

theorem number_none {t : List Byte} (h : ¬∃ ws sign ds r, Begins t ws sign ds r) (c : Byte) (hc : Stops c)
    (after : List Byte) : number (t ++ c :: after) = .ok (0, 0) := by
  have key : ∀ (sign m2 : List Byte), t.dropWhile isSpace = sign ++ m2 →
      (sign = [] ∨ sign = [0x2B#8] ∨ sign = [0x2D#8]) → m2.takeWhile isDigit = [] := by
    intro sign m2 h1 h2
    by_cases hne : m2.takeWhile isDigit = []
    · exact hne
    · exact absurd ⟨_, _, _, _, begins_of h1 h2 hne⟩ h
  have h0 : wrap32 0 = 0 := wrap32_of_lt (by omega)
  have hsome : ∀ x y : Byte, (some x == some y) = (x == y) := fun x y => rfl
  rw [number, strtoul, dropWhile_stop _ _ _ _ hc.1]
  cases hd : t.dropWhile isSpace with
  | nil =>
    have e1 : (c == 0x2D#8) = false := beq_false_of_ne hc.2.2.1
    have e2 : (c == 0x2B#8) = false := beq_false_of_ne hc.2.2.2
    simp only [List.nil_append, List.head?_cons, hsome, e1, e2, Bool.or_self, if_neg Bool.false_ne_true]
    rw [List.takeWhile_cons, hc.2.1, if_neg Bool.false_ne_true, if_neg (by simp), if_pos rfl]
    simp only [h0]
  | cons x xs =>
    simp only [List.cons_append, List.head?_cons, hsome]
    by_cases hx : (x == 0x2D#8 || x == 0x2B#8) = true
    · have hk := key [x] xs hd (by
        rw [Bool.or_eq_true] at hx
        rcases hx with hx | hx
        · rw [eq_of_beq hx]; exact .inr (.inr rfl)
        · rw [eq_of_beq hx]; exact .inr (.inl rfl))
      simp only [hx, if_true, List.drop_one, List.tail_cons]
      rw [takeWhile_stop' _ _ _ _ hc.2.1, hk, if_neg (by simp), if_pos rfl]
      simp only [h0]
    · have hk := key [] (x :: xs) hd (.inl rfl)
      simp only [hx, if_neg Bool.false_ne_true]
      have := takeWhile_stop' isDigit (x :: xs) c after hc.2.1
      rw [List.cons_append] at this
      rw [this, hk, if_neg (by simp), if_pos rfl]
      simp only [h0]

/-- `strtoul` reads what the specification says. -/
theorem number_reads {t rest : List Byte} {v : Nat} (h : Reads t v rest) (c : Byte) (hc : Stops c) (after : List Byte) :
    number (t ++ c :: after) = .ok (v, t.length - rest.length) := by
  rcases h with ⟨ws, sign, ds, hb, rfl⟩ | ⟨hn, rfl, rfl⟩
  · exact number_begins hb c hc.2.1 after
  · rw [number_none hn c hc, Nat.sub_self]

theorem reads_suffix {t rest : List Byte} {v : Nat} (h : Reads t v rest) : ∃ u, t = u ++ rest := by
  rcases h with ⟨ws, sign, ds, hb, rfl⟩ | ⟨hn, rfl, rfl⟩
  · exact ⟨ws ++ (sign ++ ds), by rw [hb.parts]; simp only [List.append_assoc]⟩
  · exact ⟨[], rfl⟩

/-- Every text reads as something. -/
theorem reads_total (t : List Byte) : ∃ v rest, Reads t v rest := by
  by_cases h : ∃ ws sign ds r, Begins t ws sign ds r
  · obtain ⟨ws, sign, ds, r, hb⟩ := h
    exact ⟨_, r, .inl ⟨ws, sign, ds, hb, rfl⟩⟩
  · exact ⟨0, t, .inr ⟨h, rfl, rfl⟩⟩

theorem stops_dot : Stops 0x2E#8 := ⟨by decide, by decide, by decide, by decide⟩
theorem stops_zero : Stops 0#8 := ⟨by decide, by decide, by decide, by decide⟩

theorem numbers_given {str p q t rest : List Byte} {a b c : Nat} (hs : str.length < 2 ^ 16)
    (he : str = p ++ 0x2E#8 :: (q ++ 0x2E#8 :: t)) (hp : 0x2E#8 ∉ p) (hq : 0x2E#8 ∉ q)
    (ha : ∃ r, Reads p a r) (hb : ∃ r, Reads q b r) (hc : Reads t c rest) (after : List Byte)
    (hn3 : number (t ++ after) = .ok (c, t.length - rest.length)) :
    numbers str (str ++ after) = .ok (some (a, b, c, rest)) := by
  obtain ⟨r1, ha⟩ := ha
  obtain ⟨r2, hb⟩ := hb
  have hsp : (splitChar str 0x2E#8).1 = p :: q :: scan [0x2E#8] [] t := by
    rw [splitChar_eq _ _ hs, he, scan_piece _ _ _ _ hp, scan_piece _ _ _ _ hq]
    rfl
  obtain ⟨y, ys, hy⟩ : ∃ y ys, scan [0x2E#8] [] t = y :: ys := by
    cases h : scan [0x2E#8] [] t with
    | nil =>
      have := scan_spec [0x2E#8] t (by simp)
      rw [h] at this
      exact absurd this (by simp [IsSplit])
    | cons y ys => exact ⟨y, ys, rfl⟩
  have hd1 : (str ++ after) = p ++ 0x2E#8 :: (q ++ 0x2E#8 :: (t ++ after)) := by
    rw [he]; simp only [List.append_assoc, List.cons_append]
  have hd2 : (str ++ after).drop (p.length + 1) = q ++ 0x2E#8 :: (t ++ after) := by
    rw [hd1, ← List.drop_drop, List.drop_left, List.drop_one, List.tail_cons]
  have hd3 : (str ++ after).drop (p.length + 1 + q.length + 1) = t ++ after := by
    rw [Nat.add_assoc _ _ 1, ← List.drop_drop, hd2, ← List.drop_drop, List.drop_left, List.drop_one, List.tail_cons]
  have hn1 : number (str ++ after) = .ok (a, p.length - r1.length) := by
    rw [hd1]; exact number_reads ha _ stops_dot _
  obtain ⟨u, hu⟩ := reads_suffix hc
  have hl : str.length = p.length + 1 + q.length + 1 + t.length := by
    rw [he]; simp only [List.length_append, List.length_cons]; omega
  have htl : t.length = u.length + rest.length := by rw [hu, List.length_append]
  have hap : afterPatch str (str ++ after) (p.length + 1 + q.length + 1 + (t.length - rest.length)) = .ok rest := by
    rw [show t.length - rest.length = u.length by omega, afterPatch]
    by_cases h0 : p.length + 1 + q.length + 1 + u.length = str.length
    · rw [if_pos h0]
      have : rest = [] := List.length_eq_zero_iff.mp (by omega)
      rw [this]
    · rw [if_neg h0]
      have hsz : (((str.length : Int) - ((p.length + 1 + q.length + 1 + u.length : Nat) : Int)) % 65536).toNat = rest.length := by
        omega
      rw [hsz, if_pos (by rw [List.length_append]; omega), ← List.drop_drop, hd3, hu, List.append_assoc,
        List.drop_left, List.take_left]
  rw [numbers, hsp, hy]
  simp only
  rw [hn1, hd2, hd3, number_reads hb _ stops_dot, hn3]
  simp only [Outcome.bind_ok]
  rw [hap]
  rfl

theorem numbers_exact {str p q t rest : List Byte} {a b c : Nat} (hs : str.length < 2 ^ 16)
    (he : str = p ++ 0x2E#8 :: (q ++ 0x2E#8 :: t)) (hp : 0x2E#8 ∉ p) (hq : 0x2E#8 ∉ q)
    (ha : ∃ r, Reads p a r) (hb : ∃ r, Reads q b r) (hc : Reads t c rest) (after : List Byte) :
    numbers str (str ++ 0#8 :: after) = .ok (some (a, b, c, rest)) :=
  numbers_given hs he hp hq ha hb hc _ (number_reads hc _ stops_zero _)

theorem scan_length (c : Byte) (s : List Byte) : (scan [c] [] s).length ≤ s.length + 1 := by
  have h := congrArg List.length (isSplit_join (scan_spec [c] s (by simp)))
  have : ∀ ps : List (List Byte), ps.length ≤ ([c].intercalate ps).length + 1 := by
    intro ps
    induction ps with
    | nil => simp
    | cons p ps ih =>
      cases ps with
      | nil => simp
      | cons q qs =>
        rw [List.intercalate, List.intersperse_cons_cons, List.flatten_cons, List.flatten_cons]
        rw [List.intercalate] at ih
        simp only [List.length_append, List.length_cons, List.length_nil] at ih ⊢
        omega
  rw [← h]
  exact this _

theorem scan_pos (c : Byte) (s : List Byte) : 0 < (scan [c] [] s).length := by
  cases h : scan [c] [] s with
  | nil =>
    have := scan_spec [c] s (by simp)
    rw [h] at this
    exact absurd this (by simp [IsSplit])
  | cons y ys => simp

theorem scan_count (c : Byte) (s : List Byte) : (scan [c] [] s).length = s.count c + 1 := by
  generalize hn : s.length = n
  induction n using Nat.strongRecOn generalizing s with
  | _ n ih =>
    by_cases hc : c ∈ s
    · obtain ⟨x, y, hxy, hx⟩ := List.eq_append_cons_of_mem hc
      rw [hxy, scan_piece _ _ _ _ hx, List.length_cons, ih y.length (by rw [← hn, hxy]; simp; omega) y rfl,
        List.count_append, List.count_cons_self, List.count_eq_zero.mpr hx]
      omega
    · rw [scan_last _ _ _ hc, List.count_eq_zero.mpr hc]; rfl

/-- What the labels are, for every text after the patch number, when there is memory. -/
theorem labels_exact (alloc : Nat → Except Err MutView) (ha : AllocOk alloc) (hm : HasMemory alloc) (rest : List Byte)
    (hs : rest.length < 2 ^ 16) :
    (rest = [] → labels alloc rest = .ok ([], [])) ∧
    (∀ pre, 0x2B#8 ∉ rest → IsTrim (· == 0x2D#8) rest pre → labels alloc rest = .ok (pre, [])) ∧
    (∀ l pre build, rest = l ++ 0x2B#8 :: build → 0x2B#8 ∉ l → 0x2B#8 ∉ build → IsTrim (· == 0x2D#8) l pre →
      labels alloc rest = .ok (pre, build)) ∧
    (∀ l m k, rest = l ++ 0x2B#8 :: (m ++ 0x2B#8 :: k) → rest ≠ List.replicate 65535 0x2B#8 →
      labels alloc rest = .error .invalidInput) := by
  have hmk : ∀ s, ∃ str, make alloc s = .ok str ∧ str.view = s := by
    intro s
    rcases C29_make alloc ha s with ⟨e, he⟩ | h
    · obtain ⟨str, h, _⟩ := make_succeeds alloc ha hm s
      rw [he] at h; cases h
    · exact h
  refine ⟨fun h => by rw [labels, if_pos h], fun pre hn ht => ?_, fun l pre build he hl hb ht => ?_, fun l m k he hall => ?_⟩
  · by_cases h0 : rest = []
    · subst h0
      rw [labels, if_pos rfl]
      obtain ⟨x, y, h1, _⟩ := ht
      have : pre = [] := by
        cases pre with
        | nil => rfl
        | cons z zs => simp at h1
      rw [this]
    · rw [labels, if_neg h0, splitChar_eq _ _ hs, scan_last _ _ _ hn, List.nil_append]
      simp only [List.headD_cons]
      rw [← (C26_trim_char _ _ _).mp ht]
      obtain ⟨str, h1, h2⟩ := hmk pre
      rw [h1]
      simp only [List.length_singleton, if_pos, h2]
  · have hne : rest ≠ [] := by rw [he]; simp
    have hsc : scan [0x2B#8] [] rest = [l, build] := by
      rw [he, scan_piece _ _ _ _ hl, scan_last _ _ _ hb]; rfl
    rw [labels, if_neg hne, splitChar_eq _ _ hs, hsc]
    simp only [List.headD_cons]
    rw [← (C26_trim_char _ _ _).mp ht]
    obtain ⟨s1, h1, h2⟩ := hmk pre
    obtain ⟨s2, h3, h4⟩ := hmk build
    rw [h1]
    simp only
    rw [show [l, build].getD 1 [] = build from rfl, h3]
    simp only [List.length_cons, List.length_nil]
    rw [if_neg (by omega), if_neg (by rw [wrap16_of_lt (by omega)]; omega), h2, h4]
  · have hne : rest ≠ [] := by rw [he]; simp
    -- with the first two separators
    have hlen : 2 < (scan [0x2B#8] [] rest).length := by
      rw [scan_count, he]
      simp only [List.count_append, List.count_cons_self]
      omega
    have hle : (scan [0x2B#8] [] rest).length < 2 ^ 16 := by
      have h1 := scan_length 0x2B#8 rest
      by_cases h2 : rest.count 0x2B#8 = rest.length
      · have h3 := List.eq_replicate_iff.mpr ⟨rfl, fun b hb => ((List.count_eq_length.mp h2) b hb).symm⟩
        by_cases h4 : rest.length = 65535
        · rw [h4] at h3; exact absurd h3 hall
        · omega
      · have h3 : rest.count 0x2B#8 ≤ rest.length := List.count_le_length
        rw [scan_count]; omega
    rw [labels, if_neg hne, splitChar_eq _ _ hs]
    simp only
    obtain ⟨s1, h1, _⟩ := hmk (trimChar ((scan [0x2B#8] [] rest).headD []) 0x2D#8)
    obtain ⟨s2, h2, _⟩ := hmk ((scan [0x2B#8] [] rest).getD 1 [])
    rw [h1]
    simp only
    rw [if_neg (by omega), h2]
    simp only
    rw [wrap16_of_lt (by omega), if_pos hlen]

/-- **C36** (partial: the text is followed by a zero byte, there is memory for the labels): the exact result of parsing.
Fewer than two dots: rejected. Otherwise the components are the numbers read at the start, after the first and after the
second dot; what follows the third number is split at the plus signs: more than one of them is rejected, the first piece
without dashes around it is the pre-release label and the second the build label. Missing: views followed by anything
else, where the negation `C36_depends_on_memory` holds, and a manager without memory, which is an error
(`C36_terminated_partial`). -/
theorem C36_exact_partial (alloc : Nat → Except Err MutView) (ha : AllocOk alloc) (hm : HasMemory alloc) (str after : List Byte)
    (hs : str.length < 2 ^ 16) :
    (str.count 0x2E#8 < 2 → parse alloc false str (0#8 :: after) = .ok (.error .invalidInput)) ∧
    ∀ p q t rest a b c, str = p ++ 0x2E#8 :: (q ++ 0x2E#8 :: t) → 0x2E#8 ∉ p → 0x2E#8 ∉ q →
      (∃ r, Reads p a r) → (∃ r, Reads q b r) → Reads t c rest →
      (∀ pre, 0x2B#8 ∉ rest → IsTrim (· == 0x2D#8) rest pre →
        parse alloc false str (0#8 :: after) = .ok (.ok ⟨a, b, c, pre, []⟩)) ∧
      (∀ l pre build, rest = l ++ 0x2B#8 :: build → 0x2B#8 ∉ l → 0x2B#8 ∉ build → IsTrim (· == 0x2D#8) l pre →
        parse alloc false str (0#8 :: after) = .ok (.ok ⟨a, b, c, pre, build⟩)) ∧
      (∀ l m k, rest = l ++ 0x2B#8 :: (m ++ 0x2B#8 :: k) →
        parse alloc false str (0#8 :: after) = .ok (.error .invalidInput)) := by
  constructor
  · intro h
    have hsplit := scan_spec [0x2E#8] str (by simp)
    obtain ⟨r, hr, hno⟩ := C36_terminated_partial alloc str hs
    rw [hr, hno _ hsplit (by rw [scan_count]; omega)]
  · intro p q t rest a b c he hp hq h1 h2 h3
    have hn := numbers_exact hs he hp hq h1 h2 h3 after
    obtain ⟨u, hu⟩ := reads_suffix h3
    have hl : rest.length < 65535 := by
      rw [he, hu] at hs
      simp only [List.length_append, List.length_cons] at hs
      omega
    obtain ⟨_, e2, e3, e4⟩ := labels_exact alloc ha hm rest (by omega)
    have hpar : ∀ r, labels alloc rest = r → parse alloc false str (0#8 :: after) = .ok (match r with
        | .error e => .error e
        | .ok (pre, build) => .ok ⟨a, b, c, pre, build⟩) := by
      intro r hr
      rw [parse, if_neg Bool.false_ne_true, hn]
      simp only [Outcome.bind_ok]
      rw [hr]
      rcases r with e | ⟨x, y⟩ <;> rfl
    exact ⟨fun pre g1 g2 => hpar _ (e2 pre g1 g2), fun l pre build g1 g2 g3 g4 => hpar _ (e3 l pre build g1 g2 g3 g4),
      fun l m k g => hpar _ (e4 l m k g fun h => by rw [h, List.length_replicate] at hl; omega)⟩

/-- "1.-2.x3-a+b": the second component is 2^32 - 2, the third is missing. -/
example : Reads [0x2D#8, 0x32#8] 4294967294 [] ∧ Reads [0x78#8, 0x33#8] 0 [0x78#8, 0x33#8] := by
  refine ⟨.inl ⟨[], [0x2D#8], [0x32#8], ⟨rfl, by simp, .inr (.inr rfl), by simp, by simp [digit], by simp⟩,
    by simp [value]⟩, .inr ⟨?_, rfl, rfl⟩⟩
  rintro ⟨ws, sign, ds, r, hb⟩
  obtain ⟨hp, hw, hs, hne, hd, _⟩ := hb
  cases ws with
  | cons w ws =>
    have := hw w List.mem_cons_self
    rw [← (List.cons.inj hp).1] at this
    revert this; unfold blank; decide
  | nil =>
    rcases hs with rfl | rfl | rfl
    · cases ds with
      | nil => exact hne rfl
      | cons d ds =>
        have := hd d List.mem_cons_self
        rw [← (List.cons.inj hp).1] at this
        revert this; unfold digit; decide
    · exact absurd (List.cons.inj hp).1 (by decide)
    · exact absurd (List.cons.inj hp).1 (by decide)

end Solace.Version
