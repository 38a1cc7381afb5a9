import Verif.Props.C36_VersionParse
/-! C34, C35, C36: exactly when the properties hold, and what happens otherwise. -/
namespace Solace.Version
open StringView Strings Str Numeral

/-- **C34**, exactly what `<` is: not greater. It is the mirror image of `>` for two versions exactly when they differ in
some number. -/
theorem C34_lt_exact (a b : Version) :
    (lt a b = true ↔ ¬Precedes b a) ∧ (lt a b = true ↔ Precedes a b ∨ SameNumbers a b) ∧
    ((lt a b = true ↔ gt b a = true) ↔ ¬SameNumbers a b) := by
  have h1 : lt a b = true ↔ ¬Precedes b a := by
    rw [lt, Bool.not_eq_true', ← Bool.not_eq_true, gt_iff]
  rw [h1, gt_iff]
  unfold Precedes SameNumbers
  omega

/-- **C35**, exactly the versions whose text is read back: no plus sign in a label, and no dash around the pre-release
label (32-bit numbers, a text that fits a view, memory available, a zero after the text). -/
theorem C35_read_back_iff (alloc : Nat → Except Err MutView) (ha : AllocOk alloc) (hm : HasMemory alloc) (v : Version)
    (h1 : v.major < 2 ^ 32) (h2 : v.minor < 2 ^ 32) (h3 : v.patch < 2 ^ 32) (hlen : (text v).length < 2 ^ 16)
    (after : List Byte) :
    parse alloc false (text v) (0#8 :: after) = .ok (.ok v) ↔
      0x2B#8 ∉ v.preRelease ∧ 0x2B#8 ∉ v.build ∧ v.preRelease.head? ≠ some 0x2D#8 ∧ v.preRelease.getLast? ≠ some 0x2D#8 := by
  constructor
  · intro h
    rw [parse, if_neg Bool.false_ne_true, numbers_text v h1 h2 h3 hlen _ (fun _ => ⟨_, _, rfl, by decide⟩)] at h
    simp only [Outcome.bind_ok] at h
    have hl : labels alloc (tail v) = .ok (v.preRelease, v.build) := by
      rcases hl : labels alloc (tail v) with e | ⟨pre, build⟩
      · rw [hl] at h; cases h
      · rw [hl] at h
        have := Except.ok.inj (Outcome.ok.inj h)
        rw [← this]
    have htl : (tail v).length < 65535 := by
      rw [text_eq] at hlen
      simp only [List.length_append, List.length_cons] at hlen
      omega
    obtain ⟨_, e2, e3, e4⟩ := labels_exact alloc ha hm (tail v) (by omega)
    have trimmed : ∀ l : List Byte, 0x2B#8 ∉ l → IsTrim (· == 0x2D#8) l v.preRelease →
        0x2B#8 ∉ v.preRelease ∧ v.preRelease.head? ≠ some 0x2D#8 ∧ v.preRelease.getLast? ≠ some 0x2D#8 := by
      rintro l hl ⟨x, y, g1, _, _, g4, g5⟩
      refine ⟨fun hp => hl (by rw [g1]; simp [hp]), fun hp => ?_, fun hp => ?_⟩
      · have := g4 _ hp; exact absurd this (by decide)
      · have := g5 _ hp; exact absurd this (by decide)
    have istrim : ∀ l : List Byte, IsTrim (· == 0x2D#8) l (trimChar l 0x2D#8) := fun l => (C26_trim_char _ _ _).mpr rfl
    by_cases hp : 0x2B#8 ∈ tail v
    · obtain ⟨l, k, hlk, hnl⟩ := List.eq_append_cons_of_mem hp
      by_cases hk : 0x2B#8 ∈ k
      · obtain ⟨m, k', hmk, _⟩ := List.eq_append_cons_of_mem hk
        rw [hmk] at hlk
        rw [e4 _ _ _ hlk (fun h => by rw [h, List.length_replicate] at htl; omega)] at hl
        cases hl
      · rw [e3 l _ k hlk hnl hk (istrim l)] at hl
        have hpb := Except.ok.inj hl
        have hp1 : trimChar l 0x2D#8 = v.preRelease := congrArg Prod.fst hpb
        have hp2 : k = v.build := congrArg Prod.snd hpb
        obtain ⟨t1, t2, t3⟩ := trimmed l hnl (by rw [← hp1]; exact istrim l)
        exact ⟨t1, hp2 ▸ hk, t2, t3⟩
    · rw [e2 _ hp (istrim _)] at hl
      have hpb := Except.ok.inj hl
      have hp1 : trimChar (tail v) 0x2D#8 = v.preRelease := congrArg Prod.fst hpb
      have hp2 : [] = v.build := congrArg Prod.snd hpb
      obtain ⟨t1, t2, t3⟩ := trimmed _ hp (by rw [← hp1]; exact istrim _)
      exact ⟨t1, by rw [← hp2]; simp, t2, t3⟩
  · rintro ⟨g1, g2, g3, g4⟩
    rcases C35_parse_text_partial alloc ha v ⟨h1, h2, h3, g1, g2, g3, g4, hlen⟩ (0#8 :: after)
      (fun _ _ => ⟨_, _, rfl, by decide⟩) with ⟨_, h⟩ | h
    · exact absurd hm h
    · exact h

example : HasMemory (fun n => .ok ⟨false, List.replicate n 7#8⟩) ∧ AllocOk (fun n => .ok ⟨false, List.replicate n 7#8⟩) ∧
    (text ⟨1, 2, 3, [0x61#8, 0x2D#8], []⟩).length < 2 ^ 16 := by
  refine ⟨fun n => ⟨_, rfl, rfl⟩, fun n m h => ?_, by decide +kernel⟩
  cases h
  exact ⟨List.length_replicate, fun h => by cases h⟩

/-! ### C36 -/

theorem reads_unique {t r1 r2 : List Byte} {v1 v2 : Nat} (h1 : Reads t v1 r1) (h2 : Reads t v2 r2) : v1 = v2 ∧ r1 = r2 := by
  have e1 := number_reads h1 _ stops_zero []
  rw [number_reads h2 _ stops_zero []] at e1
  have e := Outcome.ok.inj e1
  obtain ⟨u1, hu1⟩ := reads_suffix h1
  obtain ⟨u2, hu2⟩ := reads_suffix h2
  have l1 := congrArg List.length hu1
  have l2 := congrArg List.length hu2
  rw [List.length_append] at l1 l2
  have e2 : t.length - r2.length = t.length - r1.length := congrArg Prod.snd e
  refine ⟨(congrArg Prod.fst e).symm, ?_⟩
  have : u1 ++ r1 = u2 ++ r2 := hu1.symm.trans hu2
  exact (List.append_inj this (by omega)).2

theorem nondigit {x : Byte} (h : ¬digit x) : isDigit x = false := by
  cases hx : isDigit x with
  | false => rfl
  | true => exact absurd ((digit_iff x).mp hx) h

/-- Reading that ends inside a text does not depend on what follows it. -/
theorem number_ends {t rest : List Byte} {v : Nat} (he : Ends t) (hr : Reads t v rest) (after : List Byte) :
    number (t ++ after) = .ok (v, t.length - rest.length) := by
  obtain ⟨ws, sign, ds, x, r, ht, hws, hsg, hds, hx, hfirst⟩ := he
  by_cases hd : ds = []
  · subst hd
    -- no number
    have hnx := nondigit hx
    have hdrop : ∀ k, (ws ++ (sign ++ ([] ++ x :: k))).dropWhile isSpace = sign ++ x :: k := by
      intro k
      refine dropWhile_all _ _ _ (fun c hc => (blank_iff c).mpr (hws c hc)) fun y hy => ?_
      rcases hsg with rfl | rfl | rfl
      · cases hy
        cases hb : isSpace x with
        | false => rfl
        | true => exact absurd ((blank_iff x).mp hb) (hfirst rfl rfl).1
      · cases hy; decide
      · cases hy; decide
    have hsome : ∀ x y : Byte, (some x == some y) = (x == y) := fun x y => rfl
    have hnum : ∀ k, number (ws ++ (sign ++ ([] ++ x :: k))) = .ok (0, 0) := by
      intro k
      rw [number, strtoul, hdrop]
      have htw : (x :: k).takeWhile isDigit = [] := by rw [List.takeWhile_cons, hnx]; rfl
      rcases hsg with rfl | rfl | rfl
      · obtain ⟨_, hp, hm⟩ := hfirst rfl rfl
        have e1 : (x == 0x2D#8) = false := beq_false_of_ne hm
        have e2 : (x == 0x2B#8) = false := beq_false_of_ne hp
        simp only [List.nil_append, List.head?_cons, hsome, e1, e2, Bool.or_self, if_neg Bool.false_ne_true]
        rw [htw, if_neg (by simp), if_pos rfl]
        simp only [wrap32_of_lt (show (0 : Nat) < 2 ^ 32 by omega)]
      · have e1 : ((0x2B#8 : Byte) == 0x2D#8) = false := by decide
        have e2 : ((0x2B#8 : Byte) == 0x2B#8) = true := by decide
        simp only [List.cons_append, List.nil_append, List.head?_cons, hsome, e1, e2, Bool.false_or, if_pos, List.drop_one,
          List.tail_cons]
        rw [htw, if_neg (by simp), if_pos rfl]
        simp only [wrap32_of_lt (show (0 : Nat) < 2 ^ 32 by omega)]
      · have e1 : ((0x2D#8 : Byte) == 0x2D#8) = true := by decide
        simp only [List.cons_append, List.nil_append, List.head?_cons, hsome, e1, Bool.true_or, if_pos, List.drop_one,
          List.tail_cons]
        rw [htw, if_neg (by simp), if_pos rfl]
        simp only [wrap32_of_lt (show (0 : Nat) < 2 ^ 32 by omega)]
    have hr0 := number_reads hr _ stops_zero []
    have e1 : ∀ k, t ++ k = ws ++ (sign ++ ([] ++ x :: (r ++ k))) := by
      intro k; rw [ht]; simp only [List.append_assoc, List.cons_append, List.nil_append]
    rw [e1, hnum] at hr0
    rw [e1, hnum, hr0]
  · have hb : Begins t ws sign ds (x :: r) := ⟨ht, hws, hsg, hd, hds, fun c hc => by cases hc; exact hx⟩
    have hb' : Begins (ws ++ (sign ++ ds)) ws sign ds [] :=
      ⟨by rw [List.append_nil], hws, hsg, hd, hds, fun c hc => by cases hc⟩
    have hn := number_begins hb' x (nondigit hx) (r ++ after)
    obtain ⟨hv, hrest⟩ := reads_unique hr (.inl ⟨ws, sign, ds, hb, rfl⟩)
    have e : t ++ after = ws ++ (sign ++ ds) ++ x :: (r ++ after) := by
      rw [ht]; simp only [List.append_assoc, List.cons_append]
    rw [e, hn, hv, hrest]
    congr 2
    rw [ht]
    simp only [List.length_append, List.length_cons, List.length_nil]
    omega

/-- Reading that does not end inside the memory is undefined. -/
theorem number_open {t : List Byte} (he : ¬Ends t) : number t = .ub := by
  have key : ∀ sign m2, t.dropWhile isSpace = sign ++ m2 → (sign = [] ∨ sign = [0x2B#8] ∨ sign = [0x2D#8]) →
      (sign = [] → m2.head? ≠ some 0x2B#8 ∧ m2.head? ≠ some 0x2D#8) → (m2.takeWhile isDigit).length = m2.length := by
    intro sign m2 h1 h2 h3
    refine Classical.byContradiction fun hne => he ?_
    cases hd : m2.dropWhile isDigit with
    | nil =>
      have := List.takeWhile_append_dropWhile (p := isDigit) (l := m2)
      rw [hd, List.append_nil] at this
      rw [this] at hne
      exact absurd rfl hne
    | cons x r =>
      have hm2 : m2 = m2.takeWhile isDigit ++ x :: r := by rw [← hd, List.takeWhile_append_dropWhile]
      refine ⟨t.takeWhile isSpace, sign, m2.takeWhile isDigit, x, r, ?_, fun c hc => (blank_iff c).mp (takeWhile_mem _ _ c hc), h2,
        fun c hc => (digit_iff c).mp (takeWhile_mem _ _ c hc), fun hx => ?_, fun hs hds => ?_⟩
      · rw [← hm2, ← h1, List.takeWhile_append_dropWhile]
      · have := dropWhile_head isDigit m2 x (by rw [hd]; rfl)
        rw [(digit_iff x).mpr hx] at this
        cases this
      · rw [hds, List.nil_append] at hm2
        obtain ⟨g1, g2⟩ := h3 hs
        rw [hm2, List.head?_cons] at g1 g2
        refine ⟨fun hb => ?_, fun h => g1 (by rw [h]), fun h => g2 (by rw [h])⟩
        have := dropWhile_head isSpace t x (by rw [h1, hs, hm2]; rfl)
        rw [(blank_iff x).mpr hb] at this
        cases this
  have hsome : ∀ x y : Byte, (some x == some y) = (x == y) := fun x y => rfl
  have hst : strtoul t = none := by
    rw [strtoul]
    cases hd : t.dropWhile isSpace with
    | nil => rfl
    | cons x xs =>
      simp only [List.head?_cons, hsome]
      by_cases hx : (x == 0x2D#8 || x == 0x2B#8) = true
      · have hk := key [x] xs hd (by
          rw [Bool.or_eq_true] at hx
          rcases hx with hx | hx
          · rw [eq_of_beq hx]; exact .inr (.inr rfl)
          · rw [eq_of_beq hx]; exact .inr (.inl rfl)) (fun h => by cases h)
        simp only [hx, if_true, List.drop_one, List.tail_cons]
        rw [if_pos hk]
      · have hk := key [] (x :: xs) hd (.inl rfl) (fun _ => by
          rw [Bool.or_eq_true, not_or] at hx
          refine ⟨fun h => hx.2 ?_, fun h => hx.1 ?_⟩
          · rw [Option.some.inj h]; decide
          · rw [Option.some.inj h]; decide)
        simp only [hx, if_neg Bool.false_ne_true]
        rw [if_pos hk]
  rw [number, hst]

theorem dot_ends (p after : List Byte) : Ends (p ++ 0x2E#8 :: after) := by
  refine Classical.byContradiction fun h => ?_
  have h1 := number_open h
  obtain ⟨v, rest, hr⟩ := reads_total p
  rw [number_reads hr _ stops_dot] at h1
  cases h1

/-- The start of the last number read from a text: after the second dot, or after the last dot if there are fewer. -/
def LastRead (str t : List Byte) : Prop :=
  (0x2E#8 ∉ str ∧ t = str) ∨ (∃ p, str = p ++ 0x2E#8 :: t ∧ 0x2E#8 ∉ p ∧ 0x2E#8 ∉ t) ∨
  (∃ p q, str = p ++ 0x2E#8 :: (q ++ 0x2E#8 :: t) ∧ 0x2E#8 ∉ p ∧ 0x2E#8 ∉ q)

/-- Every text has one. -/
theorem lastRead_total (str : List Byte) : ∃ t, LastRead str t := by
  by_cases h : 0x2E#8 ∈ str
  · obtain ⟨p, k, hk, hp⟩ := List.eq_append_cons_of_mem h
    by_cases h2 : 0x2E#8 ∈ k
    · obtain ⟨q, t, ht, hq⟩ := List.eq_append_cons_of_mem h2
      exact ⟨t, .inr (.inr ⟨p, q, by rw [hk, ht], hp, hq⟩)⟩
    · exact ⟨k, .inr (.inl ⟨p, hk, hp, h2⟩)⟩
  · exact ⟨str, .inl ⟨h, rfl⟩⟩

theorem numbers_two {str p t : List Byte} (hs : str.length < 2 ^ 16) (he : str = p ++ 0x2E#8 :: t) (hp : 0x2E#8 ∉ p)
    (ht : 0x2E#8 ∉ t) (after : List Byte) : numbers str (str ++ after) = (number (t ++ after) >>= fun _ => .ok none) := by
  have hsp : (splitChar str 0x2E#8).1 = [p, t] := by
    rw [splitChar_eq _ _ hs, he, scan_piece _ _ _ _ hp, scan_last _ _ _ ht]; rfl
  have hd1 : str ++ after = p ++ 0x2E#8 :: (t ++ after) := by rw [he]; simp only [List.append_assoc, List.cons_append]
  have hd2 : (str ++ after).drop (p.length + 1) = t ++ after := by
    rw [hd1, ← List.drop_drop, List.drop_left, List.drop_one, List.tail_cons]
  obtain ⟨v, rest, hr⟩ := reads_total p
  rw [numbers, hsp]
  simp only
  rw [hd2, hd1, number_reads hr _ stops_dot]
  rfl

theorem numbers_one {str : List Byte} (hs : str.length < 2 ^ 16) (hp : 0x2E#8 ∉ str) (after : List Byte) :
    numbers str (str ++ after) = (number (str ++ after) >>= fun _ => .ok none) := by
  have hsp : (splitChar str 0x2E#8).1 = [str] := by rw [splitChar_eq _ _ hs, scan_last _ _ _ hp]; rfl
  rw [numbers, hsp]
  rfl

theorem numbers_three {str p q t : List Byte} (hs : str.length < 2 ^ 16)
    (he : str = p ++ 0x2E#8 :: (q ++ 0x2E#8 :: t)) (hp : 0x2E#8 ∉ p) (hq : 0x2E#8 ∉ q) {a b : Nat}
    (ha : ∃ r, Reads p a r) (hb : ∃ r, Reads q b r) (after : List Byte) :
    numbers str (str ++ after) = (number (t ++ after) >>= fun pat =>
      afterPatch str (str ++ after) (p.length + 1 + q.length + 1 + pat.2) >>= fun rest => .ok (some (a, b, pat.1, rest))) := by
  obtain ⟨r1, ha⟩ := ha
  obtain ⟨r2, hb⟩ := hb
  have hsp : (splitChar str 0x2E#8).1 = p :: q :: scan [0x2E#8] [] t := by
    rw [splitChar_eq _ _ hs, he, scan_piece _ _ _ _ hp, scan_piece _ _ _ _ hq]
    rfl
  obtain ⟨y, ys, hy⟩ := List.exists_cons_of_ne_nil (scan_ne_nil [0x2E#8] [] t (by simp))
  have hd1 : (str ++ after) = p ++ 0x2E#8 :: (q ++ 0x2E#8 :: (t ++ after)) := by
    rw [he]; simp only [List.append_assoc, List.cons_append]
  have hd2 : (str ++ after).drop (p.length + 1) = q ++ 0x2E#8 :: (t ++ after) := by
    rw [hd1, ← List.drop_drop, List.drop_left, List.drop_one, List.tail_cons]
  have hd3 : (str ++ after).drop (p.length + 1 + q.length + 1) = t ++ after := by
    rw [Nat.add_assoc _ _ 1, ← List.drop_drop, hd2, ← List.drop_drop, List.drop_left, List.drop_one, List.tail_cons]
  have hn1 : number (str ++ after) = .ok (a, p.length - r1.length) := by
    rw [hd1]; exact number_reads ha _ stops_dot _
  rw [numbers, hsp, hy]
  simp only
  rw [hn1, hd2, hd3, number_reads hb _ stops_dot]
  rfl

theorem parse_congr {alloc : Nat → Except Err MutView} {str a b : List Byte} (h : numbers str (str ++ a) = numbers str (str ++ b)) :
    parse alloc false str a = parse alloc false str b := by
  rw [parse, parse, h]

theorem parse_ub {alloc : Nat → Except Err MutView} {str a : List Byte} (h : numbers str (str ++ a) = .ub) :
    parse alloc false str a = .ub := by
  rw [parse, if_neg Bool.false_ne_true, h]; rfl

/-- **C36**, exactly when parsing depends only on its argument: when the last number read ends inside the view. Otherwise,
with no memory after the view, the behaviour is undefined. -/
theorem C36_independent_iff (alloc : Nat → Except Err MutView) (str t : List Byte) (hs : str.length < 2 ^ 16)
    (ht : LastRead str t) :
    ((∀ after after', parse alloc false str after = parse alloc false str after') ↔ Ends t) ∧
    (parse alloc false str [] = .ub ↔ ¬Ends t) := by
  have hin : Ends t → ∀ after, numbers str (str ++ after) = numbers str (str ++ [0#8]) := by
    intro he after
    obtain ⟨v, rest, hr⟩ := reads_total t
    rcases ht with ⟨h, rfl⟩ | ⟨p, h1, h2, h3⟩ | ⟨p, q, h1, h2, h3⟩
    · rw [numbers_one hs h, numbers_one hs h, number_ends he hr, number_ends he hr]
    · rw [numbers_two hs h1 h2 h3, numbers_two hs h1 h2 h3, number_ends he hr, number_ends he hr]
    · obtain ⟨a, ra, ha⟩ := reads_total p
      obtain ⟨b, rb, hb⟩ := reads_total q
      rw [numbers_given hs h1 h2 h3 ⟨_, ha⟩ ⟨_, hb⟩ hr after (number_ends he hr _),
        numbers_given hs h1 h2 h3 ⟨_, ha⟩ ⟨_, hb⟩ hr [0#8] (number_ends he hr _)]
  have hout : ¬Ends t → parse alloc false str [] = .ub := by
    intro he
    have hn : number (t ++ []) = .ub := by rw [List.append_nil]; exact number_open he
    apply parse_ub
    rcases ht with ⟨h, rfl⟩ | ⟨p, h1, h2, h3⟩ | ⟨p, q, h1, h2, h3⟩
    · rw [numbers_one hs h, hn]; rfl
    · rw [numbers_two hs h1 h2 h3, hn]; rfl
    · obtain ⟨a, ra, ha⟩ := reads_total p
      obtain ⟨b, rb, hb⟩ := reads_total q
      rw [numbers_three hs h1 h2 h3 ⟨_, ha⟩ ⟨_, hb⟩, hn]; rfl
  obtain ⟨r, hr, _⟩ := C36_terminated_partial alloc str hs
  have hno : (∀ after after', parse alloc false str after = parse alloc false str after') → Ends t := by
    intro h
    refine Classical.byContradiction fun he => ?_
    have := hout he
    rw [h [] [0#8], hr []] at this
    cases this
  refine ⟨⟨hno, fun he a b => parse_congr ((hin he a).trans (hin he b).symm)⟩, fun h he => ?_, hout⟩
  rw [parse_congr (hin he []), hr []] at h
  cases h

/-- "1.2.3-a" reads its last number inside the view, "1.2.3" does not. -/
example : LastRead [0x31#8, 0x2E#8, 0x32#8, 0x2E#8, 0x33#8, 0x2D#8, 0x61#8] [0x33#8, 0x2D#8, 0x61#8] ∧
    Ends [0x33#8, 0x2D#8, 0x61#8] := by
  refine ⟨.inr (.inr ⟨[0x31#8], [0x32#8], rfl, by decide, by decide⟩), [], [], [0x33#8], 0x2D#8, [0x61#8], rfl, by simp, .inl rfl,
    by simp [digit], by simp [digit], by simp⟩

/-- The size of the label text: the distance from the end of the third number to the end of the view, modulo 2^16. -/
def labelSize (rest after : List Byte) : Nat := (((rest.length : Int) - after.length) % 65536).toNat

/-- **C36**, whatever follows the view in memory (`after`, memory available for the labels), for a text with two dots. The
third number is read from the rest of the view and the memory after it; undefined if that never ends. The label text is
`size` bytes from the end of the number on, wherever they are; undefined if there are not so many. -/
theorem C36_any_memory (alloc : Nat → Except Err MutView) (ha : AllocOk alloc) (hm : HasMemory alloc)
    (str p q t after : List Byte) (hs : str.length < 2 ^ 16) (he : str = p ++ 0x2E#8 :: (q ++ 0x2E#8 :: t))
    (hp : 0x2E#8 ∉ p) (hq : 0x2E#8 ∉ q) (a b : Nat) (h1 : ∃ r, Reads p a r) (h2 : ∃ r, Reads q b r) :
    (¬Ends (t ++ after) → parse alloc false str after = .ub) ∧
    ∀ c rest, Ends (t ++ after) → Reads (t ++ after) c rest →
      (rest.length < labelSize rest after → parse alloc false str after = .ub) ∧
      (labelSize rest after ≤ rest.length →
        (∀ pre, 0x2B#8 ∉ rest.take (labelSize rest after) → IsTrim (· == 0x2D#8) (rest.take (labelSize rest after)) pre →
          parse alloc false str after = .ok (.ok ⟨a, b, c, pre, []⟩)) ∧
        (∀ l pre build, rest.take (labelSize rest after) = l ++ 0x2B#8 :: build → 0x2B#8 ∉ l → 0x2B#8 ∉ build →
          IsTrim (· == 0x2D#8) l pre → parse alloc false str after = .ok (.ok ⟨a, b, c, pre, build⟩)) ∧
        (∀ l m k, rest.take (labelSize rest after) = l ++ 0x2B#8 :: (m ++ 0x2B#8 :: k) →
          rest.take (labelSize rest after) ≠ List.replicate 65535 0x2B#8 →
          parse alloc false str after = .ok (.error .invalidInput))) := by
  have hn := numbers_three hs he hp hq h1 h2 after
  constructor
  · intro ho
    rw [number_open ho] at hn
    exact parse_ub hn
  · intro c rest hc hr
    have hnum := number_ends hc hr []
    rw [List.append_nil] at hnum
    rw [hnum] at hn
    obtain ⟨u, hu⟩ := reads_suffix hr
    have hul := congrArg List.length hu
    have hl : str.length = p.length + 1 + q.length + 1 + t.length := by
      rw [he]; simp only [List.length_append, List.length_cons]; omega
    rw [List.length_append, List.length_append] at hul
    have hd3 : (str ++ after).drop (p.length + 1 + q.length + 1) = t ++ after := by
      have e : str ++ after = (p ++ 0x2E#8 :: (q ++ [0x2E#8])) ++ (t ++ after) := by
        rw [he]; simp only [List.append_assoc, List.cons_append, List.nil_append]
      rw [e, List.drop_left' (by simp only [List.length_append, List.length_cons, List.length_nil]; omega)]
    have hpe : p.length + 1 + q.length + 1 + ((t ++ after).length - rest.length) = p.length + 1 + q.length + 1 + u.length := by
      rw [List.length_append]; omega
    have hdrop : (str ++ after).drop (p.length + 1 + q.length + 1 + u.length) = rest := by
      rw [← List.drop_drop, hd3, hu, List.drop_left]
    have hlab : labelSize rest after =
        (((str.length : Int) - ((p.length + 1 + q.length + 1 + u.length : Nat) : Int)) % 65536).toNat := by
      unfold labelSize; omega
    have hap : afterPatch str (str ++ after) (p.length + 1 + q.length + 1 + u.length) =
        if labelSize rest after ≤ rest.length then .ok (rest.take (labelSize rest after)) else .ub := by
      rw [afterPatch]
      by_cases h0 : p.length + 1 + q.length + 1 + u.length = str.length
      · have : labelSize rest after = 0 := by rw [hlab]; omega
        rw [if_pos h0, this, if_pos (Nat.zero_le _)]; rfl
      · rw [if_neg h0, hdrop, ← hlab, List.length_append]
        by_cases h3 : labelSize rest after ≤ rest.length
        · rw [if_pos (by omega), if_pos h3]
        · rw [if_neg (by omega), if_neg h3]
    simp only [Outcome.bind_ok] at hn
    rw [hpe, hap] at hn
    constructor
    · intro h3
      rw [if_neg (by omega)] at hn
      exact parse_ub hn
    · intro h3
      rw [if_pos h3] at hn
      have hsz : (rest.take (labelSize rest after)).length < 2 ^ 16 := by
        rw [List.length_take, hlab]; omega
      obtain ⟨_, e2, e3, e4⟩ := labels_exact alloc ha hm _ hsz
      have hpar : ∀ r, labels alloc (rest.take (labelSize rest after)) = r → parse alloc false str after = .ok (match r with
          | .error e => .error e
          | .ok (pre, build) => .ok ⟨a, b, c, pre, build⟩) := by
        intro r hr
        rw [parse, if_neg Bool.false_ne_true, hn]
        simp only [Outcome.bind_ok]
        rw [hr]
        rcases r with e | ⟨x, y⟩ <;> rfl
      exact ⟨fun pre g1 g2 => hpar _ (e2 pre g1 g2), fun l pre build g1 g2 g3 g4 => hpar _ (e3 l pre build g1 g2 g3 g4),
        fun l m k g g' => hpar _ (e4 l m k g g')⟩

/-- "1.2.3" followed by "4 ": the number is 34, one byte of the memory belongs to it, and the label has 65535 bytes. -/
example : Ends ([0x33#8] ++ [0x34#8, 0x20#8]) ∧ Reads ([0x33#8] ++ [0x34#8, 0x20#8]) 34 [0x20#8] ∧
    labelSize [0x20#8] [0x34#8, 0x20#8] = 65535 := by
  refine ⟨⟨[], [], [0x33#8, 0x34#8], 0x20#8, [], rfl, by simp, .inl rfl, by simp [digit], by simp [digit], by simp⟩,
    .inl ⟨[], [], [0x33#8, 0x34#8], ⟨rfl, by simp, .inl rfl, by simp, by simp [digit], by simp [digit]⟩, by simp [value]⟩, by decide⟩

end Solace.Version
