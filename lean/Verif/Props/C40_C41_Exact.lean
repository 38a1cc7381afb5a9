import Verif.Props.C41_DialString
/-! C40 and C41 for all texts: NULs and characters above 127 included. -/
namespace Solace.Atom

/-- The characters an atom takes: those before the first NUL. -/
def counted (s : List Byte) : List Byte := cString s

theorem counted_no_nul (s : List Byte) : ∀ c ∈ counted s, c ≠ 0#8 := by
  intro c hc
  have h : ∀ l : List Byte, ∀ c ∈ l.takeWhile (· ≠ 0#8), c ≠ 0#8 := by
    intro l
    induction l with
    | nil => intro c hc; cases hc
    | cons x l ih =>
      intro c hc
      rw [List.takeWhile_cons] at hc
      split at hc
      · rename_i hx
        rcases List.mem_cons.1 hc with rfl | hc
        · simpa using hx
        · exact ih c hc
      · cases hc
  exact h s c hc

theorem counted_rest (s : List Byte) : ∃ rest, s = counted s ++ rest ∧ (rest = [] ∨ ∃ r, rest = 0#8 :: r) := by
  induction s with
  | nil => exact ⟨[], rfl, .inl rfl⟩
  | cons c s ih =>
    by_cases hc : c = 0#8
    · refine ⟨c :: s, ?_, .inr ⟨s, by rw [hc]⟩⟩
      rw [counted, cString, List.takeWhile_cons, hc]
      rfl
    · obtain ⟨rest, h1, h2⟩ := ih
      refine ⟨rest, ?_, h2⟩
      have : counted (c :: s) = c :: counted s := by
        rw [counted, cString, List.takeWhile_cons, if_pos (by simpa using hc)]
        rfl
      rw [this, List.cons_append, ← h1]

theorem counted_le (s : List Byte) : (counted s).length ≤ s.length := (List.takeWhile_sublist _).length_le

theorem counted_self (s : List Byte) (h : 0#8 ∉ s) : counted s = s := by
  obtain ⟨rest, h1, h2⟩ := counted_rest s
  rcases h2 with rfl | ⟨r, rfl⟩
  · rw [List.append_nil] at h1
    exact h1.symm
  · exact absurd (by rw [h1]; simp) h

theorem wrap_counted (s : List Byte) (hl : s.length ≤ 8) : wrap s = wrap (counted s) := by
  obtain ⟨rest, h1, h2⟩ := counted_rest s
  have hle := counted_le s
  have a := wrap_value (counted s) (by omega) (counted_no_nul s) rest h2
  have b := wrap_value (counted s) (by omega) (counted_no_nul s) [] (.inl rfl)
  rw [← h1] at a
  rw [List.append_nil] at b
  exact BitVec.eq_of_toNat_eq (by rw [a, b])

/-- **C40, exactly**: for all texts of up to 8 characters, with NULs and characters above 127: an atom is printed as `canon` of the
characters before the first NUL, two atoms are the same exactly when these are, and they are in the same order. -/
theorem C40_exact (s t : List Byte) (hs : s.length ≤ 8) (ht : t.length ≤ 8) :
    ∃ a b, tryParse s = .ok a ∧ tryParse t = .ok b ∧
      cString (toBuffer a) = canon (counted s) ∧ tryParse (cString (toBuffer a)) = .ok a ∧
      (a = b ↔ canon (counted s) = canon (counted t)) ∧ (a.toNat < b.toNat ↔ Strings.lexLt (canon (counted s)) (canon (counted t))) := by
  have hsl := counted_le s
  have htl := counted_le t
  have hs0 := counted_no_nul s
  have ht0 := counted_no_nul t
  obtain ⟨a, ha1, ha2, ha3⟩ := C40_any_string (counted s) (by omega) hs0
  obtain ⟨b, hb1, hb2, hb3⟩ := C40_any_string (counted t) (by omega) ht0
  have has : a = wrap (counted s) := by
    rw [tryParse, if_neg (by omega)] at ha1
    exact (Except.ok.inj ha1).symm
  have hbt : b = wrap (counted t) := by
    rw [tryParse, if_neg (by omega)] at hb1
    exact (Except.ok.inj hb1).symm
  refine ⟨a, b, ?_, ?_, ha2, ha3, ?_, ?_⟩
  · rw [tryParse, if_neg (by omega), wrap_counted s hs, has]
  · rw [tryParse, if_neg (by omega), wrap_counted t ht, hbt]
  · constructor
    · intro h
      rw [← ha2, ← hb2, h]
    · intro h
      rw [← ha2, ← hb2] at h
      rw [h, hb3] at ha3
      exact (Except.ok.inj ha3).symm
  · have va := wrap_value (counted s) (by omega) hs0 [] (.inl rfl)
    have vb := wrap_value (counted t) (by omega) ht0 [] (.inl rfl)
    have la : (canon (counted s)).length ≤ 8 := by rw [canon_length]; omega
    have lb : (canon (counted t)).length ≤ 8 := by rw [canon_length]; omega
    rw [List.append_nil] at va vb
    rw [has, hbt, va, vb, value_lexLt _ _ (by rw [pad_length _ la, pad_length _ lb]), pad, pad,
      lexLt_pad _ _ _ _ (canon_no_nul _ hs0) (canon_no_nul _ ht0) (by omega)]

/-- The position of the last character above 127, other than the first one. -/
theorem canon_eq_iff (s : List Byte) : canon s = s ↔ ∀ a c b, s = a ++ c :: b → 128 ≤ c.toNat → ∀ x ∈ a, x = 0xFF#8 := by
  have key : ∀ (s p : List Byte), canonFrom p s = p ++ s ↔
      ∀ a c b, s = a ++ c :: b → 128 ≤ c.toNat → ∀ x ∈ p ++ a, x = 0xFF#8 := by
    intro s
    induction s with
    | nil =>
      intro p
      refine ⟨fun _ a c b h => ?_, fun _ => by simp [canonFrom]⟩
      cases a <;> cases h
    | cons y s ih =>
      intro p
      rw [canonFrom]
      by_cases hy : 128 ≤ y.toNat
      · rw [if_pos hy]
        by_cases hp : ∀ x ∈ p, x = 0xFF#8
        · have hrep : List.replicate p.length 0xFF#8 = p := (List.eq_replicate_of_mem hp).symm
          rw [hrep, show p ++ y :: s = p ++ [y] ++ s by simp, ih]
          constructor
          · intro h a c b e hc x hx
            cases a with
            | nil => exact hp x (by simpa using hx)
            | cons z a =>
              obtain ⟨hz, e2⟩ := List.cons.inj e
              subst hz
              exact h a c b e2 hc x (by simpa using hx)
          · intro h a c b e hc x hx
            exact h (y :: a) c b (by rw [e]; rfl) hc x (by simpa using hx)
        · constructor
          · intro h
            exfalso
            have hpre : ∀ (s q : List Byte), (∀ x ∈ q.take p.length, x = 0xFF#8) → p.length ≤ q.length →
                ∀ x ∈ (canonFrom q s).take p.length, x = 0xFF#8 := by
              intro s
              induction s with
              | nil => intro q hq _; exact hq
              | cons z s ih =>
                intro q hq hl
                rw [canonFrom]
                apply ih
                · intro x hx
                  split at hx
                  · rw [List.take_append_of_le_length (by simpa using hl)] at hx
                    exact (List.mem_replicate.1 (List.mem_of_mem_take hx)).2
                  · rw [List.take_append_of_le_length hl] at hx
                    exact hq x hx
                · split <;> simp <;> omega
            have := hpre s (List.replicate p.length 0xFF#8 ++ [y]) (by
              intro x hx
              rw [List.take_append_of_le_length (by simp)] at hx
              exact (List.mem_replicate.1 (List.mem_of_mem_take hx)).2) (by simp)
            rw [h, List.take_append_of_le_length (Nat.le_refl _), List.take_length] at this
            exact hp this
          · intro h
            exact absurd (fun x hx => h [] y s rfl hy x (by simpa using hx)) hp
      · rw [if_neg hy, show p ++ y :: s = p ++ [y] ++ s by simp, ih]
        constructor
        · intro h a c b e hc x hx
          cases a with
          | nil =>
            obtain ⟨rfl, _⟩ := List.cons.inj e
            exact absurd hc hy
          | cons z a =>
            obtain ⟨hz, e2⟩ := List.cons.inj e
            subst hz
            exact h a c b e2 hc x (by simpa using hx)
        · intro h a c b e hc x hx
          exact h (y :: a) c b (by rw [e]; rfl) hc x (by simpa using hx)
  have := key s []
  simpa [canon] using this

/-- **C40, exactly when**: a text of up to 8 characters is what its atom is printed as if and only if it has no NUL and whatever
comes before a character above 127 is 255. -/
theorem C40_print_iff (s : List Byte) (hs : s.length ≤ 8) (a : BitVec 64) (ha : tryParse s = .ok a) :
    cString (toBuffer a) = s ↔ 0#8 ∉ s ∧ ∀ p c q, s = p ++ c :: q → 128 ≤ c.toNat → ∀ x ∈ p, x = 0xFF#8 := by
  obtain ⟨a', _, h1, _, h2, _⟩ := C40_exact s s hs hs
  rw [ha] at h1
  cases h1
  rw [h2]
  constructor
  · intro h
    have h0 : 0#8 ∉ s := by
      rw [← h]
      intro hm
      exact canon_no_nul _ (counted_no_nul s) _ hm rfl
    have hc : counted s = s := counted_self s h0
    rw [hc] at h
    exact ⟨h0, (canon_eq_iff s).1 h⟩
  · rintro ⟨h0, h⟩
    have hc : counted s = s := counted_self s h0
    rw [hc]
    exact (canon_eq_iff s).2 h

example : tryParse [0x61#8, 0#8, 0x62#8] = tryParse [0x61#8] := by decide +kernel
example : canon [0xFF#8, 0x80#8, 0x41#8] = [0xFF#8, 0x80#8, 0x41#8] := by decide

end Solace.Atom

namespace Solace.DialString
open Solace.Strings Solace.StringView Solace.Atom

theorem counted_head (s : List Byte) (c : Byte) (h : (counted s).head? = some c) : s.head? = some c := by
  obtain ⟨rest, h1, _⟩ := counted_rest s
  rw [h1, List.head?_append, h]
  rfl

theorem counted_mem (s : List Byte) : ∀ c ∈ counted s, c ∈ s := by
  intro c hc
  obtain ⟨rest, h1, _⟩ := counted_rest s
  rw [h1]
  exact List.mem_append.2 (.inl hc)

theorem canon_trim_iff (p : List Byte) :
    trim (canon (counted (trim p))) = canon (counted (trim p)) ↔
      ∀ c, (counted (trim p)).getLast? = some c → isSpace c = false := by
  obtain ⟨_, _, _, _, _, h1, h2⟩ := (C26_trim p (trim p)).mpr rfl
  constructor
  · intro h c hc
    obtain ⟨_, _, _, _, _, _, h4⟩ := (C26_trim (canon (counted (trim p))) (trim (canon (counted (trim p))))).mpr rfl
    rw [h] at h4
    have he : counted (trim p) ≠ [] := by intro e; rw [e] at hc; cases hc
    refine h4 c ?_
    rw [canon, canonFrom_last _ he]
    exact hc
  · intro h
    apply trim_self
    · intro c hc
      rcases canon_head _ c hc with h' | h'
      · exact h1 c (counted_head _ c h')
      · rw [h']; decide
    · intro c hc
      by_cases he : counted (trim p) = []
      · rw [he] at hc; cases hc
      · rw [canon, canonFrom_last _ he] at hc
        exact h c hc

/-- **C41, exactly when**: whatever text with a colon is accepted, printing the result and parsing that gives the same result if
and only if the protocol, taken up to its first NUL, does not end in white space. (The protocol is trimmed before it is cut at the
NUL.) A text without a colon always comes back, by `C41_round_trip_partial`. -/
theorem C41_round_trip_iff (data : List Byte) (hl : data.length < 2 ^ 16) (fuel : Nat) (hf : data.length < fuel)
    (p q : List Byte) (rest : List (List Byte)) (hp : IsSplit [0x3A#8] data (p :: q :: rest))
    (ds : Dial) (hds : parse fuel data = some (.ok ds))
    (hpl : (print ds).length < 2 ^ 16) (fuel' : Nat) (hf' : (print ds).length < fuel') :
    parse fuel' (print ds) = some (.ok ds) ↔ ∀ c, (counted (trim p)).getLast? = some c → isSpace c = false := by
  obtain ⟨h1, h2, _⟩ := C41_parse data hl fuel hf _ hp
  have hne : data ≠ [] := by intro h; rw [h1 h] at hds; cases hds
  rw [h2 hne] at hds
  have hds := Option.some.inj hds
  have plain : ∀ a : List Byte, a ≠ [] → 0x3A#8 ∉ a → a.length < 2 ^ 16 → ∀ f, a.length < f →
      parse f a = some (.ok ⟨0#64, a, []⟩) := by
    intro a ha hc hal f hf
    have hs : IsSplit [0x3A#8] a [a] := ⟨rfl, fun i h => hc ((occursAt_single _ _).mp ⟨i, h⟩)⟩
    rw [(C41_parse a hal f hf [a] hs).2.1 ha]
    rfl
  rw [meaning_colon] at hds
  have hnc : ∀ x ∈ p :: q :: rest, 0x3A#8 ∉ x := fun x hx hm => by
    obtain ⟨i, hi⟩ := (occursAt_single _ _).mpr hm
    exact isSplit_no_delim (by simp) hp x hx i hi
  cases ht : tryParse (trim p) with
  | error e => rw [ht] at hds; cases hds
  | ok a =>
    rw [ht] at hds
    have hds := Except.ok.inj hds
    have hle : (trim p).length ≤ 8 := by
      apply Classical.byContradiction
      intro h
      obtain ⟨e, he⟩ := (C40_rejects (trim p)).mpr (by omega)
      rw [he] at ht
      cases ht
    have hcl := counted_le (trim p)
    have hkl : (canon (counted (trim p))).length = (counted (trim p)).length := canon_length _
    have htl : (trim (canon (counted (trim p)))).length ≤ (canon (counted (trim p))).length := by
      obtain ⟨x, y, h, _⟩ := (C26_trim (canon (counted (trim p))) _).mpr rfl
      have := congrArg List.length h
      simp only [List.length_append] at this
      omega
    obtain ⟨a', b', ha1, hb1, ha2, ha3, hab, _⟩ :=
      C40_exact (trim p) (trim (canon (counted (trim p)))) hle (by omega)
    rw [ht] at ha1
    cases ha1
    generalize hsv : serviceOf rest = sv at hds
    have hsv1 : 0x3A#8 ∉ sv ∧ trim sv = sv := by
      match rest, hsv, hnc with
      | [], hsv, _ => subst hsv; exact ⟨List.not_mem_nil, rfl⟩
      | r :: _, hsv, hnc => subst hsv; exact ⟨fun h => hnc r (by simp) (trim_mem r _ h), trim_idem r⟩
    have hpro : ds.protocol = a := by rw [← hds]
    have hadr : ds.address = trim q := by rw [← hds]
    have hser : ds.service = sv := by rw [← hds]
    have hqc : 0x3A#8 ∉ trim q := fun h => hnc q (by simp) (trim_mem q _ h)
    rw [print] at hpl hf' ⊢
    split at hpl
    · rename_i hcond
      rw [if_pos hcond] at hf' ⊢
      rw [plain _ hcond.2.2.1 hcond.2.2.2 hpl _ hf']
      obtain ⟨c1, c2, _⟩ := hcond
      refine ⟨fun _ c hc => ?_, fun _ => by rw [← c1, ← c2]⟩
      exfalso
      rw [hpro] at c1
      have h0 : cString (toBuffer a) = [] := by rw [c1]; decide
      rw [h0] at ha2
      have : (counted (trim p)).length = 0 := by rw [← hkl, ← ha2]; rfl
      rw [List.eq_nil_of_length_eq_zero this] at hc
      cases hc
    · rename_i hcond
      rw [if_neg hcond] at hf' ⊢
      rw [hpro, hadr, hser, ha2] at hpl hf' ⊢
      have hcc : 0x3A#8 ∉ canon (counted (trim p)) := by
        intro h
        rcases canonFrom_mem _ _ _ h with h | h | h
        · cases h
        · exact hnc p (by simp) (trim_mem p _ (counted_mem _ _ h))
        · exact absurd h (by decide)
      have hs := isSplit_three _ _ _ hcc hqc hsv1.1
      have hne' : canon (counted (trim p)) ++ 0x3A#8 :: (trim q ++ 0x3A#8 :: sv) ≠ [] := by
        intro h; have := congrArg List.length h; rw [List.length_append, List.length_cons, List.length_nil] at this; omega
      rw [(C41_parse _ hpl _ hf' _ hs).2.1 hne', meaning_colon, hb1, trim_idem, serviceOf, hsv1.2, ← hds,
        ← canon_trim_iff]
      constructor
      · intro h
        have hba : a = b' := by
          have h := Except.ok.inj (Option.some.inj h)
          exact (congrArg Dial.protocol h).symm
        have h3 := hab.1 hba
        have hl3 := congrArg List.length h3
        rw [canon_length, canon_length] at hl3
        have hc2 := counted_le (trim (canon (counted (trim p))))
        obtain ⟨x, y, h, _⟩ := (C26_trim (canon (counted (trim p))) _).mpr rfl
        have h4 := congrArg List.length h
        simp only [List.length_append] at h4
        have hx : x = [] := List.eq_nil_of_length_eq_zero (by omega)
        have hy : y = [] := List.eq_nil_of_length_eq_zero (by omega)
        rw [hx, hy, List.append_nil, List.nil_append] at h
        exact h.symm
      · intro h
        rw [h, ← ha2, ha3] at hb1
        cases hb1
        rfl

example : (∀ c, (counted (trim [0x61#8, 0x20#8, 0#8, 0x78#8])).getLast? = some c → isSpace c = false) → False := by
  intro h
  exact absurd (h 0x20#8 (by decide)) (by decide)
example : ∀ c, (counted (trim [0x61#8, 0#8, 0x20#8])).getLast? = some c → isSpace c = false := by
  intro c hc
  cases hc
  decide

end Solace.DialString
