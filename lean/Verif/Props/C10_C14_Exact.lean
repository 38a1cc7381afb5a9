import Verif.Props.C09_C11_Base16
import Verif.Props.C12_C16_Base64
/-
C10, C11 and C14 for every text: what the decoders do, and exactly when their behaviour is undefined.
-/
namespace Solace.Base16
open ByteWriter

/-- Every text is a run of pairs of digits, followed by nothing, a single character, or a pair that is not one of digits. -/
theorem split_text (text : List Byte) : ∃ p bytes rest, text = p ++ rest ∧ Hex.parse p = some bytes ∧
    (rest = [] ∨ (∃ a, rest = [a]) ∨ ∃ a b r, rest = a :: b :: r ∧ ¬(Hex.IsDigit a ∧ Hex.IsDigit b)) := by
  induction text using goodPrefix.induct with
  | case1 a b rest h l ha hb ih =>
    obtain ⟨p, bytes, r, e, hp, hr⟩ := ih
    refine ⟨a :: b :: p, BitVec.ofNat 8 (16 * h + l) :: bytes, r, by rw [e]; rfl, ?_, hr⟩
    rw [Hex.parse, hb, ha, hp]
  | case2 a b rest hno =>
    refine ⟨[], [], a :: b :: rest, rfl, rfl, .inr (.inr ⟨a, b, rest, rfl, ?_⟩)⟩
    rintro ⟨h1, h2⟩
    obtain ⟨x, hx⟩ := Option.ne_none_iff_exists'.mp h1
    obtain ⟨y, hy⟩ := Option.ne_none_iff_exists'.mp h2
    exact hno _ _ hx hy
  | case3 text hno =>
    refine ⟨[], [], text, rfl, rfl, ?_⟩
    match text with
    | [] => exact .inl rfl
    | [a] => exact .inr (.inl ⟨a, rfl⟩)
    | a :: b :: rest => exact absurd rfl (hno a b rest)

theorem parse_length (p bytes : List Byte) (h : Hex.parse p = some bytes) : p.length = 2 * bytes.length := by
  have := congrArg List.length (text_parse p bytes h)
  rw [text_length, List.length_map] at this
  exact this.symm

theorem decodeLoop_append (p : List Byte) (rest : List Byte) (bytes : List Byte) (dest : ByteWriter) (hp : Hex.parse p = some bytes)
    (h : dest.Ready) (hr : dest.position + bytes.length ≤ dest.limit) :
    decodeLoop dest (p ++ rest) = decodeLoop (dest.wrote bytes) rest := by
  induction p using Hex.parse.induct generalizing dest bytes with
  | case1 => cases hp; rw [List.nil_append, wrote_nil]
  | case2 => cases hp
  | case3 a b q hh l bs' hq hb ha ih =>
    rw [Hex.parse, ha, hb, hq] at hp
    cases hp
    have h1 : a.toNat < 128 := value_ascii a (by simp [Hex.IsDigit, ha])
    have h2 : b.toNat < 128 := value_ascii b (by simp [Hex.IsDigit, hb])
    rw [List.length_cons] at hr
    have hd : dest.position + [BitVec.ofNat 8 (16 * hh + l)].length ≤ dest.limit := by
      rw [List.length_singleton]; omega
    obtain ⟨r1, r2, r3⟩ := wrote_ready dest _ h hd
    rw [List.cons_append, List.cons_append, decodeLoop, decode16_eq a b h1 h2, ha, hb]
    simp only
    rw [write_ready dest _ h hd]
    simp only
    rw [ih _ _ hq r1 (by rw [r2, r3, List.length_singleton]; omega),
      wrote_wrote dest _ _ (by have := h.2.1; rw [List.length_singleton]; omega)]
    rfl
  | case4 a b q hno ih =>
    rw [Hex.parse] at hp
    split at hp
    · rename_i h1 h2 h3; exact absurd h3 (hno _ _ _ h1 h2)
    · cases hp

theorem decodeLoop_append_short (p : List Byte) (rest : List Byte) (bytes : List Byte) (dest : ByteWriter)
    (hp : Hex.parse p = some bytes) (h : dest.Ready) (hr : dest.limit < dest.position + bytes.length) :
    ∃ d, decodeLoop dest (p ++ rest) = .ok (d, .error .overflow) := by
  induction p using Hex.parse.induct generalizing dest bytes with
  | case1 => cases hp; have := h.1; simp at hr; omega
  | case2 => cases hp
  | case3 a b q hh l bs' hq hb ha ih =>
    rw [Hex.parse, ha, hb, hq] at hp
    cases hp
    have h1 : a.toNat < 128 := value_ascii a (by simp [Hex.IsDigit, ha])
    have h2 : b.toNat < 128 := value_ascii b (by simp [Hex.IsDigit, hb])
    rw [List.length_cons] at hr
    rw [List.cons_append, List.cons_append, decodeLoop, decode16_eq a b h1 h2, ha, hb]
    simp only
    by_cases hd : dest.position + [BitVec.ofNat 8 (16 * hh + l)].length ≤ dest.limit
    · obtain ⟨r1, r2, r3⟩ := wrote_ready dest _ h hd
      rw [write_ready dest _ h hd]
      simp only
      exact ih _ _ hq r1 (by rw [r2, r3, List.length_singleton]; omega)
    · obtain ⟨s', hs, _⟩ := write_short dest [BitVec.ofNat 8 (16 * hh + l)] h (by omega)
      rw [hs]
      exact ⟨_, rfl⟩
  | case4 a b q hno ih =>
    rw [Hex.parse] at hp
    split at hp
    · rename_i h1 h2 h3; exact absurd h3 (hno _ _ _ h1 h2)
    · cases hp

theorem decode16_bad (a b : Byte) (h : ¬(Hex.IsDigit a ∧ Hex.IsDigit b)) :
    decode16 a b = if 128 ≤ a.toNat ∨ 128 ≤ b.toNat then .ub else .ok (.error .ilseq) := by
  by_cases ha : 128 ≤ a.toNat
  · rw [if_pos (.inl ha), decode16, charToBin_ub a ha]; rfl
  · by_cases hb : 128 ≤ b.toNat
    · rw [if_pos (.inr hb), decode16, charToBin_eq a (by omega), charToBin_ub b hb]; rfl
    · rw [if_neg (by omega), decode16_eq a b (by omega) (by omega)]
      split
      · rename_i h1 h2
        exact absurd ⟨by simp [Hex.IsDigit, h1], by simp [Hex.IsDigit, h2]⟩ h
      · rfl

/-- **C10, exactly**: every text is a run of digit pairs `p`, which denotes `bytes`, and a rest. The decoder refuses texts of odd
length. Otherwise it writes `bytes`; it stops with an error when there is no room for them, succeeds when there is no rest, and
for a rest is undefined if one of its first two characters is not ASCII, and an error if both are. -/
theorem C10_exact (text : List Byte) (dest : ByteWriter) (h : dest.Ready) :
    ∃ p bytes rest, text = p ++ rest ∧ Hex.parse p = some bytes ∧
      (text.length % 2 = 1 → decode dest text = .ok (dest, .error .dom)) ∧
      (text.length % 2 = 0 → dest.limit < dest.position + bytes.length → ∃ d, decode dest text = .ok (d, .error .overflow)) ∧
      (text.length % 2 = 0 → dest.position + bytes.length ≤ dest.limit →
        (rest = [] ∧ decode dest text = .ok (dest.wrote bytes, .ok ())) ∨
        ∃ a b r, rest = a :: b :: r ∧ ¬(Hex.IsDigit a ∧ Hex.IsDigit b) ∧
          decode dest text = if 128 ≤ a.toNat ∨ 128 ≤ b.toNat then .ub else .ok (dest.wrote bytes, .error .ilseq)) := by
  obtain ⟨p, bytes, rest, e, hp, hr⟩ := split_text text
  have hl := parse_length p bytes hp
  refine ⟨p, bytes, rest, e, hp, fun ho => ?_, fun he hs => ?_, fun he hs => ?_⟩
  · rw [decode, if_pos (by omega)]
  · rw [decode, if_neg (by omega), e]
    exact decodeLoop_append_short p rest bytes dest hp h hs
  · rw [decode, if_neg (by omega), e, decodeLoop_append p rest bytes dest hp h hs]
    rcases hr with rfl | ⟨a, rfl⟩ | ⟨a, b, r, rfl, hn⟩
    · exact .inl ⟨rfl, rfl⟩
    · rw [e] at he
      simp at he
      omega
    · refine .inr ⟨a, b, r, rfl, hn, ?_⟩
      rw [decodeLoop, decode16_bad a b hn]
      by_cases hw : 128 ≤ a.toNat ∨ 128 ≤ b.toNat
      · simp only [if_pos hw]
      · simp only [if_neg hw]

/-- Where the first pair that is not made of digits starts with, or contains, a character that is not ASCII. -/
def FirstBadIsWide (text : List Byte) : Prop :=
  ∃ p a b r, text = p ++ a :: b :: r ∧ p.length % 2 = 0 ∧ (∀ c ∈ p, Hex.IsDigit c) ∧ (128 ≤ a.toNat ∨ 128 ≤ b.toNat)

theorem wide_not_digit {a b : Byte} (h : 128 ≤ a.toNat ∨ 128 ≤ b.toNat) : ¬(Hex.IsDigit a ∧ Hex.IsDigit b) := by
  rintro ⟨h1, h2⟩
  have := value_ascii a h1
  have := value_ascii b h2
  omega

theorem two_more (t : List Byte) (h : 2 ≤ t.length) : ∃ x y r, t = x :: y :: r :=
  match t, h with
  | x :: y :: r, _ => ⟨x, y, r, rfl⟩

theorem firstBad_iff (p bytes rest : List Byte) (hp : Hex.parse p = some bytes)
    (hr : rest = [] ∨ (∃ a, rest = [a]) ∨ ∃ a b r, rest = a :: b :: r ∧ ¬(Hex.IsDigit a ∧ Hex.IsDigit b)) :
    FirstBadIsWide (p ++ rest) ↔ ∃ a b r, rest = a :: b :: r ∧ (128 ≤ a.toNat ∨ 128 ≤ b.toNat) := by
  have hev := (parse_isSome_iff p).mp (by rw [hp]; rfl)
  constructor
  · rintro ⟨q, a, b, r, e, hq, hd, hw⟩
    rcases Nat.lt_trichotomy p.length q.length with hlt | heq | hgt
    · -- the pair after `p` is made of digits of `q`
      have hle : p.length + 2 ≤ q.length := by omega
      have hpre : p <+: q := by
        have h1 : p <+: q ++ a :: b :: r := by rw [← e]; exact List.prefix_append _ _
        exact List.prefix_of_prefix_length_le h1 (List.prefix_append _ _) (by omega)
      obtain ⟨t, rfl⟩ := hpre
      rw [List.append_assoc] at e
      have e' := List.append_cancel_left e
      rw [List.length_append] at hle
      obtain ⟨x, y, t, rfl⟩ := two_more t (by omega)
      rcases hr with rfl | ⟨z, rfl⟩ | ⟨a', b', r', rfl, hn⟩
      · cases e'
      · simp at e'
      · simp only [List.cons_append, List.cons.injEq] at e'
        obtain ⟨rfl, rfl, _⟩ := e'
        exact absurd ⟨hd _ (by simp), hd _ (by simp)⟩ hn
    · have hq' : p = q := (List.append_inj e heq).1
      subst hq'
      exact ⟨a, b, r, List.append_cancel_left e, hw⟩
    · have hle : q.length + 2 ≤ p.length := by omega
      have hpre : q <+: p := by
        have h1 : q <+: p ++ rest := by rw [e]; exact List.prefix_append _ _
        exact List.prefix_of_prefix_length_le h1 (List.prefix_append _ _) (by omega)
      obtain ⟨t, rfl⟩ := hpre
      rw [List.append_assoc] at e
      have e' := List.append_cancel_left e
      rw [List.length_append] at hle
      obtain ⟨x, y, t, rfl⟩ := two_more t (by omega)
      simp only [List.cons_append, List.cons.injEq] at e'
      obtain ⟨rfl, rfl, _⟩ := e'
      exact absurd ⟨hev.2 _ (by simp), hev.2 _ (by simp)⟩ (wide_not_digit hw)
  · rintro ⟨a, b, r, rfl, hw⟩
    exact ⟨p, a, b, r, rfl, hev.1, hev.2, hw⟩

/-- **C10, exactly, undefined behaviour**: with room for half the length of the text the decoder is undefined exactly for texts
of even length whose first pair not made of digits contains a character that is not ASCII. -/
theorem C10_undefined_iff (text : List Byte) (dest : ByteWriter) (h : dest.Ready)
    (hr : dest.position + text.length / 2 ≤ dest.limit) :
    decode dest text = .ub ↔ text.length % 2 = 0 ∧ FirstBadIsWide text := by
  obtain ⟨p, bytes, rest, e, hp, hrest⟩ := split_text text
  have hl := parse_length p bytes hp
  have hfb := firstBad_iff p bytes rest hp hrest
  rw [← e] at hfb
  rw [hfb, decode]
  by_cases ho : text.length % 2 = 0
  · rw [if_neg (by omega), e, decodeLoop_append p rest bytes dest hp h
      (by have := congrArg List.length e; rw [List.length_append] at this; omega)]
    rcases hrest with rfl | ⟨a, rfl⟩ | ⟨a, b, r, rfl, hn⟩
    · simp [decodeLoop]
    · rw [e] at ho
      simp at ho
      omega
    · rw [decodeLoop, decode16_bad a b hn, ← e]
      by_cases hw : 128 ≤ a.toNat ∨ 128 ≤ b.toNat
      · rw [if_pos hw]
        exact ⟨fun _ => ⟨ho, a, b, r, rfl, hw⟩, fun _ => rfl⟩
      · rw [if_neg hw]
        refine ⟨fun hh => (by cases hh), ?_⟩
        rintro ⟨_, a', b', r', e', hw'⟩
        simp only [List.cons.injEq] at e'
        obtain ⟨rfl, rfl, _⟩ := e'
        exact absurd hw' hw
  · rw [if_pos (by omega)]
    exact ⟨fun hh => (by cases hh), fun hh => absurd hh.1 ho⟩

/-- The whole loop over the decoding iterator: its construction and the iteration. -/
def loopOver (fuel : Nat) (text : List Byte) : Option (Outcome (List Byte)) :=
  match DecIter.begin text with
  | .ok it => it.collect fuel
  | .throws => some .throws
  | .terminate => some .terminate
  | .ub => some .ub

def ending (bytes : List Byte) : List Byte → Outcome (List Byte)
  | a :: b :: _ => if 128 ≤ a.toNat ∨ 128 ≤ b.toNat then .ub else .ok bytes
  | _ => .ok bytes

theorem load_loop (p : List Byte) (rest bytes : List Byte) (hp : Hex.parse p = some bytes)
    (hr : rest = [] ∨ (∃ a, rest = [a]) ∨ ∃ a b r, rest = a :: b :: r ∧ ¬(Hex.IsDigit a ∧ Hex.IsDigit b)) :
    ∀ old fuel, (p ++ rest).length < fuel →
    (match DecIter.load (p ++ rest) old with
      | .ok it => it.collect fuel | .throws => some .throws | .terminate => some .terminate | .ub => some .ub) =
    some (ending bytes rest) := by
  induction p using Hex.parse.induct generalizing bytes with
  | case1 =>
    cases hp
    intro old fuel hf
    rw [List.nil_append] at hf ⊢
    match fuel, hf with
    | fuel + 1, hf =>
      rcases hr with rfl | ⟨a, rfl⟩ | ⟨a, b, r, rfl, hn⟩
      · rfl
      · rfl
      · rw [DecIter.load, decode16_bad a b hn]
        by_cases hw : 128 ≤ a.toNat ∨ 128 ≤ b.toNat
        · simp only [ending, if_pos hw]
        · simp only [ending, if_neg hw]; rfl
  | case2 => cases hp
  | case3 a b q hh l bs' hq hb ha ih =>
    rw [Hex.parse, ha, hb, hq] at hp
    cases hp
    have h1 : a.toNat < 128 := value_ascii a (by simp [Hex.IsDigit, ha])
    have h2 : b.toNat < 128 := value_ascii b (by simp [Hex.IsDigit, hb])
    intro old fuel hf
    match fuel, hf with
    | fuel + 1, hf =>
      have ih' := ih _ hq (some (BitVec.ofNat 8 (16 * hh + l))) fuel (by simp at hf ⊢; omega)
      rw [List.cons_append, List.cons_append, DecIter.load, decode16_eq a b h1 h2, ha, hb]
      simp only
      rw [DecIter.collect, if_neg (by simp)]
      simp only [DecIter.deref, DecIter.next]
      generalize DecIter.load (q ++ rest) (some (BitVec.ofNat 8 (16 * hh + l))) = o at ih' ⊢
      cases o with
      | ok it =>
        simp only at ih' ⊢
        rw [ih']
        rcases hr with rfl | ⟨x, rfl⟩ | ⟨x, y, r, rfl, hn⟩
        · rfl
        · rfl
        · by_cases hw : 128 ≤ x.toNat ∨ 128 ≤ y.toNat
          · simp only [ending, if_pos hw]
          · simp only [ending, if_neg hw]
      | throws =>
        simp only [Option.some.injEq] at ih' ⊢
        rcases hr with rfl | ⟨x, rfl⟩ | ⟨x, y, r, rfl, hn⟩
        · cases ih'
        · cases ih'
        · simp only [ending] at ih' ; split at ih' <;> cases ih'
      | terminate =>
        simp only [Option.some.injEq] at ih' ⊢
        rcases hr with rfl | ⟨x, rfl⟩ | ⟨x, y, r, rfl, hn⟩
        · cases ih'
        · cases ih'
        · simp only [ending] at ih' ; split at ih' <;> cases ih'
      | ub =>
        simp only [Option.some.injEq] at ih' ⊢
        rcases hr with rfl | ⟨x, rfl⟩ | ⟨x, y, r, rfl, hn⟩
        · cases ih'
        · cases ih'
        · simp only [ending] at ih' ⊢
          split at ih'
          · rename_i hw; rw [if_pos hw]
          · cases ih'
  | case4 a b q hno ih =>
    rw [Hex.parse] at hp
    split at hp
    · rename_i h1 h2 h3; exact absurd h3 (hno _ _ _ h1 h2)
    · cases hp

/-- **C11, exactly**: the loop over the decoding iterator always ends. It yields the bytes denoted by the longest run of digit
pairs at the beginning, silently leaving out the rest, and is undefined exactly if the first pair that is not made of digits
contains a character that is not ASCII. -/
theorem C11_exact (text : List Byte) (fuel : Nat) (hf : text.length < fuel) :
    (loopOver fuel text = some .ub ↔ FirstBadIsWide text) ∧
    (¬FirstBadIsWide text → ∃ p bytes rest, text = p ++ rest ∧ Hex.parse p = some bytes ∧
      (∀ a b r, rest = a :: b :: r → ¬(Hex.IsDigit a ∧ Hex.IsDigit b)) ∧ loopOver fuel text = some (.ok bytes)) := by
  obtain ⟨p, bytes, rest, e, hp, hr⟩ := split_text text
  have hfb := firstBad_iff p bytes rest hp hr
  have hl := load_loop p rest bytes hp hr none fuel (by rw [← e]; exact hf)
  rw [← e] at hfb hl
  have hloop : loopOver fuel text = some (ending bytes rest) := hl
  rw [hfb, hloop]
  rcases hr with rfl | ⟨x, rfl⟩ | ⟨x, y, r, rfl, hn⟩
  · exact ⟨by simp [ending], fun _ => ⟨p, bytes, [], e, hp, by simp, rfl⟩⟩
  · exact ⟨by simp [ending], fun _ => ⟨p, bytes, [x], e, hp, by simp, rfl⟩⟩
  · by_cases hw : 128 ≤ x.toNat ∨ 128 ≤ y.toNat
    · simp only [ending, if_pos hw]
      exact ⟨⟨fun _ => ⟨x, y, r, rfl, hw⟩, fun _ => trivial⟩, fun hh => absurd ⟨x, y, r, rfl, hw⟩ hh⟩
    · simp only [ending, if_neg hw]
      refine ⟨⟨fun hh => (by cases hh), ?_⟩, fun _ => ⟨p, bytes, x :: y :: r, e, hp, ?_, rfl⟩⟩
      · rintro ⟨a, b, r', e', hw'⟩
        simp only [List.cons.injEq] at e'
        obtain ⟨rfl, rfl, _⟩ := e'
        exact absurd hw' hw
      · intro a b r' e'
        simp only [List.cons.injEq] at e'
        obtain ⟨rfl, rfl, _⟩ := e'
        exact hn

-- "4b" then 'g' and a character that is not ASCII: both are looked up before either is refused
example : FirstBadIsWide [0x34#8, 0x62#8, 0x67#8, 0xC3#8] ∧
    decode (ofBuffer [0#8, 0#8]) [0x34#8, 0x62#8, 0x67#8, 0xC3#8] = .ub ∧
    decode (ofBuffer [0#8, 0#8]) [0x34#8, 0x62#8, 0x67#8, 0x67#8, 0xC3#8, 0xC3#8] = .ok (⟨[0x4B#8, 0#8], 1, 2⟩, .error .ilseq) ∧
    loopOver 9 [0x34#8, 0x62#8, 0x67#8, 0x67#8, 0xC3#8, 0xC3#8] = some (.ok [0x4B#8]) := by
  refine ⟨⟨[0x34#8, 0x62#8], 0x67#8, 0xC3#8, [], rfl, rfl, ?_, .inr (by decide)⟩, ?_, ?_, ?_⟩ <;> decide +kernel

example : ¬FirstBadIsWide [0x34#8, 0x62#8] := by
  have := firstBad_iff [0x34#8, 0x62#8] [0x4B#8] [] (by decide +kernel) (.inl rfl)
  rw [List.append_nil] at this
  rw [this]
  simp

end Solace.Base16

namespace Solace.Base64

/-- **C14, exactly**: the result is defined and independent of the memory behind the view exactly if the view is empty or
contains a byte outside the alphabet. -/
theorem C14_iff (url : Bool) (dest : ByteWriter) (text : List Byte) :
    (∃ call, ∀ after, decode (tableOf url) dest text after = .ok call) ↔
      (text = [] ∨ ∃ c ∈ text, 63 < look (tableOf url) c) := by
  refine ⟨fun ⟨call, h⟩ => ?_, C14_reads_only_view_partial url dest text⟩
  refine Classical.byContradiction fun hn => ?_
  have h1 : text ≠ [] := fun e => hn (.inl e)
  have h2 : ∀ c ∈ text, look (tableOf url) c ≤ 63 := by
    intro c hc
    refine Classical.byContradiction fun hh => hn (.inr ⟨c, hc, by omega⟩)
  have h3 := h []
  rw [C14_unterminated_undefined url dest text h1 h2] at h3
  cases h3

-- "QQ==" has bytes outside of the alphabet, "QUFB" has none
example : (∃ c ∈ [0x51#8, 0x51#8, 0x3D#8, 0x3D#8], 63 < look (tableOf false) c) ∧
    ¬∃ c ∈ [0x51#8, 0x55#8, 0x46#8, 0x42#8], 63 < look (tableOf false) c := by decide +kernel

end Solace.Base64
