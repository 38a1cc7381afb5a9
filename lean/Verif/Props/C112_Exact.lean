import Verif.Props.C112_TextOrder
/-
C112, exactly when the texts of atoms, and when the texts of versions, are in the order of the values.
-/
namespace Solace.StringView
open Strings

theorem comparesAs_iff (s t : List Byte) (hs : Plain s) (ht : Plain t) (hl : s.length < 2 ^ 16) (hl' : t.length < 2 ^ 16)
    (h : t ≠ [] ∨ s = []) (lt eq gt : Prop) :
    ComparesAs s t lt eq gt ↔ (shortlexLt s t ↔ lt) ∧ (s = t ↔ eq) ∧ (shortlexLt t s ↔ gt) := by
  obtain ⟨r, h1, h2, h3, h4⟩ := C22_shortlex_partial s t hs ht hl hl' h
  constructor
  · rintro ⟨r', k1, k2, k3, k4⟩
    rw [h1] at k1
    cases k1
    exact ⟨h2.symm.trans k2, h3.symm.trans k3, h4.symm.trans k4⟩
  · rintro ⟨k2, k3, k4⟩
    exact ⟨r, h1, h2.trans k2, h3.trans k3, h4.trans k4⟩

/-- **C112**, atoms of any length (full): the atoms of two names are in dictionary order, a name before its continuations. The
names compare as strings in that order exactly when they are equally long or the shorter one is the first in the dictionary. -/
theorem C112_atom_exact (s t : List Byte) (hs : Plain s) (ht : Plain t) (h : t ≠ [] ∨ s = []) (hs8 : s.length ≤ 8)
    (ht8 : t.length ≤ 8) :
    ∃ a b, Atom.tryParse s = .ok a ∧ Atom.tryParse t = .ok b ∧
      (a.toNat < b.toNat ↔ lexLt s t) ∧ (a = b ↔ s = t) ∧
      (ComparesAs s t (a.toNat < b.toNat) (a = b) (b.toNat < a.toNat) ↔
        s.length = t.length ∨ (s.length < t.length ∧ lexLt s t) ∨ (t.length < s.length ∧ lexLt t s)) := by
  have key : ∀ x : List Byte, Plain x → x.length ≤ 8 → Atom.Storable x := fun x hx h =>
    ⟨h, fun c hc e => by have := (hx c hc).1; rw [e] at this; simp at this,
      fun c hc => (hx c (List.mem_of_mem_tail hc)).2⟩
  obtain ⟨a, b, h1, h2, -, -, -, h3, h4⟩ := Atom.C40_atoms_partial s t (key s hs hs8) (key t ht ht8)
  obtain ⟨b', a', k1, k2, -, -, -, -, k4⟩ := Atom.C40_atoms_partial t s (key t ht ht8) (key s hs hs8)
  rw [h2] at k1
  rw [h1] at k2
  cases k1
  cases k2
  refine ⟨a, b, h1, h2, h4, h3, ?_⟩
  rw [comparesAs_iff s t hs ht (by omega) (by omega) h, h3, h4, k4]
  unfold shortlexLt
  constructor
  · rintro ⟨e1, -, e3⟩
    rcases Nat.lt_trichotomy s.length t.length with l | l | l
    · exact .inr (.inl ⟨l, e1.mp (.inl l)⟩)
    · exact .inl l
    · exact .inr (.inr ⟨l, e3.mp (.inl l)⟩)
  · rintro (l | ⟨l, d⟩ | ⟨l, d⟩)
    · exact ⟨⟨fun e => e.elim (fun e => absurd e (by omega)) (·.2), fun e => .inr ⟨l, e⟩⟩, Iff.rfl,
        ⟨fun e => e.elim (fun e => absurd e (by omega)) (·.2), fun e => .inr ⟨l.symm, e⟩⟩⟩
    · exact ⟨⟨fun _ => d, fun _ => .inl l⟩, Iff.rfl,
        ⟨fun e => e.elim (fun e => absurd e (by omega)) (·.2), fun e => (Uuid.lexLt_asymm d e).elim⟩⟩
    · exact ⟨⟨fun e => e.elim (fun e => absurd e (by omega)) (·.2), fun e => (Uuid.lexLt_asymm d e).elim⟩, Iff.rfl,
        ⟨fun _ => d, fun _ => .inl l⟩⟩

-- `"ab"` and `"b"`: the shorter name comes later in the dictionary, so strings and atoms disagree.
example : Plain [0x61#8, 0x62#8] ∧ Plain [0x62#8] ∧ ([0x62#8] : List Byte) ≠ [] := by decide

theorem decimal_plain {k : Nat} (hk : k < 2 ^ 64) : Plain (decimalText k) := by
  intro c hc
  obtain ⟨d, hd, e⟩ := Decimal.decimalText_digits hk c hc
  rw [e, Decimal.digit, BitVec.toNat_ofNat]
  omega

theorem decimal_length (k : Nat) : (decimalText k).length ≤ 20 := by
  have : ∀ f n, (decimalDigits f n).length ≤ f := by
    intro f
    induction f with
    | zero => intro n; simp [decimalDigits]
    | succ f ih =>
      intro n
      rw [decimalDigits]
      split
      · simp
      · rw [List.length_append, List.length_singleton]; have := ih (n / 10); omega
  exact this 20 k

theorem decimal_lexLt {m n : Nat} (hm : m < 2 ^ 64) (hn : n < 2 ^ 64) (h : (decimalText m).length = (decimalText n).length) :
    lexLt (decimalText m) (decimalText n) ↔ m < n := by
  rw [← (Decimal.shortlex_iff (Decimal.decimalText_spec hm) (Decimal.decimalText_spec hn)).1, shortlexLt]
  exact ⟨fun e => .inr ⟨h, e⟩, fun e => e.elim (fun e => absurd e (by omega)) (·.2)⟩

theorem decimal_eq {m n : Nat} (hm : m < 2 ^ 64) (hn : n < 2 ^ 64) : decimalText m = decimalText n ↔ m = n :=
  (Decimal.shortlex_iff (Decimal.decimalText_spec hm) (Decimal.decimalText_spec hn)).2

/-- A version of three numbers, without labels. -/
def bare (a b c : Nat) : Version := { major := a, minor := b, patch := c, preRelease := [], build := [] }

theorem bare_text (a b c : Nat) : (bare a b c).text =
    decimalText a ++ (0x2E#8 :: (decimalText b ++ (0x2E#8 :: decimalText c))) := by
  simp [Version.text, bare]

theorem lexLt_cons_same (x : Byte) (s t : List Byte) : lexLt (x :: s) (x :: t) ↔ lexLt s t := by
  simp [lexLt]

/-- **C112**, versions of numbers written with equally many digits: the texts compare, as strings, like the versions do with
`>`. Missing: numbers of different width and versions with labels, for which `C112_version` has counterexamples. -/
theorem C112_version_partial (a b c x y z : Nat) (h1 : a < 2 ^ 32) (h2 : b < 2 ^ 32) (h3 : c < 2 ^ 32) (k1 : x < 2 ^ 32)
    (k2 : y < 2 ^ 32) (k3 : z < 2 ^ 32) (l1 : (decimalText a).length = (decimalText x).length)
    (l2 : (decimalText b).length = (decimalText y).length) (l3 : (decimalText c).length = (decimalText z).length) :
    ComparesAs (bare a b c).text (bare x y z).text
      ((bare x y z).gt (bare a b c) = true) (bare a b c = bare x y z) ((bare a b c).gt (bare x y z) = true) := by
  have lx : ∀ a b c x y z : Nat, a < 2 ^ 32 → b < 2 ^ 32 → c < 2 ^ 32 → x < 2 ^ 32 → y < 2 ^ 32 → z < 2 ^ 32 →
      (decimalText a).length = (decimalText x).length → (decimalText b).length = (decimalText y).length →
      (decimalText c).length = (decimalText z).length →
      (shortlexLt (bare a b c).text (bare x y z).text ↔ (bare x y z).gt (bare a b c) = true) := by
    intro a b c x y z h1 h2 h3 k1 k2 k3 l1 l2 l3
    have el : (bare a b c).text.length = (bare x y z).text.length := by
      rw [bare_text, bare_text]; simp only [List.length_append, List.length_cons, l1, l2, l3]
    have : shortlexLt (bare a b c).text (bare x y z).text ↔ lexLt (bare a b c).text (bare x y z).text := by
      rw [shortlexLt]
      exact ⟨fun e => e.elim (fun e => absurd e (by omega)) (·.2), fun e => .inr ⟨el, e⟩⟩
    rw [this, bare_text, bare_text, Uuid.lexLt_append _ _ _ _ l1, lexLt_cons_same, Uuid.lexLt_append _ _ _ _ l2,
      lexLt_cons_same, decimal_lexLt (by omega) (by omega) l1, decimal_lexLt (by omega) (by omega) l2,
      decimal_lexLt (by omega) (by omega) l3, decimal_eq (by omega) (by omega), decimal_eq (by omega) (by omega)]
    simp only [Version.gt, bare]
    repeat' split
    all_goals simp
    all_goals omega
  have pl : ∀ a b c : Nat, a < 2 ^ 32 → b < 2 ^ 32 → c < 2 ^ 32 → Plain (bare a b c).text := by
    intro a b c h1 h2 h3 k hk
    rw [bare_text] at hk
    simp only [List.mem_append, List.mem_cons] at hk
    rcases hk with hk | hk | hk | hk | hk
    · exact decimal_plain (by omega) k hk
    · rw [hk]; decide
    · exact decimal_plain (by omega) k hk
    · rw [hk]; decide
    · exact decimal_plain (by omega) k hk
  have ln : ∀ a b c : Nat, (bare a b c).text.length < 2 ^ 16 := by
    intro a b c
    have := decimal_length a
    have := decimal_length b
    have := decimal_length c
    rw [bare_text]; simp only [List.length_append, List.length_cons]; omega
  rw [comparesAs_iff _ _ (pl a b c h1 h2 h3) (pl x y z k1 k2 k3) (ln _ _ _) (ln _ _ _) (.inl (by rw [bare_text]; simp))]
  refine ⟨lx a b c x y z h1 h2 h3 k1 k2 k3 l1 l2 l3, ?_, lx x y z a b c k1 k2 k3 h1 h2 h3 l1.symm l2.symm l3.symm⟩
  refine ⟨fun e => ?_, fun e => by rw [e]⟩
  rw [bare_text, bare_text] at e
  obtain ⟨e1, e⟩ := List.append_inj e l1
  obtain ⟨e2, e⟩ := List.append_inj (List.cons.inj e).2 l2
  rw [(decimal_eq (by omega) (by omega)).mp e1, (decimal_eq (by omega) (by omega)).mp e2,
    (decimal_eq (by omega) (by omega)).mp (List.cons.inj e).2]

-- 12.3.45 and 12.4.31.
example : (decimalText 12).length = (decimalText 12).length ∧ (decimalText 3).length = (decimalText 4).length ∧
    (decimalText 45).length = (decimalText 31).length := by decide +kernel

end Solace.StringView
