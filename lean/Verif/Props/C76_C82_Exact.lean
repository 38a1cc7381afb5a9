import Verif.Props.C66_ErrorDomain
import Verif.Props.C82_Output
import Verif.Props.C40_C41_Exact
import Verif.Props.C29_C31_Exact
/-
C76 and C82 exactly: the text of an error and what is printed of it, for every history of registrations, every domain id and
every length; and when a dial string comes back from what is printed, for every accepted text with a colon.
-/
namespace Solace.Atom

/-- The name of a number: its eight bytes, most significant first, up to the first that is zero. -/
def nameOf (id : BitVec 64) : List Byte :=
  ((List.range 8).map fun i => BitVec.ofNat 8 (id.toNat / 256 ^ (7 - i))).takeWhile (· ≠ 0#8)

theorem takeWhile_last_zero (l : List Byte) : (l ++ [0#8]).takeWhile (· ≠ 0#8) = l.takeWhile (· ≠ 0#8) := by
  induction l with
  | nil => rfl
  | cons x l ih =>
    rw [List.cons_append, List.takeWhile_cons, List.takeWhile_cons, ih]

theorem cString_toBuffer (id : BitVec 64) : (toBuffer id).takeWhile (· ≠ 0#8) = nameOf id := by
  have hall : (0xFF#8).signExtend 64 = BitVec.allOnes 64 := by decide
  rw [toBuffer, takeWhile_last_zero, nameOf, hall]
  congr 1
  apply List.map_congr_left
  intro i hi
  rw [List.mem_range] at hi
  apply BitVec.eq_of_toNat_eq
  rw [BitVec.and_allOnes, BitVec.toNat_setWidth, BitVec.toNat_ushiftRight, Nat.shiftRight_eq_div_pow, BitVec.toNat_ofNat,
    show 256 = 2 ^ 8 from rfl, ← Nat.pow_mul, show (8 - i - 1) * 8 = 8 * (7 - i) by omega]

/-- **C40**, printing any number as an atom: its bytes from the most significant one up to the first zero, in nine characters
of which the last is NUL. -/
theorem C40_print_any (id : BitVec 64) : cString (toBuffer id) = nameOf id ∧ (toBuffer id).length = 9 ∧
    (toBuffer id).getLast? = some 0#8 := by
  refine ⟨cString_toBuffer id, by simp [toBuffer], by simp [toBuffer]⟩

example : nameOf 0x6162_0063_0000_0000#64 = [0x61#8, 0x62#8] := by decide

end Solace.Atom

namespace Solace.ErrorValue
open Solace.ErrorDomains
variable {D : Type}

/-- **C76** (exactly): after every history of registrations the text of an error is the message of the domain its id was
registered with first, among the first 128 registrations. When there is none it is made of the name of the id, `": "` and the
tag: with `n` the length of all that modulo 65536, the text is empty when `n` bytes cannot be had, and otherwise the pieces that
fit into `n` bytes, up to the first that does not, followed by what the memory contained. -/
theorem C76_exact (alloc : Nat → Except Err MutView) (ha : Str.AllocOk alloc) (message : D → BitVec 32 → List Byte)
    (rs : List (BitVec 64 × D)) (e : ErrorValue) (n : Nat) (hn : n = (Atom.nameOf e.domain ++ [0x3A#8, 0x20#8] ++ e.tag).length % 2 ^ 16) :
    (∀ d, firstFor (rs.take 128) e.domain = some d → toString alloc message (run registry rs).1 e = .ok (message d e.code)) ∧
    (firstFor (rs.take 128) e.domain = none →
      (∀ err, alloc n = .error err → toString alloc message (run registry rs).1 e = .ok []) ∧
      ∀ v, alloc n = .ok v → toString alloc message (run registry rs).1 e =
        .ok (Strings.storedUntil n [Atom.nameOf e.domain, [0x3A#8, 0x20#8], e.tag] ++
          v.bytes.drop (Strings.storedUntil n [Atom.nameOf e.domain, [0x3A#8, 0x20#8], e.tag]).length)) := by
  have hf := (C66_every_history rs e.domain).1
  have hfl : [Atom.nameOf e.domain, [0x3A#8, 0x20#8], e.tag].flatten.length % 2 ^ 16 = n := by
    rw [hn]; simp
  obtain ⟨c1, c2⟩ := Str.C29_concat_exact alloc ha [Atom.nameOf e.domain, [0x3A#8, 0x20#8], e.tag]
  rw [hfl] at c1 c2
  refine ⟨fun d hd => ?_, fun hd => ⟨fun err he => ?_, fun v hv => ?_⟩⟩
  · rw [toString, hf, hd]
  · rw [toString, hf, hd]
    simp only [Atom.cString_toBuffer]
    rw [c1 err he]
  · obtain ⟨str, h1, h2⟩ := c2 v hv
    rw [toString, hf, hd]
    simp only [Atom.cString_toBuffer]
    rw [h1]
    simp only [h2]

/-- **C76**, exactly when the text of an error of an unknown domain is the name, `": "` and the tag: when memory is available,
if and only if that has less than 65536 characters. -/
theorem C76_unknown_iff (alloc : Nat → Except Err MutView) (ha : Str.AllocOk alloc) (message : D → BitVec 32 → List Byte)
    (rs : List (BitVec 64 × D)) (e : ErrorValue) (hu : firstFor (rs.take 128) e.domain = none)
    (hm : ∀ n, n < 2 ^ 16 → ∃ v, alloc n = .ok v) :
    toString alloc message (run registry rs).1 e = .ok (Atom.nameOf e.domain ++ [0x3A#8, 0x20#8] ++ e.tag) ↔
      (Atom.nameOf e.domain ++ [0x3A#8, 0x20#8] ++ e.tag).length < 2 ^ 16 := by
  have hf := (C66_every_history rs e.domain).1
  have hfl : [Atom.nameOf e.domain, [0x3A#8, 0x20#8], e.tag].flatten = Atom.nameOf e.domain ++ [0x3A#8, 0x20#8] ++ e.tag := by simp
  obtain ⟨v, hv⟩ := hm ((Atom.nameOf e.domain ++ [0x3A#8, 0x20#8] ++ e.tag).length % 2 ^ 16) (Nat.mod_lt _ (by decide))
  obtain ⟨_, c2⟩ := Str.C29_concat_exact alloc ha [Atom.nameOf e.domain, [0x3A#8, 0x20#8], e.tag]
  rw [hfl] at c2
  obtain ⟨str, h1, _⟩ := c2 v hv
  have hi := Str.C29_concat_iff alloc ha _ str h1
  rw [hfl] at hi
  rw [toString, hf, hu]
  simp only [Atom.cString_toBuffer]
  rw [h1, ← hi]
  exact ⟨fun h => Outcome.ok.inj h, fun h => congrArg Outcome.ok h⟩

/-- The hypotheses are met: any memory that can always be had, no registrations. -/
example (e : ErrorValue) : (∀ n, n < 2 ^ 16 → ∃ v, (fun n => Except.ok (ε := Err) (MutView.mk false (List.replicate n 7#8))) n = .ok v) ∧
    firstFor (([] : List (BitVec 64 × D)).take 128) e.domain = none := ⟨fun _ _ => ⟨_, rfl⟩, rfl⟩
example : firstFor ([(1#64, 5), (1#64, 6)].take 128) 1#64 = some 5 := by decide

end Solace.ErrorValue

namespace Solace.Output
open DialString StringView Strings Atom
variable {D : Type}

/-- **C82**, errors (exactly): for every history of registrations and every id: name, code and message with colons between, and
the tag if there is one. The domain is the one the id was registered with first, among the first 128 registrations; without one
the name is that of the id and the message is empty. -/
theorem C82_error_exact (name : D → List Byte) (message : D → BitVec 32 → List Byte) (decimal : Int → List Byte)
    (rs : List (BitVec 64 × D)) (e : ErrorValue) :
    error name message decimal (ErrorDomains.run ErrorDomains.registry rs).1 e =
      .ok (List.intercalate [0x3A#8]
        ([((ErrorDomains.firstFor (rs.take 128) e.domain).map name).getD (nameOf e.domain), decimal e.code.toInt,
          ((ErrorDomains.firstFor (rs.take 128) e.domain).map fun d => message d e.code).getD []] ++
          if e.tag = [] then [] else [e.tag])) := by
  rw [error, (ErrorDomains.C66_every_history rs e.domain).1, Outcome.bind_ok]
  have hc : chars (toBuffer e.domain) = nameOf e.domain := cString_toBuffer e.domain
  obtain ⟨code, domain, tag⟩ := e
  cases ErrorDomains.firstFor (rs.take 128) domain <;> cases tag <;> simp_all [List.intercalate, List.intersperse]

/-- **C82**, dial strings (exactly when): whatever text with a colon is accepted, what is printed is read back as the same dial
string if and only if the protocol, taken up to its first NUL, does not end in white space. Texts without a colon: `C82_plain_dial`. -/
theorem C82_dial_iff (data : List Byte) (hl : data.length < 2 ^ 16) (fuel : Nat) (hf : data.length < fuel)
    (p q : List Byte) (rest : List (List Byte)) (hp : IsSplit [0x3A#8] data (p :: q :: rest))
    (ds : Dial) (hds : parse fuel data = some (.ok ds))
    (hpl : (dial ds).length < 2 ^ 16) (fuel' : Nat) (hf' : (dial ds).length < fuel') :
    parse fuel' (dial ds) = some (.ok ds) ↔ ∀ c, (counted (trim p)).getLast? = some c → isSpace c = false := by
  obtain ⟨h1, h2, _⟩ := C41_parse data hl fuel hf _ hp
  have hne : data ≠ [] := by intro h; rw [h1 h] at hds; cases hds
  rw [h2 hne] at hds
  have hds := Option.some.inj hds
  rw [meaning_colon] at hds
  have hnc : ∀ x ∈ p :: q :: rest, 0x3A#8 ∉ x := fun x hx hm => by
    obtain ⟨i, hi⟩ := (occursAt_single _ _).mpr hm
    exact isSplit_no_delim (by simp) hp x hx i hi
  cases ht : tryParse (trim p) with
  | error e => rw [ht] at hds; cases hds
  | ok a =>
    rw [ht] at hds
    have hds := Except.ok.inj hds
    have hle : (trim p).length ≤ 8 := by
      apply Classical.byContradiction
      intro h
      obtain ⟨e, he⟩ := (C40_rejects (trim p)).mpr (by omega)
      rw [he] at ht
      cases ht
    have hcl := counted_le (trim p)
    have hkl : (canon (counted (trim p))).length = (counted (trim p)).length := canon_length _
    have htl : (trim (canon (counted (trim p)))).length ≤ (canon (counted (trim p))).length := by
      obtain ⟨x, y, h, _⟩ := (C26_trim (canon (counted (trim p))) _).mpr rfl
      have := congrArg List.length h
      simp only [List.length_append] at this
      omega
    obtain ⟨a', b', ha1, hb1, ha2, ha3, hab, _⟩ :=
      C40_exact (trim p) (trim (canon (counted (trim p)))) hle (by omega)
    rw [ht] at ha1
    cases ha1
    generalize hsv : serviceOf rest = sv at hds
    have hsv1 : 0x3A#8 ∉ sv ∧ trim sv = sv := by
      match rest, hsv, hnc with
      | [], hsv, _ => subst hsv; exact ⟨List.not_mem_nil, rfl⟩
      | r :: _, hsv, hnc => subst hsv; exact ⟨fun h => hnc r (by simp) (trim_mem r _ h), trim_idem r⟩
    have hqc : 0x3A#8 ∉ trim q := fun h => hnc q (by simp) (trim_mem q _ h)
    have hcc : 0x3A#8 ∉ canon (counted (trim p)) := by
      intro h
      rcases canonFrom_mem _ _ _ h with h | h | h
      · cases h
      · exact hnc p (by simp) (trim_mem p _ (counted_mem _ _ h))
      · exact absurd h (by decide)
    have hch : chars (toBuffer a) = canon (counted (trim p)) := ha2
    have hparse : parse fuel' (dial ds) = some (.ok ⟨b', trim q, sv⟩) := by
      subst hds
      by_cases hs0 : sv = []
      · subst hs0
        have hd : dial ⟨a, trim q, []⟩ = canon (counted (trim p)) ++ 0x3A#8 :: trim q := by simp [dial, hch]
        rw [hd] at hpl hf' ⊢
        rw [parse_two _ _ hcc hqc fuel' hpl hf', hb1, trim_idem]
        rfl
      · have hd : dial ⟨a, trim q, sv⟩ = canon (counted (trim p)) ++ 0x3A#8 :: (trim q ++ 0x3A#8 :: sv) := by
          simp [dial, hch, hs0]
        rw [hd] at hpl hf' ⊢
        rw [parse_three _ _ _ hcc hqc hsv1.1 fuel' hpl hf', hb1, trim_idem, hsv1.2]
        rfl
    rw [hparse, ← hds, ← canon_trim_iff]
    constructor
    · intro h
      have hba : a = b' := by
        have h := Except.ok.inj (Option.some.inj h)
        exact (congrArg Dial.protocol h).symm
      have h3 := hab.1 hba
      have hl3 := congrArg List.length h3
      rw [canon_length, canon_length] at hl3
      have hc2 := counted_le (trim (canon (counted (trim p))))
      obtain ⟨x, y, h, _⟩ := (C26_trim (canon (counted (trim p))) _).mpr rfl
      have h4 := congrArg List.length h
      simp only [List.length_append] at h4
      have hx : x = [] := List.eq_nil_of_length_eq_zero (by omega)
      have hy : y = [] := List.eq_nil_of_length_eq_zero (by omega)
      rw [hx, hy, List.append_nil, List.nil_append] at h
      exact h.symm
    · intro h
      rw [h, ← ha2, ha3] at hb1
      cases hb1
      rfl

/-- The text `"a:b"` is one of these, and so is one with a NUL after white space in the protocol. -/
example : IsSplit [0x3A#8] [0x61#8, 0x3A#8, 0x62#8] [[0x61#8], [0x62#8]] :=
  isSplit_two [0x61#8] [0x62#8] (by decide) (by decide)
example : (counted (trim [0x61#8, 0x20#8, 0#8, 0x62#8])).getLast? = some 0x20#8 ∧ isSpace 0x20#8 = true := by decide

/-- **C82**, optionals (exactly): provided different values are printed differently, two optionals are printed alike if and only
if they are equal, or one is empty and the other holds a value printed as `None`. -/
theorem C82_optional_iff {α : Type} (text : α → List Byte) (hi : ∀ x y, text x = text y → x = y) (a b : Option α) :
    optional text a = optional text b ↔ a = b ∨
      (a = none ∧ ∃ x, b = some x ∧ text x = [0x4E#8, 0x6F#8, 0x6E#8, 0x65#8]) ∨
      (b = none ∧ ∃ x, a = some x ∧ text x = [0x4E#8, 0x6F#8, 0x6E#8, 0x65#8]) := by
  cases a with
  | none =>
    cases b with
    | none => simp
    | some y => simp [optional, eq_comm]
  | some x =>
    cases b with
    | none => simp [optional]
    | some y => simp only [optional, Option.some.injEq, reduceCtorEq, false_and, or_false]; exact ⟨hi x y, fun h => by rw [h]⟩

example : error (D := Unit) (fun _ => [0x64#8]) (fun _ _ => [0x6D#8]) (fun _ => [0x37#8])
    (ErrorDomains.run ErrorDomains.registry []).1 ⟨7#32, 0x6162_0000_0000_0000#64, [0x74#8]⟩ =
      .ok [0x61#8, 0x62#8, 0x3A#8, 0x37#8, 0x3A#8, 0x3A#8, 0x74#8] := by
  rw [C82_error_exact]; decide

end Solace.Output
