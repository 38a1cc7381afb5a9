import Verif.Model.Output
import Verif.Lemmas.Base16
import Verif.Props.C41_DialString
import Verif.Props.C66_ErrorDomain
/-
C82: printed values. A value can be recovered from what is printed.
-/
namespace Solace.Output
open DialString StringView Strings Atom

/-! ### Memory and digests -/

theorem fold_append (f : List Byte → List Byte) (ps : List (List Byte)) : ∀ out,
    ps.foldl (fun out p => out ++ f p) out = out ++ ps.flatMap f := by
  induction ps with
  | nil => intro out; simp
  | cons p ps ih => intro out; rw [List.foldl_cons, ih]; simp

theorem encodeIter_map (v : List Byte) : Base16.encodeIter v = v.map Base16.hexPair := by
  induction v with
  | nil => rfl
  | cons b v ih => rw [Base16.encodeIter, ih]; rfl

theorem memoryView_eq (v : List Byte) (h : v ≠ []) : memoryView v = Hex.text v := by
  have hl : v.length ≠ 0 := fun h' => h (List.length_eq_zero_iff.1 h')
  rw [memoryView, if_neg hl, encodeIter_map, fold_append (fun p => p), List.nil_append, ← Base16.text_eq]
  rw [List.flatMap_map, List.flatMap_def]

theorem value_digit (n : Nat) (h : n < 16) : Hex.value (Hex.digit n) = some n := by
  revert n; decide +kernel

theorem parse_text (v : List Byte) : Hex.parse (Hex.text v) = some v := by
  induction v with
  | nil => rfl
  | cons b v ih =>
    have hb := b.isLt
    have : Hex.text (b :: v) = Hex.digit (b.toNat / 16) :: Hex.digit (b.toNat % 16) :: Hex.text v := rfl
    rw [this, Hex.parse, value_digit _ (by omega), value_digit _ (by omega), ih]
    simp only
    congr 2
    apply BitVec.eq_of_toNat_eq
    rw [BitVec.toNat_ofNat]
    omega

/-- **C82**, memory: a view that is not empty is printed as its hexadecimal text, from which it can be read back; different
views are printed differently, the empty one included. -/
theorem C82_memoryView (v w : List Byte) :
    (v ≠ [] → memoryView v = Hex.text v ∧ Hex.parse (memoryView v) = some v) ∧ (memoryView v = memoryView w ↔ v = w) := by
  refine ⟨fun h => ⟨memoryView_eq v h, by rw [memoryView_eq v h, parse_text]⟩, fun h => ?_, fun h => by rw [h]⟩
  have key : ∀ v, v ≠ [] → memoryView v ≠ memoryView [] := by
    intro v hv he
    have h1 := parse_text v
    rw [← memoryView_eq v hv, he] at h1
    have h2 : Hex.parse (memoryView []) = none := by decide +kernel
    rw [h2] at h1
    cases h1
  by_cases hv : v = []
  · by_cases hw : w = []
    · rw [hv, hw]
    · rw [hv] at h; exact absurd h.symm (key w hw)
  · by_cases hw : w = []
    · rw [hw] at h; exact absurd h (key v hv)
    · have := congrArg Hex.parse h
      rw [memoryView_eq v hv, memoryView_eq w hw, parse_text, parse_text] at this
      exact Option.some.inj this

/-- The text of a digest: in brackets, each byte as `0x` and two digits. -/
def digestText (d : List Byte) : List Byte :=
  [0x5B#8] ++ (d.flatMap fun b => [0x30#8, 0x78#8, Hex.digit (b.toNat / 16), Hex.digit (b.toNat % 16)]) ++ [0x5D#8]

theorem digest_eq (d : List Byte) : digest d = digestText d := by
  have : ∀ ps out, List.foldl (fun (out piece : List Byte) => out ++ [0x30#8, 0x78#8] ++ piece) out ps =
      List.foldl (fun (out piece : List Byte) => out ++ ([0x30#8, 0x78#8] ++ piece)) out ps := by
    intro ps out
    congr 1
    funext a b
    rw [List.append_assoc]
  rw [digest, this, fold_append (fun p => [0x30#8, 0x78#8] ++ p), encodeIter_map, List.flatMap_map, digestText]
  congr 3
  funext b
  rw [Base16.hexPair_eq]
  rfl

theorem digestText_inj (d e : List Byte) (h : digestText d = digestText e) : d = e := by
  unfold digestText at h
  replace h := List.append_cancel_left (List.append_cancel_right h)
  induction d generalizing e with
  | nil =>
    cases e with
    | nil => rfl
    | cons b e => simp at h
  | cons a d ih =>
    cases e with
    | nil => simp at h
    | cons b e =>
      simp only [List.flatMap_cons, List.cons_append, List.nil_append, List.cons.injEq, true_and] at h
      obtain ⟨h1, h2, h3⟩ := h
      have ha := a.isLt
      have hb := b.isLt
      have g1 := congrArg Hex.value h1
      have g2 := congrArg Hex.value h2
      rw [value_digit _ (by omega), value_digit _ (by omega)] at g1 g2
      have g1 := Option.some.inj g1
      have g2 := Option.some.inj g2
      rw [ih e h3, BitVec.eq_of_toNat_eq (show a.toNat = b.toNat by omega)]

/-- **C82**, digests: the text is the bracketed list of bytes, and different digests are printed differently. -/
theorem C82_digest (d e : List Byte) : digest d = digestText d ∧ (digest d = digest e ↔ d = e) :=
  ⟨digest_eq d, fun h => digestText_inj d e (by rwa [digest_eq, digest_eq] at h), fun h => by rw [h]⟩

/-! ### Dial strings -/

theorem isSplit_two (p q : List Byte) (hp : 0x3A#8 ∉ p) (hq : 0x3A#8 ∉ q) : IsSplit [0x3A#8] (p ++ 0x3A#8 :: q) [p, q] := by
  have h3 := isSplit_three p q [] hp hq List.not_mem_nil
  obtain ⟨t, h1, h2, -⟩ := h3
  refine ⟨q, by simp, h2, rfl, fun i h => hq ((occursAt_single _ _).mp ⟨i, h⟩)⟩

/-- Parsing `p:q` and `p:q:r` for parts without colons. -/
theorem parse_two (p q : List Byte) (hp : 0x3A#8 ∉ p) (hq : 0x3A#8 ∉ q) (fuel : Nat)
    (hl : (p ++ 0x3A#8 :: q).length < 2 ^ 16) (hf : (p ++ 0x3A#8 :: q).length < fuel) :
    parse fuel (p ++ 0x3A#8 :: q) = some (withProtocol (tryParse (trim p)) (trim q) []) := by
  rw [(C41_parse _ hl fuel hf _ (isSplit_two p q hp hq)).2.1 (by simp)]
  rfl

theorem parse_three (p q r : List Byte) (hp : 0x3A#8 ∉ p) (hq : 0x3A#8 ∉ q) (hr : 0x3A#8 ∉ r) (fuel : Nat)
    (hl : (p ++ 0x3A#8 :: (q ++ 0x3A#8 :: r)).length < 2 ^ 16) (hf : (p ++ 0x3A#8 :: (q ++ 0x3A#8 :: r)).length < fuel) :
    parse fuel (p ++ 0x3A#8 :: (q ++ 0x3A#8 :: r)) = some (withProtocol (tryParse (trim p)) (trim q) (trim r)) := by
  rw [(C41_parse _ hl fuel hf _ (isSplit_three p q r hp hq hr)).2.1 (by simp)]
  rfl

/-- A part that can be printed and read back: no colon in it and no space at its ends. -/
def Plain (s : List Byte) : Prop :=
  0x3A#8 ∉ s ∧ (∀ c, s.head? = some c → isSpace c = false) ∧ (∀ c, s.getLast? = some c → isSpace c = false)

theorem Plain.trim_eq {s : List Byte} (h : Plain s) : trim s = s := trim_self s h.2.1 h.2.2

theorem plain_of_trim {s : List Byte} (hc : 0x3A#8 ∉ s) (ht : trim s = s) : Plain s := by
  obtain ⟨_, _, _, _, _, h1, h2⟩ := (C26_trim s (trim s)).mpr rfl
  rw [ht] at h1 h2
  exact ⟨hc, h1, h2⟩

/-- **C82**, dial strings: a dial string whose protocol is the atom of a name without colons, NULs or spaces at its ends (a name
that atoms can hold), and whose address and service have no colon and no space at their ends, is read back from what is
printed. -/
theorem C82_dial_partial (name : List Byte) (hn : Storable name) (hp : Plain name) (a : BitVec 64) (ha : tryParse name = .ok a)
    (address service : List Byte) (h1 : Plain address) (h2 : Plain service)
    (hl : (dial ⟨a, address, service⟩).length < 2 ^ 16) (fuel : Nat) (hf : (dial ⟨a, address, service⟩).length < fuel) :
    parse fuel (dial ⟨a, address, service⟩) = some (.ok ⟨a, address, service⟩) := by
  obtain ⟨a', -, g1, -, -, -, g2, -⟩ := C40_atoms_partial name name hn hn
  rw [ha] at g1
  cases g1
  have g2 : chars (toBuffer a) = name := g2
  by_cases hs : service = []
  · subst hs
    have e : dial ⟨a, address, []⟩ = name ++ 0x3A#8 :: address := by simp [dial, g2]
    rw [e] at hl hf ⊢
    rw [parse_two _ _ hp.1 h1.1 fuel hl hf, hp.trim_eq, h1.trim_eq, ha]
    rfl
  · have hsl : service.length ≠ 0 := fun h' => hs (List.length_eq_zero_iff.1 h')
    have e : dial ⟨a, address, service⟩ = name ++ 0x3A#8 :: (address ++ 0x3A#8 :: service) := by simp [dial, g2, hsl]
    rw [e] at hl hf ⊢
    rw [parse_three _ _ _ hp.1 h1.1 h2.1 fuel hl hf, hp.trim_eq, h1.trim_eq, h2.trim_eq, ha]
    rfl

theorem chars_zero : chars (toBuffer 0#64) = [] := by decide +kernel
theorem tryParse_nil : tryParse [] = .ok 0#64 := by decide +kernel

/-- **C82**, dial strings without a colon: exactly those with a space at an end are not read back from what is printed. -/
theorem C82_plain_dial (data : List Byte) (hne : data ≠ []) (hc : 0x3A#8 ∉ data) (hl : data.length + 1 < 2 ^ 16) (fuel : Nat)
    (hf : data.length + 1 < fuel) :
    ∃ ds, parse fuel data = some (.ok ds) ∧
      (parse fuel (dial ds) = some (.ok ds) ↔ (∀ c, data.head? = some c → isSpace c = false) ∧
        ∀ c, data.getLast? = some c → isSpace c = false) := by
  have hs : IsSplit [0x3A#8] data [data] := ⟨rfl, fun i h => hc ((occursAt_single _ _).mp ⟨i, h⟩)⟩
  refine ⟨⟨0#64, data, []⟩, ?_, ?_⟩
  · rw [(C41_parse data (by omega) fuel (by omega) [data] hs).2.1 hne]
    rfl
  · have e : dial ⟨0#64, data, []⟩ = [] ++ 0x3A#8 :: data := by simp [dial, chars_zero]
    have htn : trim [] = [] := by decide
    rw [e, parse_two _ _ List.not_mem_nil hc fuel (by simpa using hl) (by simpa using hf), htn, tryParse_nil]
    simp only [withProtocol, Option.some.injEq, Except.ok.injEq, Dial.mk.injEq, true_and, and_true]
    constructor
    · intro h; exact (plain_of_trim hc h).2
    · intro h; exact trim_self data h.1 h.2

/-- **C82, negation**: `" a"` is accepted, printed as `": a"`, and that is read as another dial string. -/
theorem C82_dial_negation : ∃ ds ds', parse 10 [0x20#8, 0x61#8] = some (.ok ds) ∧ parse 10 (dial ds) = some (.ok ds') ∧ ds ≠ ds' := by
  refine ⟨⟨0#64, [0x20#8, 0x61#8], []⟩, ⟨0#64, [0x61#8], []⟩, ?_, ?_, ?_⟩ <;> decide +kernel

/-! ### Errors -/

variable {D : Type}

/-- **C82**, errors of a registered domain: name, code and message with colons between, and the tag if there is one. -/
theorem C82_error_known_partial (name : D → List Byte) (message : D → BitVec 32 → List Byte) (decimal : Int → List Byte)
    (rs : List (BitVec 64 × D)) (hl : rs.length ≤ 128) (hn : (rs.map Prod.fst).Nodup) (code : BitVec 32) (id : BitVec 64) (d : D)
    (hm : (id, d) ∈ rs) (tag : List Byte) :
    error name message decimal (ErrorDomains.run ErrorDomains.registry rs).1 ⟨code, id, tag⟩ =
      .ok (List.intercalate [0x3A#8] ([name d, decimal code.toInt, message d code] ++ if tag = [] then [] else [tag])) := by
  rw [error, (ErrorDomains.C66_registered_partial rs hl hn).1 _ _ hm, Outcome.bind_ok]
  cases tag <;> simp [List.intercalate, List.intersperse]

/-- **C82**, errors of an unknown domain: the text of the domain's atom and the code, with an empty message. -/
theorem C82_error_unknown_partial (name : D → List Byte) (message : D → BitVec 32 → List Byte) (decimal : Int → List Byte)
    (rs : List (BitVec 64 × D)) (atomName : List Byte) (hs : Storable atomName) (id : BitVec 64) (hid : tryParse atomName = .ok id)
    (hm : ∀ d, (id, d) ∉ rs) (code : BitVec 32) (tag : List Byte) :
    error name message decimal (ErrorDomains.run ErrorDomains.registry rs).1 ⟨code, id, tag⟩ =
      .ok (List.intercalate [0x3A#8] ([atomName, decimal code.toInt, []] ++ if tag = [] then [] else [tag])) := by
  obtain ⟨id', -, h1, -, -, -, h2, -⟩ := C40_atoms_partial atomName atomName hs hs
  rw [hid] at h1
  cases h1
  have h2 : chars (toBuffer id) = atomName := h2
  rw [error, ErrorDomains.C66_unregistered rs id hm, Outcome.bind_ok]
  simp only [h2]
  cases tag <;> simp [List.intercalate, List.intersperse]

/-- **C82**, optionals: exactly when a value is printed as `None` can it not be told from no value. -/
theorem C82_optional {α : Type} (text : α → List Byte) (hi : ∀ x y, text x = text y → x = y) (a b : Option α)
    (h : optional text a = optional text b) : a = b ∨ ∃ x, text x = [0x4E#8, 0x6F#8, 0x6E#8, 0x65#8] := by
  cases a with
  | none =>
    cases b with
    | none => exact .inl rfl
    | some y => exact .inr ⟨y, h.symm⟩
  | some x =>
    cases b with
    | none => exact .inr ⟨x, h⟩
    | some y => exact .inl (by rw [hi x y h])

/-- **C82, negation**: an optional string holding `None` is printed like an empty optional. -/
theorem C82_optional_negation : ∃ a b : Option (List Byte), a ≠ b ∧ optional id a = optional id b :=
  ⟨none, some [0x4E#8, 0x6F#8, 0x6E#8, 0x65#8], by simp, rfl⟩

example : memoryView [0xAB#8, 0x01#8] = [0x61#8, 0x62#8, 0x30#8, 0x31#8] ∧ digest [0xAB#8] =
    [0x5B#8, 0x30#8, 0x78#8, 0x61#8, 0x62#8, 0x5D#8] := by decide +kernel
example : Storable [0x74#8, 0x63#8, 0x70#8] ∧ Plain [0x74#8, 0x63#8, 0x70#8] ∧ Plain [0x61#8, 0x20#8, 0x62#8] ∧ Plain [] ∧
    ¬Plain [0x61#8, 0x20#8] := by
  unfold Storable Plain; decide +kernel
example : dial ⟨atom [0x74#8, 0x63#8, 0x70#8], [0x61#8], [0x62#8]⟩ =
    [0x74#8, 0x63#8, 0x70#8, 0x3A#8, 0x61#8, 0x3A#8, 0x62#8] := by decide +kernel

/-- **C82**, memory: `<null>` is printed exactly for the empty view. -/
theorem C82_null (v : List Byte) : memoryView v = "<null>".toList.map (fun c => BitVec.ofNat 8 c.toNat) ↔ v = [] := by
  have e : memoryView [] = "<null>".toList.map (fun c => BitVec.ofNat 8 c.toNat) := by decide +kernel
  rw [← e]
  exact (C82_memoryView v []).2

end Solace.Output
