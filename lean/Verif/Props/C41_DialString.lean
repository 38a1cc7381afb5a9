import Verif.Props.C40_Atom
import Verif.Props.C21_C28_StringView
/-
C41: dial strings.
-/
namespace Solace.DialString
open Strings StringView Atom

/-- The service: the first piece, if any, trimmed. -/
def serviceOf : List (List Byte) → List Byte
  | [] => []
  | r :: _ => trim r

/-- The protocol, if it is an atom, with the address and the service. -/
def withProtocol (protocol : Except Err (BitVec 64)) (address service : List Byte) : Except Err Dial :=
  match protocol with
  | .error _ => .error .invalidInput
  | .ok a => .ok ⟨a, address, service⟩

/-- What a text means: without a colon all of it is the address; otherwise the first piece is the protocol, the second
the address and the third, if any, the service, each trimmed. -/
def meaning (data : List Byte) : List (List Byte) → Except Err Dial
  | p :: q :: rest => withProtocol (tryParse (trim p)) (trim q) (serviceOf rest)
  | _ => .ok ⟨0#64, data, []⟩

theorem meaning_colon (data p q : List Byte) (rest : List (List Byte)) :
    meaning data (p :: q :: rest) = withProtocol (tryParse (trim p)) (trim q) (serviceOf rest) := rfl

theorem fold_error (cs : List (List Byte × Nat × Nat)) (e : Err) :
    cs.foldl (fun r c => onPiece r c.1 c.2.1) (.error e) = .error e := by
  induction cs with
  | nil => rfl
  | cons c cs ih => rw [List.foldl_cons]; exact ih

theorem fold_extra (ps : List (List Byte)) (n : Nat) : ∀ (i : Nat) (ds : Dial), 3 ≤ i →
    (number i n ps).foldl (fun r c => onPiece r c.1 c.2.1) (.ok ds) = .ok ds := by
  induction ps with
  | nil => intro i ds _; rfl
  | cons p ps ih =>
    intro i ds hi
    have h : onPiece (.ok ds) p i = .ok ds := by
      simp only [onPiece]
      rw [if_neg (by omega), if_neg (by omega), if_neg (by omega)]
    rw [number, List.foldl_cons]
    simp only
    rw [h, ih (i + 1) ds (by omega)]

theorem fold_meaning (data : List Byte) (p q : List Byte) (rest : List (List Byte)) (n : Nat) :
    (number 0 n (p :: q :: rest)).foldl (fun r c => onPiece r c.1 c.2.1) (.ok ⟨0#64, data, []⟩) =
      meaning data (p :: q :: rest) := by
  have h0 : onPiece (.ok ⟨0#64, data, []⟩) p 0 = withProtocol (tryParse (trim p)) data [] := by
    simp only [onPiece, if_true]
    cases tryParse (trim p) <;> rfl
  rw [number, List.foldl_cons]
  simp only
  rw [h0, meaning_colon]
  cases tryParse (trim p) with
  | error e => exact fold_error _ _
  | ok a =>
    rw [withProtocol, withProtocol]
    have h1 : onPiece (.ok ⟨a, data, []⟩) q 1 = .ok ⟨a, trim q, []⟩ := by simp [onPiece]
    rw [number, List.foldl_cons]
    simp only [Nat.zero_add]
    rw [h1]
    match rest with
    | [] => rfl
    | r :: rest =>
      have h2 : onPiece (.ok ⟨a, trim q, []⟩) r 2 = .ok ⟨a, trim q, trim r⟩ := by simp [onPiece]
      rw [number, List.foldl_cons]
      simp only [Nat.reduceAdd]
      rw [h2, fold_extra _ _ 3 _ (Nat.le_refl _)]
      rfl

theorem colon_iff (data : List Byte) : (indexOfChar data 0x3A#8 0).isSome ↔ 0x3A#8 ∈ data := by
  have h := (C24_indexOf_char data 0x3A#8 0).2
  cases hi : indexOfChar data 0x3A#8 0 with
  | none =>
    simp only [Option.isSome_none, Bool.false_eq_true, false_iff]
    intro hm
    obtain ⟨l, hl⟩ := List.mem_iff_getElem?.mp hm
    exact h.mp hi l (Nat.zero_le _) hl
  | some j =>
    simp only [Option.isSome_some, true_iff]
    exact List.mem_iff_getElem?.mpr ⟨j, ((C24_indexOf_char data 0x3A#8 0).1 j |>.mp hi).2.1⟩

theorem occursAt_single (c : Byte) (s : List Byte) : (∃ i, OccursAt [c] s i) ↔ c ∈ s := by
  constructor
  · rintro ⟨i, a, b, rfl, _⟩; simp
  · intro h
    obtain ⟨a, b, rfl⟩ := List.append_of_mem h
    exact ⟨a.length, a, b, by simp, rfl⟩

/-- **C41** (full): for every text other than the empty one, split around its colons, the result is the meaning above;
exactly the empty text and texts with a colon whose trimmed first piece has more than 8 characters are rejected. -/
theorem C41_parse (data : List Byte) (hl : data.length < 2 ^ 16) (fuel : Nat) (hf : data.length < fuel)
    (ps : List (List Byte)) (hp : IsSplit [0x3A#8] data ps) :
    (data = [] → parse fuel data = some (.error .invalidInput)) ∧
    (data ≠ [] → parse fuel data = some (meaning data ps)) ∧
    ((∃ e, parse fuel data = some (.error e)) ↔ data = [] ∨ ∃ p q rest, ps = p :: q :: rest ∧ 8 < (trim p).length) := by
  have h1 : data = [] → parse fuel data = some (.error .invalidInput) := by rintro rfl; rfl
  have h2 : data ≠ [] → parse fuel data = some (meaning data ps) := by
    intro hne
    rw [parse, if_neg (by simpa using hne)]
    have hatom : Atom.atom [] = 0#64 := by decide
    simp only [hatom]
    by_cases hc : 0x3A#8 ∈ data
    · rw [if_pos ((colon_iff data).mpr hc), split3_eq data _ (by simp) hl fuel hf]
      simp only
      rw [isSplit_unique (scan_spec _ data (by simp)) hp]
      match ps, hp with
      | [], hp => exact hp.elim
      | [p], hp =>
        obtain ⟨rfl, hn⟩ := hp
        obtain ⟨i, hi⟩ := (occursAt_single _ _).mpr hc
        exact absurd hi (hn i)
      | p :: q :: rest, _ => rw [fold_meaning]
    · rw [if_neg (by rw [colon_iff]; exact hc)]
      match ps, hp with
      | [], hp => exact hp.elim
      | [p], _ => rfl
      | p :: q :: rest, hp =>
        obtain ⟨t, rfl, _⟩ := hp
        exact absurd (by simp) hc
  refine ⟨h1, h2, ?_⟩
  by_cases hne : data = []
  · exact ⟨fun _ => .inl hne, fun _ => ⟨_, h1 hne⟩⟩
  · rw [h2 hne]
    constructor
    · rintro ⟨e, he⟩
      right
      match ps, he with
      | [], he => cases he
      | [_], he => cases he
      | p :: q :: rest, he =>
        refine ⟨p, q, rest, rfl, ?_⟩
        rw [meaning_colon] at he
        cases ht : tryParse (trim p) with
        | ok a => rw [ht] at he; cases he
        | error e => exact (C40_rejects _).mp ⟨e, ht⟩
    · rintro (h | ⟨p, q, rest, rfl, h⟩)
      · exact absurd h hne
      · obtain ⟨e, he⟩ := (C40_rejects _).mpr h
        exact ⟨.invalidInput, by rw [meaning_colon, he]; rfl⟩

/-- The text of a dial string: the address alone when there is nothing else, otherwise the three parts. -/
def print (ds : Dial) : List Byte :=
  if ds.protocol = 0#64 ∧ ds.service = [] ∧ ds.address ≠ [] ∧ 0x3A#8 ∉ ds.address then ds.address
  else cString (toBuffer ds.protocol) ++ 0x3A#8 :: (ds.address ++ 0x3A#8 :: ds.service)

theorem trim_idem (s : List Byte) : trim (trim s) = trim s := (C26_trim_idempotent s 0).1

theorem trim_mem (s : List Byte) : ∀ c ∈ trim s, c ∈ s := by
  obtain ⟨a, b, h, _⟩ := (C26_trim s (trim s)).mpr rfl
  intro c hc
  rw [h]
  simp [hc]

theorem trim_self (s : List Byte) (h1 : ∀ c, s.head? = some c → isSpace c = false)
    (h2 : ∀ c, s.getLast? = some c → isSpace c = false) : trim s = s :=
  ((C26_trim s s).mp ⟨[], [], by simp, by simp, by simp, h1, h2⟩).symm

theorem trim_canon (s : List Byte) : trim (canon (trim s)) = canon (trim s) := by
  obtain ⟨_, _, _, _, _, h1, h2⟩ := (C26_trim s (trim s)).mpr rfl
  apply trim_self
  · intro c hc
    rcases canon_head _ c hc with h | h
    · exact h1 c h
    · rw [h]; decide
  · intro c hc
    by_cases he : trim s = []
    · rw [he] at hc; cases hc
    · rw [canon, canonFrom_last _ he] at hc
      exact h2 c hc

theorem isSplit_three (p q r : List Byte) (hp : 0x3A#8 ∉ p) (hq : 0x3A#8 ∉ q) (hr : 0x3A#8 ∉ r) :
    IsSplit [0x3A#8] (p ++ 0x3A#8 :: (q ++ 0x3A#8 :: r)) [p, q, r] := by
  have ends : ∀ p : List Byte, 0x3A#8 ∉ p → EndsAtFirst [0x3A#8] p := by
    intro p hp i h
    obtain ⟨a, b, h, rfl⟩ := h
    apply Classical.byContradiction
    intro hlt
    have hlt : a.length < p.length := by omega
    apply hp
    have h1 : (p ++ [0x3A#8])[a.length]? = some 0x3A#8 := by
      rw [h, List.append_assoc, List.getElem?_append_right (by omega)]; simp
    rw [List.getElem?_append_left hlt] at h1
    exact List.mem_iff_getElem?.mpr ⟨_, h1⟩
  refine ⟨q ++ 0x3A#8 :: r, by simp, ends p hp, r, by simp, ends q hq, rfl, ?_⟩
  intro i h
  exact hr ((occursAt_single _ _).mp ⟨i, h⟩)

/-- **C41** (partial): whenever a text is accepted and its protocol part has no NUL characters, printing the result and
parsing it again gives the same result. Missing: NULs in the protocol, see below. -/
theorem C41_round_trip_partial (data : List Byte) (hl : data.length < 2 ^ 16) (fuel : Nat) (hf : data.length < fuel)
    (ps : List (List Byte)) (hp : IsSplit [0x3A#8] data ps)
    (h0 : ∀ p q rest, ps = p :: q :: rest → 0#8 ∉ trim p) (ds : Dial) (hds : parse fuel data = some (.ok ds))
    (hpl : (print ds).length < 2 ^ 16) (fuel' : Nat) (hf' : (print ds).length < fuel') :
    parse fuel' (print ds) = some (.ok ds) := by
  obtain ⟨h1, h2, _⟩ := C41_parse data hl fuel hf ps hp
  have hne : data ≠ [] := by intro h; rw [h1 h] at hds; cases hds
  rw [h2 hne] at hds
  have hds := Option.some.inj hds
  have plain : ∀ a : List Byte, a ≠ [] → 0x3A#8 ∉ a → a.length < 2 ^ 16 → ∀ f, a.length < f →
      parse f a = some (.ok ⟨0#64, a, []⟩) := by
    intro a ha hc hal f hf
    have hs : IsSplit [0x3A#8] a [a] := ⟨rfl, fun i h => hc ((occursAt_single _ _).mp ⟨i, h⟩)⟩
    rw [(C41_parse a hal f hf [a] hs).2.1 ha]
    rfl
  match ps, hp, h0, hds with
  | [], hp, _, _ => exact hp.elim
  | [p], hp, _, hds =>
    obtain ⟨rfl, hn⟩ := hp
    have hds : ds = ⟨0#64, data, []⟩ := (Except.ok.inj hds).symm
    subst hds
    have hc : 0x3A#8 ∉ data := fun h => by
      obtain ⟨i, hi⟩ := (occursAt_single _ _).mpr h
      exact hn i hi
    rw [print, if_pos ⟨rfl, rfl, hne, hc⟩] at hpl hf' ⊢
    exact plain data hne hc hpl _ hf'
  | p :: q :: rest, hp, h0, hds =>
    rw [meaning_colon] at hds
    have hnc : ∀ x ∈ p :: q :: rest, 0x3A#8 ∉ x := fun x hx hm => by
      obtain ⟨i, hi⟩ := (occursAt_single _ _).mpr hm
      exact isSplit_no_delim (by simp) hp x hx i hi
    have h0 := h0 p q rest rfl
    cases ht : tryParse (trim p) with
    | error e => rw [ht] at hds; cases hds
    | ok a =>
      rw [ht] at hds
      have hds := Except.ok.inj hds
      have hle : (trim p).length ≤ 8 := by
        apply Classical.byContradiction
        intro h
        obtain ⟨e, he⟩ := (C40_rejects (trim p)).mpr (by omega)
        rw [he] at ht
        cases ht
      obtain ⟨a', ha1, ha2, ha3⟩ := C40_any_string (trim p) hle (fun c hc h => h0 (h ▸ hc))
      rw [ht] at ha1
      cases ha1
      generalize hsv : serviceOf rest = sv at hds
      have hsv1 : 0x3A#8 ∉ sv ∧ trim sv = sv := by
        match rest, hsv, hnc with
        | [], hsv, _ => subst hsv; exact ⟨List.not_mem_nil, rfl⟩
        | r :: _, hsv, hnc => subst hsv; exact ⟨fun h => hnc r (by simp) (trim_mem r _ h), trim_idem r⟩
      have hpro : ds.protocol = a := by rw [← hds]
      have hadr : ds.address = trim q := by rw [← hds]
      have hser : ds.service = sv := by rw [← hds]
      have hqc : 0x3A#8 ∉ trim q := fun h => hnc q (by simp) (trim_mem q _ h)
      rw [print] at hpl hf' ⊢
      split at hpl
      · rename_i hcond
        rw [if_pos hcond] at hf' ⊢
        rw [plain _ hcond.2.2.1 hcond.2.2.2 hpl _ hf']
        obtain ⟨c1, c2, _⟩ := hcond
        rw [← c1, ← c2]
      · rename_i hcond
        rw [if_neg hcond] at hf' ⊢
        rw [hpro, hadr, hser, ha2] at hpl hf' ⊢
        have hcc : 0x3A#8 ∉ canon (trim p) := by
          intro h
          rcases canonFrom_mem _ _ _ h with h | h | h
          · cases h
          · exact hnc p (by simp) (trim_mem p _ h)
          · exact absurd h (by decide)
        have hs := isSplit_three _ _ _ hcc hqc hsv1.1
        have hne' : canon (trim p) ++ 0x3A#8 :: (trim q ++ 0x3A#8 :: sv) ≠ [] := by
          intro h; have := congrArg List.length h; rw [List.length_append, List.length_cons, List.length_nil] at this; omega
        rw [(C41_parse _ hpl _ hf' _ hs).2.1 hne', meaning_colon, trim_canon, ← ha2, ha3, trim_idem, serviceOf, hsv1.2, ← hds]
        rfl

/-- **C41, negation**: with a NUL in it the protocol "ab\0x" is the atom "ab " which is not the one parsed back. -/
theorem C41_nul_negation : ∃ ds ds', parse 20 [0x61#8, 0x20#8, 0#8, 0x78#8, 0x3A#8, 0x63#8] = some (.ok ds) ∧
    parse 20 (print ds) = some (.ok ds') ∧ ds ≠ ds' := by
  refine ⟨⟨0x6120000000000000#64, [0x63#8], []⟩, ⟨0x6100000000000000#64, [0x63#8], []⟩, ?_, ?_, ?_⟩ <;> decide +kernel

example : parse 30 ("tcp: example :http".toList.map fun c => BitVec.ofNat 8 c.toNat) =
    some (.ok ⟨atom [0x74#8, 0x63#8, 0x70#8], "example".toList.map fun c => BitVec.ofNat 8 c.toNat,
      "http".toList.map fun c => BitVec.ofNat 8 c.toNat⟩) := by decide +kernel
example : IsSplit [0x3A#8] [0x61#8, 0x3A#8, 0x62#8, 0x3A#8, 0x63#8] [[0x61#8], [0x62#8], [0x63#8]] :=
  isSplit_three [0x61#8] [0x62#8] [0x63#8] (by decide) (by decide) (by decide)

end Solace.DialString
