import Verif.Model.ErrorDomain
import Verif.Props.C47_Dictionary
import Verif.Props.C40_Atom
import Verif.Props.C29_C31_String
/-
C66: the registry of error domains. C76: `Error` values and their texts.

The specification: a history is a list of registrations `(id, domain)`. After it `id` stands for the domain it was
registered with.
-/
namespace Solace.ErrorDomains
variable {D : Type}

/-- A history of registrations, in order: the registry afterwards and what the calls returned. -/
def run : Dict (BitVec 64) D → List (BitVec 64 × D) → Dict (BitVec 64) D × List (Outcome Nat)
  | m, [] => (m, [])
  | m, r :: rs => ((run (register m r.1 r.2).1 rs).1, (register m r.1 r.2).2 :: (run (register m r.1 r.2).1 rs).2)

/-- Specification: the domain of the first registration of an id. -/
def firstFor : List (BitVec 64 × D) → BitVec 64 → Option D
  | [], _ => none
  | r :: rs, id => if r.1 = id then some r.2 else firstFor rs id

theorem room_registry : Dict.room 8 8 (registry : Dict (BitVec 64) D) = 128 := by
  show min (128 * 8 / 8) (128 * 8 / 8) = 128
  omega

theorem register_spec {m : Dict (BitVec 64) D} {es : List (BitVec 64 × D)} (h : Dict.Entries 8 8 m es)
    (hr : Dict.room 8 8 m = 128) (id : BitVec 64) (d : D) :
    ∃ m', register m id d = (m', .ok (min (es.length + 1) 128)) ∧
      Dict.Entries 8 8 m' ((es ++ [(id, d)]).take 128) ∧ Dict.room 8 8 m' = 128 := by
  have hfit := Dict.fits_room h
  by_cases hl : es.length < 128
  · obtain ⟨m', h1, h2, h3⟩ := Dict.put_room h id d (by omega)
    refine ⟨m', ?_, ?_, by rw [h3, hr]⟩
    · rw [register, h1]
      have hn := h2.2.next
      rw [List.length_map, List.length_append, List.length_singleton] at hn
      simp only
      rw [hn, wrap32_of_lt (by omega), Nat.min_eq_left (by omega)]
    · rwa [List.take_of_length_le (by rw [List.length_append, List.length_singleton]; omega)]
  · obtain ⟨m', h1, h2, h3⟩ := Dict.put_full h (some id) d (by omega)
    refine ⟨m', ?_, ?_, by rw [h3, hr]⟩
    · rw [register, h1]
      have hn := h2.2.next
      rw [List.length_map] at hn
      simp only
      rw [hn, wrap32_of_lt (by omega), Nat.min_eq_right (by omega)]
      congr 2
      omega
    · rwa [List.take_append_of_le_length (by omega), List.take_of_length_le (by omega)]

theorem run_spec (rs : List (BitVec 64 × D)) : ∀ {m : Dict (BitVec 64) D} {es : List (BitVec 64 × D)},
    Dict.Entries 8 8 m es → Dict.room 8 8 m = 128 →
    Dict.Entries 8 8 (run m rs).1 ((es ++ rs).take 128) ∧
    (run m rs).2 = (List.range rs.length).map fun i => .ok (min (es.length + i + 1) 128) := by
  induction rs with
  | nil =>
    intro m es h hr
    have := Dict.fits_room h
    rw [run, List.append_nil, List.take_of_length_le (by omega)]
    exact ⟨h, rfl⟩
  | cons r rs ih =>
    intro m es h hr
    obtain ⟨m', h1, h2, h3⟩ := register_spec h hr r.1 r.2
    obtain ⟨g1, g2⟩ := ih h2 h3
    have hfit := Dict.fits_room h
    rw [run, h1]
    constructor
    · have e : ((es ++ [(r.1, r.2)]).take 128 ++ rs).take 128 = (es ++ r :: rs).take 128 := by
        rw [List.take_append, List.take_take, Nat.min_self, List.length_take, List.take_append (l₁ := es) (l₂ := r :: rs),
          List.take_append, List.append_assoc]
        congr 1
        rw [List.length_append, List.length_singleton]
        by_cases hl : es.length < 128
        · rw [Nat.min_eq_right (by omega), show 128 - es.length = (128 - (es.length + 1)) + 1 by omega, List.take_succ_cons,
            List.take_succ_cons, List.take_nil]
          rfl
        · rw [Nat.min_eq_left (by omega), Nat.sub_self, show 128 - es.length = 0 by omega]
          simp
      rw [e] at g1
      exact g1
    · simp only
      rw [g2, List.length_cons, List.range_succ_eq_map, List.map_cons, List.map_map, Nat.add_zero]
      congr 1
      apply List.map_congr_left
      intro i _
      rw [List.length_take, List.length_append, List.length_singleton]
      simp only [Function.comp, Nat.succ_eq_add_one]
      congr 1
      omega

theorem firstIn_eq (es : List (BitVec 64 × D)) (id : BitVec 64) : Dict.firstIn es id = firstFor es id := by
  induction es with
  | nil => rfl
  | cons r rs ih => rw [Dict.firstIn, firstFor, ih]

theorem entries_registry : Dict.Entries 8 8 (registry : Dict (BitVec 64) D) [] :=
  ⟨Dict.holds_ofBytes 8 _ (by omega) (by omega), Dict.holds_ofBytes 8 _ (by omega) (by omega)⟩

/-- **C66** (what the code does, for every history): looking an id up gives the domain of its *first* registration among the
first 128 registrations, and nothing when there is none; the `i`-th call returns `min(i, 128)`. -/
theorem C66_every_history (rs : List (BitVec 64 × D)) (id : BitVec 64) :
    find (run registry rs).1 id = .ok (firstFor (rs.take 128) id) ∧
    (run (registry : Dict (BitVec 64) D) rs).2 = (List.range rs.length).map fun i => .ok (min (i + 1) 128) := by
  obtain ⟨h1, h2⟩ := run_spec rs entries_registry room_registry
  rw [List.nil_append] at h1
  refine ⟨?_, ?_⟩
  · rw [find, Dict.find_eq h1, firstIn_eq]; rfl
  · rw [h2]; simp

theorem firstFor_mem (rs : List (BitVec 64 × D)) (hn : (rs.map Prod.fst).Nodup) (id : BitVec 64) (d : D)
    (hm : (id, d) ∈ rs) : firstFor rs id = some d := by
  induction rs with
  | nil => cases hm
  | cons r rs ih =>
    rw [List.map_cons, List.nodup_cons] at hn
    rw [firstFor]
    rcases List.mem_cons.mp hm with rfl | hm
    · rw [if_pos rfl]
    · rw [if_neg, ih hn.2 hm]
      intro hc
      exact hn.1 (hc ▸ List.mem_map_of_mem hm)

theorem firstFor_none (rs : List (BitVec 64 × D)) (id : BitVec 64) (h : ∀ d, (id, d) ∉ rs) : firstFor rs id = none := by
  induction rs with
  | nil => rfl
  | cons r rs ih =>
    rw [firstFor, if_neg, ih fun d hd => h d (List.mem_cons_of_mem _ hd)]
    rintro rfl
    exact h r.2 (List.mem_cons_self ..)

/-- **C66** (partial: at most 128 registrations, of different ids): every registered id is found with its domain, every
other id is not found, and each call returns the number of domains registered so far. -/
theorem C66_registered_partial (rs : List (BitVec 64 × D)) (hl : rs.length ≤ 128) (hn : (rs.map Prod.fst).Nodup) :
    (∀ id d, (id, d) ∈ rs → find (run registry rs).1 id = .ok (some d)) ∧
    (∀ id, (∀ d, (id, d) ∉ rs) → find (run (registry : Dict (BitVec 64) D) rs).1 id = .ok none) ∧
    (run (registry : Dict (BitVec 64) D) rs).2 = (List.range rs.length).map fun i => .ok (i + 1) := by
  refine ⟨fun id d hm => ?_, fun id hm => ?_, ?_⟩
  · rw [(C66_every_history rs id).1, List.take_of_length_le hl, firstFor_mem rs hn id d hm]
  · rw [(C66_every_history rs id).1, List.take_of_length_le hl, firstFor_none rs id hm]
  · rw [(C66_every_history rs 0).2]
    apply List.map_congr_left
    intro i hi
    rw [List.mem_range] at hi
    rw [Nat.min_eq_left (by omega)]

/-- **C66**, an id nobody registered is never found, whatever the history. -/
theorem C66_unregistered (rs : List (BitVec 64 × D)) (id : BitVec 64) (h : ∀ d, (id, d) ∉ rs) :
    find (run registry rs).1 id = .ok none := by
  rw [(C66_every_history rs id).1, firstFor_none _ id fun d hd => h d (List.mem_of_mem_take hd)]

/-- **C66** fails for an id registered again: the second domain is not the one found, and yet the returned count grows:
two domains are counted, one can be found. -/
theorem C66_repeated (id : BitVec 64) (a b : D) :
    find (run registry [(id, a), (id, b)]).1 id = .ok (some a) ∧
    (run registry [(id, a), (id, b)]).2 = [.ok 1, .ok 2] := by
  refine ⟨?_, (C66_every_history _ id).2⟩
  rw [(C66_every_history _ id).1, List.take_of_length_le (by simp), firstFor, if_pos rfl]

/-- **C66** fails beyond 128 domains: the registration is dropped, without a sign of it in the returned number except that it
no longer grows. -/
theorem C66_full (rs : List (BitVec 64 × D)) (hl : 128 ≤ rs.length) (id : BitVec 64) (d : D)
    (h : ∀ d, (id, d) ∉ rs) :
    find (run registry (rs ++ [(id, d)])).1 id = .ok none ∧
    (run registry (rs ++ [(id, d)])).2.getLast? = some (.ok 128) := by
  constructor
  · rw [(C66_every_history _ id).1, List.take_append_of_le_length hl,
      firstFor_none _ id fun d hd => h d (List.mem_of_mem_take hd)]
  · rw [(C66_every_history _ id).2, List.length_append, List.length_singleton, List.range_succ, List.map_append,
      List.map_singleton, List.getLast?_append, List.getLast?_singleton, Nat.min_eq_right (by omega)]
    rfl

example : find (run registry [(5#64, "five"), (6#64, "six")]).1 6#64 = .ok (some "six") := by decide +kernel
example : ([(5#64, "five"), (6#64, "six")].map Prod.fst).Nodup := by decide
/-- The hypotheses of `C66_full` are met by 128 registrations of different ids. -/
example : ((List.range 128).map fun i => (BitVec.ofNat 64 i, i)).length = 128 ∧
    ∀ d, (200#64, d) ∉ (List.range 128).map fun i => (BitVec.ofNat 64 i, i) := by
  refine ⟨by simp, fun d hd => ?_⟩
  obtain ⟨i, hi, he⟩ := List.mem_map.mp hd
  rw [List.mem_range] at hi
  have := congrArg BitVec.toNat (congrArg Prod.fst he)
  rw [BitVec.toNat_ofNat] at this
  simp at this
  omega

end Solace.ErrorDomains

namespace Solace.ErrorValue
open ErrorDomains (registry run)
variable {D : Type}

/-- **C76**: equality holds exactly for the same domain and the same code; it is an equivalence, and swapping exchanges the
two errors completely. -/
theorem C76_equality (a b c : ErrorValue) :
    (a.equals b = true ↔ a.domain = b.domain ∧ a.code = b.code) ∧
    a.equals a = true ∧ (a.equals b = b.equals a) ∧ (a.equals b = true → b.equals c = true → a.equals c = true) ∧
    a.swap b = (b, a) := by
  have key : ∀ a b : ErrorValue, a.equals b = true ↔ a.domain = b.domain ∧ a.code = b.code := fun a b => by
    rw [equals, Bool.and_eq_true, beq_iff_eq, beq_iff_eq]
  refine ⟨key a b, (key a a).mpr ⟨rfl, rfl⟩, ?_, fun h1 h2 => ?_, rfl⟩
  · rw [Bool.eq_iff_iff, key, key]
    exact ⟨fun h => ⟨h.1.symm, h.2.symm⟩, fun h => ⟨h.1.symm, h.2.symm⟩⟩
  · obtain ⟨x1, x2⟩ := (key a b).mp h1
    obtain ⟨y1, y2⟩ := (key b c).mp h2
    exact (key a c).mpr ⟨x1.trans y1, x2.trans y2⟩

/-- **C76**, known domain: after any history of at most 128 registrations of different ids the text of an error of a
registered domain is that domain's message for the code. -/
theorem C76_known_partial (alloc : Nat → Except Err MutView) (message : D → BitVec 32 → List Byte)
    (rs : List (BitVec 64 × D)) (hl : rs.length ≤ 128) (hn : (rs.map Prod.fst).Nodup) (e : ErrorValue) (d : D)
    (hm : (e.domain, d) ∈ rs) :
    toString alloc message (run registry rs).1 e = .ok (message d e.code) := by
  rw [toString, (ErrorDomains.C66_registered_partial rs hl hn).1 _ _ hm]

/-- **C76**, unknown domain: the text is the name of the domain, `": "` and the tag. The name has at most eight characters,
none of them NUL and all but the first ASCII (`Storable`); the whole text is shorter than 2^16. -/
theorem C76_unknown_partial (alloc : Nat → Except Err MutView) (ha : Str.AllocOk alloc) (message : D → BitVec 32 → List Byte)
    (rs : List (BitVec 64 × D)) (name : List Byte) (hs : Atom.Storable name) (code : BitVec 32) (tag : List Byte)
    (hlen : name.length + 2 + tag.length < 2 ^ 16) (v : MutView) (hv : alloc (name.length + 2 + tag.length) = .ok v) :
    ∃ id, Atom.tryParse name = .ok id ∧ ((∀ d, (id, d) ∉ rs) →
      toString alloc message (run registry rs).1 ⟨code, id, tag⟩ = .ok (name ++ [0x3A#8, 0x20#8] ++ tag)) := by
  obtain ⟨id, -, h1, -, -, -, h2, -⟩ := Atom.C40_atoms_partial name name hs hs
  refine ⟨id, h1, fun hm => ?_⟩
  have hfl : [name, [0x3A#8, 0x20#8], tag].flatten = name ++ [0x3A#8, 0x20#8] ++ tag := by simp
  have hfn : [name, [0x3A#8, 0x20#8], tag].flatten.length = name.length + 2 + tag.length := by
    rw [hfl]; simp; omega
  rw [toString, ErrorDomains.C66_unregistered rs id hm]
  change Atom.cString (Atom.toBuffer id) = name at h2
  rw [Atom.cString] at h2
  simp only
  rw [h2]
  rcases Str.C29_concat_partial alloc ha [name, [0x3A#8, 0x20#8], tag] (by omega) with ⟨er, h3, -⟩ | ⟨str, h3, h4⟩
  · rw [hfn, hv] at h3; cases h3
  · rw [h3]
    simp only
    rw [h4, hfl]

/-- **C76** fails for the error flag: `makeError(BasicError::Overflow, tag)` converts to `false`, that is to "no error". -/
theorem C76_overflow_is_false (tag : List Byte) : (makeError basicOverflow tag).toBool = false := rfl

/-- **C76** fails to distinguish `BasicError::InvalidInput` from `GenericError::PERM`: they compare equal and, when the
domain is registered, have the same text ("Operation not permitted"). -/
theorem C76_invalid_input_is_perm (alloc : Nat → Except Err MutView) (message : D → BitVec 32 → List Byte)
    (posix : D) (t u : List Byte) :
    (makeError basicInvalidInput t).equals (makeError genericPerm u) = true ∧
    toString alloc message (run registry [(systemCategory, posix)]).1 (makeError basicInvalidInput t) =
      toString alloc message (run registry [(systemCategory, posix)]).1 (makeError genericPerm u) := by
  refine ⟨((C76_equality _ _ ⟨0#32, 0#64, []⟩).1).mpr ⟨rfl, rfl⟩, ?_⟩
  rw [C76_known_partial alloc message [(systemCategory, posix)] (by simp) (by simp) _ posix (List.mem_singleton.mpr rfl),
    C76_known_partial alloc message [(systemCategory, posix)] (by simp) (by simp) _ posix (List.mem_singleton.mpr rfl)]
  rfl

example : Atom.Storable [0x61#8, 0x62#8] := by unfold Atom.Storable; decide +kernel
example : (⟨7#32, 1#64, [0x61#8]⟩ : ErrorValue).equals ⟨7#32, 1#64, []⟩ = true := by decide

end Solace.ErrorValue
