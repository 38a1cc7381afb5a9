import Verif.Props.C21_C28_StringView
import Verif.Props.C29_C31_Exact
import Verif.Props.C27_C32_Exact
/-
C108: the string functions agree with each other.
-/
namespace Solace.StringView
open Strings

/-! ### Searching, prefixes and suffixes -/

/-- **C108**: a non-empty string is a prefix exactly when it is first found at 0, and a suffix exactly when it is last found
at its distance from the end. Whatever is behind the strings in memory. -/
theorem C108_found_at_ends (s after x xAfter : List Byte) (hs : s.length < 2 ^ 16) (hx : x ≠ []) :
    (startsWith s x = true ↔ indexOf s after x xAfter 0 = .ok (some 0)) ∧
    (endsWith s x = true ↔ x.length ≤ s.length ∧ lastIndexOf s after x xAfter 0 = .ok (some (s.length - x.length))) := by
  obtain ⟨r, h1, h2, _⟩ := C24_indexOf_partial s after x xAfter 0 hs hx
  obtain ⟨q, h3, h4, _⟩ := C24_lastIndexOf_partial s after x xAfter 0 hs hx
  rw [C25_startsWith_iff, C25_endsWith_iff, h1, h3]
  constructor
  · constructor
    · rintro ⟨b, rfl⟩
      rw [(h2 0).mpr ⟨Nat.le_refl _, ⟨[], b, rfl, rfl⟩, fun l _ h => absurd h (Nat.not_lt_zero l)⟩]
    · intro h
      obtain ⟨_, ⟨a, b, e, ha⟩, _⟩ := (h2 0).mp (by injection h)
      rw [List.length_eq_zero_iff] at ha
      subst ha
      exact ⟨b, e.symm⟩
  · constructor
    · rintro ⟨a, rfl⟩
      have hl : (a ++ x).length - x.length = a.length := by simp
      refine ⟨by simp, ?_⟩
      rw [hl, (h4 a.length).mpr ⟨Nat.zero_le _, ⟨a, [], by simp, rfl⟩, ?_⟩]
      intro l hl ho
      have := ((occursAt_iff _ _ _).mp ho).1
      rw [List.length_append] at this
      omega
    · rintro ⟨hle, h⟩
      obtain ⟨_, ⟨a, b, e, ha⟩, _⟩ := (h4 _).mp (by injection h)
      have hl := congrArg List.length e
      simp only [List.length_append] at hl
      have hb : b = [] := List.length_eq_zero_iff.mp (by omega)
      subst hb
      exact ⟨a, by simpa using e.symm⟩

/-- **C108**: `contains`, `indexOf` and `lastIndexOf` agree on whether there is an occurrence; the first is not after the last,
and they are the same exactly when there is only one. -/
theorem C108_first_and_last (s after x xAfter : List Byte) (hs : s.length < 2 ^ 16) (hx : x ≠ []) :
    ∃ f l, indexOf s after x xAfter 0 = .ok f ∧ lastIndexOf s after x xAfter 0 = .ok l ∧
      contains s after x xAfter = .ok f.isSome ∧ f.isSome = l.isSome ∧
      (∀ i j, f = some i → l = some j → i ≤ j ∧ (i = j ↔ ∀ k k', OccursAt x s k → OccursAt x s k' → k = k')) := by
  obtain ⟨f, h1, h2, h2n⟩ := C24_indexOf_partial s after x xAfter 0 hs hx
  obtain ⟨l, h3, h4, h4n⟩ := C24_lastIndexOf_partial s after x xAfter 0 hs hx
  refine ⟨f, l, h1, h3, by rw [contains, h1]; rfl, ?_, ?_⟩
  · cases hf : f with
    | none =>
      rw [h4n.mpr (h2n.mp hf)]
    | some i =>
      cases hl : l with
      | none => exact absurd ((h2 i).mp hf).2.1 (h4n.mp hl i (Nat.zero_le _))
      | some j => rfl
  · intro i j hi hj
    obtain ⟨_, o1, m1⟩ := (h2 i).mp hi
    obtain ⟨_, o2, m2⟩ := (h4 j).mp hj
    have lo : ∀ k, OccursAt x s k → i ≤ k := fun k ho => Nat.le_of_not_lt fun h => m1 k (Nat.zero_le _) h ho
    have up : ∀ k, OccursAt x s k → k ≤ j := fun k ho => Nat.le_of_not_lt fun h => m2 k h ho
    refine ⟨lo j o2, fun e k k' hk hk' => ?_, fun h => h i j o1 o2⟩
    have := lo k hk; have := up k hk; have := lo k' hk'; have := up k' hk'
    omega

/-- **C108**: a search that starts later, but not after what it finds, finds the same; starting just behind it finds the next
occurrence. So searching again from one behind the previous result visits every occurrence, in order. -/
theorem C108_search_again (s after x xAfter : List Byte) (hs : s.length < 2 ^ 16) (hx : x ≠ []) (from' j : Nat)
    (h : indexOf s after x xAfter from' = .ok (some j)) :
    (∀ f, from' ≤ f → f ≤ j → indexOf s after x xAfter f = .ok (some j)) ∧
    ∃ r, indexOf s after x xAfter (j + 1) = .ok r ∧
      (∀ k, r = some k → j < k ∧ OccursAt x s k ∧ ∀ l, j < l → l < k → ¬OccursAt x s l) ∧
      (r = none → ∀ l, j < l → ¬OccursAt x s l) := by
  obtain ⟨r0, e0, h0, _⟩ := C24_indexOf_partial s after x xAfter from' hs hx
  rw [e0] at h
  injection h with h
  obtain ⟨_, ho, hm⟩ := (h0 j).mp h
  constructor
  · intro f h1 h2
    obtain ⟨r, e, hr, _⟩ := C24_indexOf_partial s after x xAfter f hs hx
    rw [e, (hr j).mpr ⟨h2, ho, fun l hl hlj => hm l (by omega) hlj⟩]
  · obtain ⟨r, e, hr, hn⟩ := C24_indexOf_partial s after x xAfter (j + 1) hs hx
    refine ⟨r, e, fun k hk => ?_, fun hk l hl => hn.mp hk l hl⟩
    obtain ⟨a, b, c⟩ := (hr k).mp hk
    exact ⟨a, b, fun l hl => c l hl⟩

/-- **C108**: searching for a one-character string is searching for the character. -/
theorem C108_char_search (s after xAfter : List Byte) (c : Byte) (from' : Nat) (hs : s.length < 2 ^ 16) :
    indexOf s after [c] xAfter from' = .ok (indexOfChar s c from') ∧
    lastIndexOf s after [c] xAfter from' = .ok (lastIndexOfChar s c from') := by
  have key : ∀ l, OccursAt [c] s l ↔ s[l]? = some c := by
    intro l
    constructor
    · rintro ⟨a, b, rfl, rfl⟩
      simp
    · intro h
      obtain ⟨hl, he⟩ := List.getElem?_eq_some_iff.mp h
      refine ⟨s.take l, s.drop (l + 1), ?_, by simp; omega⟩
      rw [List.append_assoc, ← he, List.singleton_append, List.getElem_cons_drop, List.take_append_drop]
  obtain ⟨r, e, h1, h2⟩ := C24_indexOf_partial s after [c] xAfter from' hs (by simp)
  obtain ⟨q, e', h1', h2'⟩ := C24_lastIndexOf_partial s after [c] xAfter from' hs (by simp)
  obtain ⟨c1, c2⟩ := C24_indexOf_char s c from'
  obtain ⟨d1, d2⟩ := C24_lastIndexOf_char s c from'
  rw [e, e']
  constructor
  · congr 1
    cases hr : r with
    | none => rw [c2.mpr fun l hl ho => h2.mp hr l hl ((key l).mpr ho)]
    | some j =>
      obtain ⟨a, b, m⟩ := (h1 j).mp hr
      rw [(c1 j).mpr ⟨a, (key j).mp b, fun l hl hlj ho => m l hl hlj ((key l).mpr ho)⟩]
  · congr 1
    cases hr : q with
    | none => rw [d2.mpr fun l hl ho => h2'.mp hr l hl ((key l).mpr ho)]
    | some j =>
      obtain ⟨a, b, m⟩ := (h1' j).mp hr
      rw [(d1 j).mpr ⟨a, (key j).mp b, fun l hlj ho => m l hlj ((key l).mpr ho)⟩]

/-! ### Substrings -/

/-- **C108**: a substring of a substring is a substring. -/
theorem C108_substring_substring (s : List Byte) (a b c d : Nat) (hab : a ≤ b) (hb : b ≤ s.length) :
    substring (substring s a b) c d = substring s (min (a + c) b) (min b (max (a + d) (min (a + c) b))) := by
  rw [substring_eq s hab hb]
  simp only [substring, List.length_take, List.length_drop]
  have h1 : min (b - a) (s.length - a) = b - a := by omega
  rw [h1, List.drop_take, List.take_take, List.drop_drop]
  by_cases hc : c ≤ b - a
  · have e1 : min c (b - a) = c := by omega
    have e2 : min (min (a + c) b) s.length = a + c := by omega
    rw [e1, e2]
    congr 1
    omega
  · have e1 : min c (b - a) = b - a := by omega
    have e2 : min (min (b - a) (max d (b - a)) - (b - a)) (b - a - (b - a)) = 0 := by omega
    have e3 : min s.length (max (min b (max (a + d) (min (a + c) b))) (min (min (a + c) b) s.length)) - min (min (a + c) b) s.length = 0 := by
      omega
    rw [e1, e2, e3]
    simp

/-- **C108**: cutting a string at any place and putting the parts together gives the string; the parts are a prefix and a
suffix. -/
theorem C108_cut (s : List Byte) (k : Nat) :
    substring s 0 k ++ substring s k s.length = s ∧ startsWith s (substring s 0 k) = true ∧
      endsWith s (substring s k s.length) = true := by
  have e1 : substring s 0 k = s.take k := by
    simp only [substring, Nat.zero_min, List.drop_zero, Nat.sub_zero]
    apply List.ext_getElem?
    intro i
    by_cases hi : i < k
    · by_cases hs : i < s.length
      · rw [List.getElem?_take_of_lt (by omega), List.getElem?_take_of_lt hi]
      · rw [List.getElem?_eq_none (by simp; omega), List.getElem?_eq_none (by simp; omega)]
    · rw [List.getElem?_take_eq_none (by omega), List.getElem?_take_eq_none (by omega)]
  have e2 : substring s k s.length = s.drop k := by
    by_cases hk : k ≤ s.length
    · exact substring_end s hk
    · rw [List.drop_of_length_le (by omega), ← List.length_eq_zero_iff]
      simp only [substring, List.length_take, List.length_drop]
      omega
  rw [e1, e2]
  refine ⟨List.take_append_drop k s, ?_, ?_⟩
  · rw [C25_startsWith_iff]; exact List.take_prefix k s
  · rw [C25_endsWith_iff]; exact List.drop_suffix k s

/-- **C108**: what is found is there: taking the substring at the position found gives the needle. -/
theorem C108_substring_found (s after x xAfter : List Byte) (hs : s.length < 2 ^ 16) (hx : x ≠ []) (from' j : Nat)
    (h : indexOf s after x xAfter from' = .ok (some j) ∨ lastIndexOf s after x xAfter from' = .ok (some j)) :
    substring s j (j + x.length) = x := by
  have ho : OccursAt x s j := by
    rcases h with h | h
    · obtain ⟨r, e, h1, _⟩ := C24_indexOf_partial s after x xAfter from' hs hx
      rw [e] at h
      injection h with h
      exact ((h1 j).mp h).2.1
    · obtain ⟨r, e, h1, _⟩ := C24_lastIndexOf_partial s after x xAfter from' hs hx
      rw [e] at h
      injection h with h
      exact ((h1 j).mp h).2.1
  have hl := ((occursAt_iff x s j).mp ho).1
  exact ((equals_iff _ _).mp ((equals_substring s x j hl).mpr ho)).symm

/-! ### Trimming and hashing -/

/-- **C108**: white space added at the ends does not matter to `trim`, and what remains occurs in the string. -/
theorem C108_trim (s a b : List Byte) (ha : ∀ c ∈ a, isSpace c = true) (hb : ∀ c ∈ b, isSpace c = true) :
    trim (a ++ s ++ b) = trim s ∧ ∃ i, OccursAt (trim s) s i := by
  obtain ⟨u, v, e, hu, hv, h1, h2⟩ := (C26_trim s (trim s)).mpr rfl
  refine ⟨?_, u.length, u, v, e, rfl⟩
  symm
  rw [← C26_trim]
  refine ⟨a ++ u, v ++ b, ?_, ?_, ?_, h1, h2⟩
  · conv => lhs; rw [e]
    simp
  · intro c hc
    rcases List.mem_append.mp hc with h | h
    · exact ha c h
    · exact hu c h
  · intro c hc
    rcases List.mem_append.mp hc with h | h
    · exact hv c h
    · exact hb c h

/-- **C108**: the hash of a concatenation from the hashes of the parts. -/
theorem C108_hash_append (a b : List Byte) : hashCode (a ++ b) = hashCode a * 31#64 ^ b.length + hashCode b := by
  have step : ∀ (t : List Byte) (c : Byte), hashCode (t ++ [c]) = c.signExtend 64 + hashCode t * 31#64 := by
    intro t c
    simp only [hashCode, List.foldl_append, List.foldl_cons, List.foldl_nil]
  have key : ∀ (n : Nat) (b : List Byte), b.length = n → hashCode (a ++ b) = hashCode a * 31#64 ^ b.length + hashCode b := by
    intro n
    induction n with
    | zero =>
      intro b hb
      rw [List.length_eq_zero_iff] at hb
      subst hb
      simp [hashCode]
    | succ n ih =>
      intro b hb
      have hne : b ≠ [] := by intro h; rw [h] at hb; simp at hb
      have e : b = b.dropLast ++ [b.getLast hne] := (List.dropLast_concat_getLast hne).symm
      rw [e, ← List.append_assoc, step, step, ih b.dropLast (by rw [List.length_dropLast]; omega), List.length_append,
        List.length_singleton, BitVec.pow_succ]
      rw [BitVec.add_mul, BitVec.mul_assoc, ← BitVec.add_assoc, ← BitVec.add_assoc,
        BitVec.add_comm (BitVec.signExtend 64 _) (_ * _)]
  exact key b.length b rfl

end Solace.StringView

namespace Solace.Str
open Strings StringView

/-! ### Splitting, joining and replacing -/

/-- Specification: the pieces can be told apart in the joined text: each piece but the last ends where the delimiter first
occurs, the last does not contain it. -/
def Recoverable (d : List Byte) : List (List Byte) → Prop
  | [] => False
  | [p] => ∀ i, ¬OccursAt d p i
  | p :: q :: ps => EndsAtFirst d p ∧ Recoverable d (q :: ps)

theorem isSplit_intercalate (d : List Byte) (ps : List (List Byte)) : IsSplit d (d.intercalate ps) ps ↔ Recoverable d ps := by
  induction ps with
  | nil => exact Iff.rfl
  | cons p ps ih =>
    cases ps with
    | nil =>
      simp only [IsSplit, Recoverable]
      exact ⟨fun h => h.2, fun h => ⟨by simp [List.intercalate], h⟩⟩
    | cons q ps =>
      have e : d.intercalate (p :: q :: ps) = p ++ d ++ d.intercalate (q :: ps) := by
        simp [List.intercalate, List.intersperse]
      constructor
      · rintro ⟨t, h1, h2, h3⟩
        rw [e] at h1
        have := List.append_cancel_left h1
        rw [← this] at h3
        exact ⟨h2, ih.mp h3⟩
      · rintro ⟨h1, h2⟩
        exact ⟨_, e, h1, ih.mpr h2⟩

theorem recoverable_char (c : Byte) (ps : List (List Byte)) (h : ps ≠ []) : Recoverable [c] ps ↔ ∀ p ∈ ps, c ∉ p := by
  have occ : ∀ (p : List Byte), (∀ i, ¬OccursAt [c] p i) ↔ c ∉ p := by
    intro p
    constructor
    · intro h hc
      obtain ⟨a, b, e⟩ := List.append_of_mem hc
      exact h a.length ⟨a, b, by rw [e]; simp, rfl⟩
    · rintro h i ⟨a, b, rfl, _⟩
      exact h (by simp)
  induction ps with
  | nil => exact absurd rfl h
  | cons p ps ih =>
    cases ps with
    | nil => simp only [Recoverable, List.mem_singleton, forall_eq]; exact occ p
    | cons q ps =>
      have ih2 := ih (by simp)
      have ih3 : Recoverable [c] (p :: q :: ps) ↔ EndsAtFirst [c] p ∧ ∀ p ∈ q :: ps, c ∉ p :=
        ⟨fun h => ⟨h.1, ih2.mp h.2⟩, fun h => ⟨h.1, ih2.mpr h.2⟩⟩
      refine ih3.trans ?_
      rw [List.forall_mem_cons (l := q :: ps)]
      refine and_congr_left fun _ => ?_
      rw [← occ p]
      constructor
      · rintro h i ⟨a, b, rfl, hl⟩
        have := h a.length ⟨a, b ++ [c], by simp, rfl⟩
        simp at this
        omega
      · rintro h i ⟨a, b, e, hl⟩
        apply Nat.le_of_not_lt
        intro hlt
        have hb : b ≠ [] := by
          intro hb
          have := congrArg List.length e
          subst hb
          simp at this
          omega
        have e2 := (List.dropLast_concat_getLast hb).symm
        rw [e2, ← List.append_assoc] at e
        obtain ⟨e3, _⟩ := List.append_inj' e rfl
        exact h i ⟨a, b.dropLast, e3, hl⟩

/-- **C108, split then join**: joining the pieces of a splitting with the delimiter gives the string, for every string and every
non-empty delimiter. -/
theorem C108_join_of_split (alloc : Nat → Except Err MutView) (ha : AllocOk alloc) (s d : List Byte) (hd : d ≠ [])
    (hs : s.length < 2 ^ 16) (v : MutView) (hv : alloc s.length = .ok v) (fuel : Nat) (hf : s.length < fuel) :
    ∃ ps n str, split1 fuel s d = some (ps, n) ∧ makeJoin alloc d ps = .ok str ∧ str.view = s := by
  obtain ⟨ps, n, calls, h1, h2, h3, _⟩ := C27_split_partial s d hd hs
  have hp := (h2 ps).mpr rfl
  have hne : ps ≠ [] := by rintro rfl; exact hp
  have hcnt := ((C27_count_exact s d 0#8 hd hs).1 ps hp).1
  obtain ⟨str, e1, e2⟩ := C30_join_succeeds alloc ha d ps hne (by omega) (by rw [h3]; exact hs) v (by rw [h3]; exact hv)
  exact ⟨ps, n, str, (h1 fuel hf).1, e1, by rw [e2, h3]⟩

/-- **C108, join then split**: exactly the lists whose pieces can be told apart come back. -/
theorem C108_split_of_join (alloc : Nat → Except Err MutView) (ha : AllocOk alloc) (d : List Byte) (hd : d ≠ [])
    (ps : List (List Byte)) (hne : ps ≠ []) (hn : ps.length < 2 ^ 64) (hs : (d.intercalate ps).length < 2 ^ 16) (v : MutView)
    (hv : alloc (d.intercalate ps).length = .ok v) (fuel : Nat) (hf : (d.intercalate ps).length < fuel) :
    ∃ str qs n, makeJoin alloc d ps = .ok str ∧ split1 fuel str.view d = some (qs, n) ∧ (qs = ps ↔ Recoverable d ps) := by
  obtain ⟨str, e1, e2⟩ := C30_join_succeeds alloc ha d ps hne hn hs v hv
  obtain ⟨qs, n, calls, h1, h2, _⟩ := C27_split_partial (d.intercalate ps) d hd hs
  refine ⟨str, qs, n, e1, by rw [e2]; exact (h1 fuel hf).1, ?_⟩
  rw [← isSplit_intercalate, h2 ps]
  exact eq_comm

/-- **C108, join then split by a character**: exactly the lists none of whose pieces contains it. -/
theorem C108_splitChar_of_join (alloc : Nat → Except Err MutView) (ha : AllocOk alloc) (c : Byte)
    (ps : List (List Byte)) (hne : ps ≠ []) (hn : ps.length < 2 ^ 64) (hs : ([c].intercalate ps).length < 2 ^ 16) (v : MutView)
    (hv : alloc ([c].intercalate ps).length = .ok v) :
    ∃ str, makeJoin alloc [c] ps = .ok str ∧ ((splitChar str.view c).1 = ps ↔ ∀ p ∈ ps, c ∉ p) := by
  obtain ⟨str, e1, e2⟩ := C30_join_succeeds alloc ha [c] ps hne hn hs v hv
  refine ⟨str, e1, ?_⟩
  rw [e2, ← recoverable_char c ps hne, ← isSplit_intercalate, (C27_splitChar_partial _ c hs).1 ps]
  exact eq_comm

/-- **C108, replacing is splitting and joining**, as long as the result has fewer than 65536 characters. -/
theorem C108_replace_is_split_join (alloc : Nat → Except Err MutView) (ha : AllocOk alloc) (s what by' : List Byte)
    (hw : what ≠ []) (hs : s.length < 2 ^ 16) (fuel : Nat) (hf : s.length < fuel) :
    ∃ ps n, split1 fuel s what = some (ps, n) ∧
      ∀ v, alloc (by'.intercalate ps).length = .ok v → (by'.intercalate ps).length < 2 ^ 16 →
        ∃ r j, makeReplace alloc fuel s what by' = some (.ok (.ok r)) ∧ makeJoin alloc by' ps = .ok j ∧
          r.view = j.view := by
  obtain ⟨ps, n, calls, h1, h2, h3, _⟩ := C27_split_partial s what hw hs
  have hp := (h2 ps).mpr rfl
  have hne : ps ≠ [] := by rintro rfl; exact hp
  have hcnt := ((C27_count_exact s what 0#8 hw hs).1 ps hp).1
  refine ⟨ps, n, (h1 fuel hf).1, fun v hv hl => ?_⟩
  obtain ⟨j, e1, e2⟩ := C30_join_succeeds alloc ha by' ps hne (by omega) hl v hv
  rcases C31_replace_partial alloc ha s what by' hw hs ps hp hl fuel hf with ⟨e, he, _⟩ | ⟨r, e3, e4⟩
  · rw [hv] at he; cases he
  · exact ⟨r, j, e3, e1, by rw [e2, e4]⟩

theorem intercalate_cons2 (d p q : List Byte) (ps : List (List Byte)) :
    d.intercalate (p :: q :: ps) = p ++ (d ++ d.intercalate (q :: ps)) := by
  simp [List.intercalate, List.intersperse]

/-- **C108, when replacing changes nothing**: exactly when the pattern does not occur or is replaced by itself. -/
theorem C108_replace_unchanged_iff (alloc : Nat → Except Err MutView) (ha : AllocOk alloc) (s what by' : List Byte)
    (hw : what ≠ []) (hs : s.length < 2 ^ 16) (ps : List (List Byte)) (hp : IsSplit what s ps)
    (hr : (by'.intercalate ps).length < 2 ^ 16) (fuel : Nat) (hf : s.length < fuel) (str : Str)
    (h : makeReplace alloc fuel s what by' = some (.ok (.ok str))) :
    str.view = s ↔ (∀ i, ¬OccursAt what s i) ∨ by' = what := by
  have hv : str.view = by'.intercalate ps := by
    rcases C31_replace_partial alloc ha s what by' hw hs ps hp hr fuel hf with ⟨e, _, he⟩ | ⟨r, e3, e4⟩
    · rw [h] at he; cases he
    · rw [h] at e3
      injection e3 with e3
      injection e3 with e3
      injection e3 with e3
      rw [e3, e4]
  rw [hv]
  have hj := isSplit_join hp
  match ps, hp with
  | [p], ⟨e, hno⟩ =>
    refine ⟨fun _ => .inl (by rw [e]; exact hno), fun _ => ?_⟩
    rw [e]; simp [List.intercalate]
  | p :: q :: ps, ⟨t, e, _, _⟩ =>
    constructor
    · intro hb
      right
      have hlen := congrArg List.length (hb.trans hj.symm)
      rw [intercalate_length, intercalate_length] at hlen
      have hlen : by'.length = what.length := by
        have h1 : (p :: q :: ps).length - 1 = ps.length + 1 := by simp
        rw [h1] at hlen
        have h2 : by'.length * (ps.length + 1) = what.length * (ps.length + 1) := by omega
        exact Nat.eq_of_mul_eq_mul_right (Nat.succ_pos _) h2
      have h3 := hb.trans hj.symm
      rw [intercalate_cons2, intercalate_cons2] at h3
      exact (List.append_inj (List.append_cancel_left h3) hlen).1
    · rintro (hno | rfl)
      · exact absurd ⟨p, t, e, rfl⟩ (hno p.length)
      · exact hj

/-- **C108, a replaced character is gone**: the result contains it exactly when it occurred and the replacement contains it. -/
theorem C108_replaced_character (alloc : Nat → Except Err MutView) (ha : AllocOk alloc) (s by' : List Byte) (c : Byte)
    (hs : s.length < 2 ^ 16) (ps : List (List Byte)) (hp : IsSplit [c] s ps) (hr : (by'.intercalate ps).length < 2 ^ 16)
    (fuel : Nat) (hf : s.length < fuel) (str : Str) (h : makeReplace alloc fuel s [c] by' = some (.ok (.ok str))) :
    c ∈ str.view ↔ c ∈ s ∧ c ∈ by' := by
  have hv : str.view = by'.intercalate ps := by
    rcases C31_replace_partial alloc ha s [c] by' (by simp) hs ps hp hr fuel hf with ⟨e, _, he⟩ | ⟨r, e3, e4⟩
    · rw [h] at he; cases he
    · rw [h] at e3
      injection e3 with e3
      injection e3 with e3
      injection e3 with e3
      rw [e3, e4]
  have hne : ps ≠ [] := by rintro rfl; exact hp
  have hj := isSplit_join hp
  have hno : ∀ p ∈ ps, c ∉ p := by
    rw [← recoverable_char c ps hne, ← isSplit_intercalate, hj]
    exact hp
  rw [hv, ← hj]
  clear hp hr hv hj h
  have key : ∀ (d : List Byte) (ps : List (List Byte)), (∀ p ∈ ps, c ∉ p) → (c ∈ d.intercalate ps ↔ 2 ≤ ps.length ∧ c ∈ d) := by
    intro d ps
    induction ps with
    | nil => intro _; simp [List.intercalate]
    | cons p ps ih =>
      intro hno
      cases ps with
      | nil => simpa [List.intercalate] using hno p (by simp)
      | cons q ps =>
        have ih := ih (fun x hx => hno x (List.mem_cons_of_mem _ hx))
        rw [intercalate_cons2, List.mem_append, List.mem_append, ih]
        have := hno p (by simp)
        simp only [List.length_cons]
        constructor
        · rintro (h | h | h)
          · exact absurd h this
          · exact ⟨by omega, h⟩
          · exact ⟨by omega, h.2⟩
        · rintro ⟨_, h⟩
          exact .inr (.inl h)
  rw [key by' ps hno, key [c] ps hno]
  simp

/-- **C108**: for longer patterns the result may contain the pattern although the replacement is empty. -/
theorem C108_pattern_may_reappear (alloc : Nat → Except Err MutView) (ha : AllocOk alloc) (a b : Byte) (hab : a ≠ b)
    (v : MutView) (hv : alloc 2 = .ok v) (fuel : Nat) (hf : 4 < fuel) :
    ∃ str, makeReplace alloc fuel [a, a, b, b] [a, b] [] = some (.ok (.ok str)) ∧ str.view = [a, b] := by
  have hp : IsSplit [a, b] [a, a, b, b] [[a], [b]] := by
    refine ⟨[b], rfl, ?_, rfl, ?_⟩
    · rintro i ⟨x, y, e, rfl⟩
      cases x with
      | nil => simp at e; exact absurd e.1 hab
      | cons z x => simp
    · rintro i ⟨x, y, e, _⟩
      have := congrArg List.length e
      simp at this
      omega
  have hl : (([] : List Byte).intercalate [[a], [b]]) = [a, b] := rfl
  rcases C31_replace_partial alloc ha [a, a, b, b] [a, b] [] (by simp) (by simp) _ hp (by simp [hl]) fuel (by simpa using hf)
    with ⟨e, he, _⟩ | ⟨r, e3, e4⟩
  · rw [hl] at he; simp [hv] at he
  · exact ⟨r, e3, by rw [e4, hl]⟩

/-! ### Concatenation -/

/-- **C108, concatenation**: a string made of two starts with the first, ends with the second, its length is the sum, and the
parts are its substrings; the hash follows from theirs. -/
theorem C108_concat (alloc : Nat → Except Err MutView) (ha : AllocOk alloc) (a b : List Byte) (h : (a ++ b).length < 2 ^ 16)
    (str : Str) (hm : makeConcat alloc [a, b] = .ok str) :
    startsWith str.view a = true ∧ endsWith str.view b = true ∧ str.view.length = a.length + b.length ∧
      substring str.view 0 a.length = a ∧ substring str.view a.length str.view.length = b ∧
      hashCode str.view = hashCode a * 31#64 ^ b.length + hashCode b := by
  have e : [a, b].flatten = a ++ b := by simp
  have hv : str.view = a ++ b := by
    rw [← e]
    exact (C29_concat_iff alloc ha [a, b] str hm).mpr (by rw [e]; exact h)
  rw [hv]
  refine ⟨?_, ?_, List.length_append, ?_, ?_, C108_hash_append a b⟩
  · rw [C25_startsWith_iff]; exact List.prefix_append a b
  · rw [C25_endsWith_iff]; exact List.suffix_append a b
  · rw [substring_eq _ (Nat.zero_le _) (by simp)]; simp
  · rw [substring_end _ (by simp)]; simp

/-! ### Examples -/

/-- A heap that gives memory filled with `0xAA`. -/
def heap (n : Nat) : Except Err MutView := .ok ⟨false, List.replicate n 0xAA#8⟩

example : AllocOk heap := by
  intro n v h
  simp only [heap, Except.ok.injEq] at h
  subst h
  exact ⟨by simp, by intro h; cases h⟩

-- "a,b,,c"
example : splitChar [0x61#8, 0x2C#8, 0x62#8, 0x2C#8, 0x2C#8, 0x63#8] 0x2C#8 = ([[0x61#8], [0x62#8], [], [0x63#8]], 4) := by
  decide +kernel

-- joined by "aa", the pieces "a" and "b" do not come back from "aaab": the delimiter is found one character earlier
example : ¬Recoverable [0x61#8, 0x61#8] [[0x61#8], [0x62#8]] := by
  rintro ⟨h, _⟩
  have := h 0 ⟨[], [0x61#8], rfl, rfl⟩
  simp at this

example : Recoverable [0x2C#8] [[0x61#8], [], [0x62#8]] := (recoverable_char _ _ (by simp)).mpr (by simp)

example : indexOf [0x61#8, 0x62#8, 0x61#8] [] [0x61#8] [] 0 = .ok (some 0) ∧
    lastIndexOf [0x61#8, 0x62#8, 0x61#8] [] [0x61#8] [] 0 = .ok (some 2) := by decide +kernel

example : substring (substring [1#8, 2#8, 3#8, 4#8, 5#8] 1 4) 1 9 = [3#8, 4#8] := by decide +kernel

example : trim [0x20#8, 0x61#8, 0x20#8, 0x62#8, 0x0A#8] = [0x61#8, 0x20#8, 0x62#8] := by decide +kernel

end Solace.Str
