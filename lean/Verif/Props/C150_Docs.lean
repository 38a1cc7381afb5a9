import Verif.Spec.Docs
import Verif.Model.StringViewMake
import Verif.Model.ArrayFactory
import Verif.Props.C53_C54_PathParts
import Verif.Props.C61_C62_Hashing
import Verif.Props.C51_PathNormalize
/-
C150: what the comments of the headers promise, and exactly when the code keeps it.
-/
namespace Solace.Docs
open Strings StringView

/-! ### `String::substring(from, len)` -/

/-- **C150**, exactly when `substring(from, len)` is the substring from `from` of length `len`: for the length 0, and from the
beginning of the string when it is long enough. The second argument is used as an end. -/
theorem C150_substring_iff (s : List Byte) (start len : Nat) :
    SubstringOf s start len (substring s start len) ↔ len = 0 ∨ (start = 0 ∧ len ≤ s.length) := by
  simp only [SubstringOf, substring, List.length_take, List.length_drop]
  constructor
  · rintro ⟨h, -⟩
    omega
  · rintro (rfl | ⟨rfl, h⟩)
    · exact ⟨by omega, fun i hi => absurd hi (Nat.not_lt_zero _)⟩
    · refine ⟨by omega, fun i hi => ?_⟩
      rw [Nat.zero_min, List.drop_zero, Nat.sub_zero, Nat.max_eq_left (Nat.zero_le _), Nat.min_eq_right h, Nat.zero_add,
        List.getElem?_take, if_pos hi]

example : ¬SubstringOf [0x61#8, 0x62#8, 0x63#8] 1 2 (substring [0x61#8, 0x62#8, 0x63#8] 1 2) ∧
    substring [0x61#8, 0x62#8, 0x63#8] 1 2 = [0x62#8] ∧
    SubstringOf [0x61#8, 0x62#8, 0x63#8] 0 2 (substring [0x61#8, 0x62#8, 0x63#8] 0 2) := by
  refine ⟨fun h => ?_, by decide, (C150_substring_iff _ _ _).mpr (.inr ⟨rfl, by decide⟩)⟩
  have := (C150_substring_iff _ _ _).mp h
  simp at this

/-! ### `hashCode` -/

theorem hash_append (s : List Byte) : ∀ h : BitVec 64,
    s.foldl (fun h c => c.signExtend 64 + h * 31#64) h = BitVec.ofInt 64 (h.toInt * 31 ^ s.length + polynomial s) := by
  induction s with
  | nil => intro h; simp [polynomial]
  | cons c s ih =>
    intro h
    rw [List.foldl_cons, ih, polynomial, List.length_cons]
    apply BitVec.eq_of_toInt_eq
    rw [BitVec.toInt_ofInt, BitVec.toInt_ofInt, BitVec.toInt_add, BitVec.toInt_mul, BitVec.toInt_signExtend_of_le (by omega)]
    have e31 : (31#64).toInt = 31 := by decide
    rw [e31, Int.pow_succ]
    generalize h.toInt = a
    generalize c.toInt = b
    generalize (31 : Int) ^ s.length = p
    generalize polynomial s = q
    generalize hm : (b + (a * 31).bmod (2 ^ 64)).bmod (2 ^ 64) = m
    have hm' : m = (b + a * 31).bmod (2 ^ 64) := by rw [← hm, Int.add_bmod_bmod]
    rw [hm', ← Int.bmod_add_bmod, Int.bmod_mul_bmod, Int.bmod_add_bmod]
    congr 1
    rw [Int.add_mul, Int.mul_assoc, Int.mul_comm 31 p]
    omega

/-- **C150** (full): as a signed number, the hash code is the sum of the comment modulo 2^64. -/
theorem C150_hash (s : List Byte) : (hashCode s).toInt = (polynomial s).bmod (2 ^ 64) := by
  rw [hashCode, hash_append, BitVec.toInt_ofInt]
  simp

/-- **C150** (full): its low 32 bits are the sum computed in `int`s. -/
theorem C150_hash_low (s : List Byte) : ((hashCode s).setWidth 32).toInt = intSum s := by
  rw [BitVec.toInt_setWidth, intSum]
  have h := C150_hash s
  rw [BitVec.toInt_eq_toNat_bmod] at h
  have h1 : ((hashCode s).toNat : Int).bmod (2 ^ 32) = (((hashCode s).toNat : Int).bmod (2 ^ 64)).bmod (2 ^ 32) := by
    rw [Int.bmod_bmod_of_dvd ⟨2 ^ 32, by decide⟩]
  rw [h1, h, Int.bmod_bmod_of_dvd ⟨2 ^ 32, by decide⟩]

/-- **C150**, exactly when the hash code is the sum computed in `int`s: when the sum modulo 2^64 fits into an `int`. -/
theorem C150_hash_iff (s : List Byte) :
    (hashCode s).toInt = intSum s ↔ -2 ^ 31 ≤ (polynomial s).bmod (2 ^ 64) ∧ (polynomial s).bmod (2 ^ 64) < 2 ^ 31 := by
  rw [C150_hash, intSum, ← Int.bmod_bmod_of_dvd (m := 2 ^ 64) (n := 2 ^ 32) ⟨2 ^ 32, by decide⟩]
  generalize (polynomial s).bmod (2 ^ 64) = z
  have e : ((2 ^ 32 : Nat) : Int) = 4294967296 := by decide
  have e' : ((4294967296 : Int) + 1) / 2 = 2147483648 := by decide
  rw [Int.bmod_def, e, e']
  split <;> omega

/-- **C150**, negation: the hash code of seven letters is not the sum computed in `int`s. -/
theorem C150_hash_not_int : ∃ s, (hashCode s).toInt ≠ intSum s := ⟨List.replicate 7 0x7A#8, by decide +kernel⟩

/-- **C150** (full): the hash code of the empty string is zero. -/
theorem C150_hash_empty : hashCode [] = 0#64 := rfl

example : (hashCode [0x61#8, 0x62#8]).toInt = 97 * 31 + 98 ∧ intSum [0x61#8, 0x62#8] = 97 * 31 + 98 := by decide +kernel

/-! ### `String::compareTo` -/

theorem lexLt_asymm (a : List Byte) : ∀ b, lexLt a b → ¬lexLt b a := by
  induction a with
  | nil => intro b h; cases b <;> simp_all [lexLt]
  | cons x xs ih =>
    intro b
    cases b with
    | nil => exact fun h => h.elim
    | cons y ys =>
      rintro (h | ⟨rfl, h⟩) (h' | ⟨e, h'⟩)
      · omega
      · subst e; omega
      · omega
      · exact ih ys h h'

/-- **C150**, exactly when `compareTo` compares lexicographically (characters 1 to 127): when the argument is not empty or both
are, and the shorter of the two strings also comes first lexicographically. -/
theorem C150_compare_iff (s x : List Byte) (hs : Plain s) (hx : Plain x) (hl : s.length < 2 ^ 16) (hlx : x.length < 2 ^ 16) :
    (∃ r, compareTo s x = .ok r ∧ Lexicographic s x r) ↔
      (x = [] → s = []) ∧ (s.length < x.length → lexLt s x) ∧ (x.length < s.length → lexLt x s) := by
  by_cases he : x ≠ [] ∨ s = []
  · obtain ⟨r, hr, h1, h2, h3⟩ := C22_shortlex_partial s x hs hx hl hlx he
    constructor
    · rintro ⟨r', hr', g1, g2, g3⟩
      rw [hr] at hr'
      cases hr'
      refine ⟨fun h => he.elim (absurd h) id, fun h => g1.mp (h1.mpr (.inl h)), fun h => g3.mp (h3.mpr (.inl h))⟩
    · rintro ⟨-, g1, g2⟩
      refine ⟨r, hr, ?_, h2, ?_⟩
      · rw [h1]
        constructor
        · exact fun h => h.elim g1 (·.2)
        · intro h
          rcases Nat.lt_trichotomy s.length x.length with k | k | k
          · exact .inl k
          · exact .inr ⟨k, h⟩
          · exact absurd (g2 k) (lexLt_asymm _ _ h)
      · rw [h3]
        constructor
        · exact fun h => h.elim g2 (·.2)
        · intro h
          rcases Nat.lt_trichotomy s.length x.length with k | k | k
          · exact absurd h (lexLt_asymm _ _ (g1 k))
          · exact .inr ⟨k.symm, h⟩
          · exact .inl k
  · have hx0 : x = [] := Classical.byContradiction fun h => he (.inl h)
    have hs0 : s ≠ [] := fun h => he (.inr h)
    subst hx0
    constructor
    · rintro ⟨r, hr, -⟩
      rw [C22_empty_terminates s hs0 hl] at hr
      cases hr
    · rintro ⟨h, -⟩
      exact absurd (h rfl) hs0

/-- **C150**, negation: "b" is lexicographically greater than "aa", and the comparison says less. -/
theorem C150_compare_not_lexicographic :
    compareTo [0x62#8] [0x61#8, 0x61#8] = .ok (-97) ∧ lexLt [0x61#8, 0x61#8] [0x62#8] := by
  refine ⟨by decide +kernel, .inl (by decide)⟩

example : compareTo [0x61#8] [0x62#8, 0x61#8] = .ok (-97) ∧ lexLt [0x61#8] [0x62#8, 0x61#8] :=
  ⟨by decide +kernel, .inl (by decide)⟩

/-! ### Lengths -/

theorem utf8_length (p : Nat) : 1 ≤ (utf8 p).length ∧ ((utf8 p).length = 1 ↔ p < 128) := by
  unfold utf8
  split
  · simp_all
  · split
    · simp_all
    · split <;> simp_all

theorem utf8_text (ps : List Nat) :
    ps.length ≤ (ps.flatMap utf8).length ∧ ((ps.flatMap utf8).length = ps.length ↔ ∀ p ∈ ps, p < 128) := by
  induction ps with
  | nil => simp
  | cons p ps ih =>
    have h := utf8_length p
    rw [List.flatMap_cons, List.length_append, List.length_cons, List.forall_mem_cons, ← ih.2, ← h.2]
    omega

/-- **C150**, exactly when `length` is the number of code points of a text stored in UTF-8: when all of them are ASCII. -/
theorem C150_length_iff (alloc : Nat → Except Err MutView) (points : List Nat) (t : Str)
    (ht : Str.make alloc (points.flatMap utf8) = .ok t) : CodePoints points t.size ↔ ∀ p ∈ points, p < 128 := by
  have hs : t.size = (points.flatMap utf8).length := by
    simp only [Str.make] at ht
    split at ht
    · cases ht
    · split at ht <;> cases ht
      rfl
  rw [CodePoints, hs]
  exact (utf8_text points).2

example : Str.make (fun n => .ok ⟨false, List.replicate n 0#8⟩) ([0xE9, 0x61].flatMap utf8) =
    .ok ⟨[0xC3#8, 0xA9#8, 0x61#8], 3⟩ := by decide +kernel

/-- **C150**, exactly when "size() is equal to Traits::length(s)" (stringView.hpp:81): for C strings shorter than 2^16. -/
theorem C150_cstring_iff (m : List Byte) (n : Nat) (hn : Make.strlen m = .ok n) (v : Make.SV)
    (hv : Make.ofCString (some m) = .ok v) : v.data = some m ∧ (v.size = n ↔ n < 2 ^ 16) := by
  simp only [Make.ofCString, hn, Outcome.bind] at hv
  cases hv
  refine ⟨rfl, ?_⟩
  simp only
  constructor
  · intro h; rw [← h]; exact wrap16_lt n
  · exact wrap16_of_lt

example : Make.strlen [0x61#8, 0#8] = .ok 1 ∧ Make.ofCString (some [0x61#8, 0#8]) = .ok ⟨some [0x61#8, 0#8], 1⟩ := by
  decide +kernel

/-! ### `StringView::operator[]` -/

/-- **C150**, negation of "@throw OutOfBoundsException If index is out of range" (stringView.hpp:273): `view[i]` throws for no
view and no index. It gives the character of the memory at that place, also when the view ends before it, and outside of the
memory it is undefined. -/
theorem C150_index_never_throws (v : Make.SV) (i : Nat) :
    v.index i ≠ .throws ∧
    (∀ m c, v.data = some m → m[i]? = some c → v.index i = .ok c) ∧
    ((∀ m, v.data = some m → m.length ≤ i) → v.index i = .ub) := by
  obtain ⟨d, n⟩ := v
  cases d with
  | none => exact ⟨by simp [Make.SV.index], by simp, fun _ => rfl⟩
  | some m =>
    refine ⟨?_, ?_, ?_⟩
    · simp only [Make.SV.index]; split <;> simp
    · rintro m' c h hc
      cases h
      simp only [Make.SV.index, hc]
    · intro h
      simp only [Make.SV.index, List.getElem?_eq_none (h m rfl)]

example : Make.SV.index ⟨some [0x61#8, 0x62#8], 1⟩ 1 = .ok 0x62#8 ∧ Make.SV.charAt ⟨some [0x61#8, 0x62#8], 1⟩ 1 = .throws ∧
    Make.SV.index ⟨some [0x61#8, 0x62#8], 1⟩ 2 = .ub := by decide

/-! ### `Vector::capacity`, `Array::empty` -/

/-- **C150**, exactly when "capacity() := sizeof(value_type) * _buffer.size()" (vector.hpp:45) holds: for elements of one byte,
and without a buffer. -/
theorem C150_capacity_iff {α : Type u} (sz : Nat) (hsz : 0 < sz) (v : Vec α) :
    v.capacity sz = sz * v.bytes ↔ sz = 1 ∨ v.bytes = 0 := by
  rw [Vec.capacity]
  constructor
  · intro h
    refine Classical.byContradiction fun hn => ?_
    have h1 : sz ≠ 1 := fun e => hn (.inl e)
    have h2 : v.bytes ≠ 0 := fun e => hn (.inr e)
    have h3 : v.bytes / sz < v.bytes := Nat.div_lt_self (by omega) (by omega)
    have h4 : 1 * v.bytes ≤ sz * v.bytes := Nat.mul_le_mul_right _ hsz
    omega
  · rintro (rfl | h)
    · simp
    · simp [h]

example : (Vec.make (α := Nat) 4 3).capacity 4 = 3 ∧ 4 * (Vec.make (α := Nat) 4 3).bytes = 48 := by decide +kernel

/-- **C150**, exactly when `Array::empty` ("True is this is an empty collection", array.hpp:132-135) says whether an array that a
vector with room for `n` elements became has elements: when the vector had no room, or has elements. -/
theorem C150_array_empty_iff {α : Type u} (v : Vec α) (h : v.bytes = 0 → v.next = 0) :
    (Vec.arrayEmpty (Vec.toArray v).1 = true ↔ (Vec.toArray v).1.next = 0) ↔
      v.bytes = 0 ∨ v.next ≠ 0 := by
  simp only [Vec.arrayEmpty, Vec.toArray, beq_iff_eq]
  constructor
  · intro hh
    by_cases hn : v.next = 0
    · exact .inl (hh.mpr hn)
    · exact .inr hn
  · rintro (hb | hn)
    · exact ⟨h, fun _ => hb⟩
    · exact ⟨h, fun e => absurd e hn⟩

example : ((Vec.make (α := Nat) 4 3).bytes = 0 → (Vec.make (α := Nat) 4 3).next = 0) ∧
    Vec.arrayEmpty (Vec.toArray (Vec.make (α := Nat) 4 3)).1 = false ∧ (Vec.toArray (Vec.make (α := Nat) 4 3)).1.next = 0 := by
  decide +kernel

/-! ### Paths -/

variable {alloc : Nat → Except Err MutView} {vec : Nat → Except Err Unit}

/-- **C150**, exactly when `getBasename` is "The last element of the name sequence" (path.hpp:299): for every path with components
but the root, whose only element is the empty string. -/
theorem C150_basename_iff (p : Path) : LastElement p.comps p.getBasename ↔ p.comps ≠ [] ∧ p.comps ≠ [[]] := by
  obtain ⟨b, cs⟩ := p
  dsimp only [LastElement]
  rcases List.eq_nil_or_concat cs with rfl | ⟨init, c, rfl⟩
  · simp
  · rw [List.concat_eq_append]
    by_cases h : init = [] ∧ c = []
    · obtain ⟨rfl, rfl⟩ := h
      constructor
      · rintro ⟨before, hb⟩
        have := (List.append_inj' (s₁ := []) hb rfl).2
        simp [Path.getBasename] at this
      · intro hh; exact absurd rfl hh.2
    · have hb : Path.getBasename ⟨b, init ++ [c]⟩ = c := by
        rw [Path.getBasename, List.getLast?_concat]
        simp only
        rw [if_neg]
        rintro ⟨h1, h2⟩
        refine h ⟨?_, h2⟩
        simpa using h1
      rw [hb]
      refine ⟨fun _ => ⟨by simp, fun e => h ?_⟩, fun _ => ⟨init, rfl⟩⟩
      have := List.append_inj' (t₁ := [c]) (s₂ := []) (t₂ := [[]]) e rfl
      exact ⟨this.1, by simpa using this.2⟩

/-- **C150**, exactly when the parent is the "null path" (path.hpp:291 says: for the root; memory available): for the paths without
components, and for no other. -/
theorem C150_parent_null_iff (h : Path.Plenty alloc vec) (p : Path) :
    ∃ q, p.getParent alloc vec = .ok q ∧ (q.noBuffer = true ↔ p.comps = []) := by
  obtain ⟨b, cs⟩ := p
  match cs with
  | [] => exact ⟨.none, by rw [Path.getParent, if_pos (by simp), h.vec]; rfl, by simp [Path.none]⟩
  | [c] =>
    refine ⟨⟨false, [c]⟩, ?_, by simp⟩
    exact (Path.C53_short h c).1
  | c :: d :: cs =>
    refine ⟨_, by rw [Path.getParent, if_neg (by simp)]; simp only [h.vec]; rfl, ?_⟩
    simp [Path.ofVector]

/-- **C150**, negation: the parent of the root is not the null path. -/
theorem C150_parent_of_root (h : Path.Plenty alloc vec) (q : Path) (hq : Path.getParent alloc vec ⟨false, [[]]⟩ = .ok q) :
    q.noBuffer = false := by
  rw [(Path.C53_short h []).1] at hq
  cases hq
  rfl

/-- **C150**, exactly when `empty` ("Path is empty only when it has no components", path.hpp:162) tells whether a normalised
path has components (memory available): when the path had none, or something is left. -/
theorem C150_empty_iff (h : Path.Plenty alloc vec) (p : Path) :
    ((p.normalize alloc vec).noBuffer = true ↔ (p.normalize alloc vec).comps = []) ↔
      p.comps = [] ∨ (p.normalize alloc vec).comps ≠ [] := by
  have e : (p.normalize alloc vec).noBuffer = true ↔ p.comps = [] := by
    rw [Path.normalize, h.vec]; simp [Path.ofVector]
  rw [e]
  constructor
  · intro hh
    by_cases hn : (p.normalize alloc vec).comps = []
    · exact .inl (hh.mpr hn)
    · exact .inr hn
  · rintro (h1 | h1)
    · refine ⟨fun _ => ?_, fun _ => h1⟩
      rw [Path.normalize, h.vec, h1]; rfl
    · refine ⟨fun h2 => absurd ?_ h1, fun h2 => absurd h2 h1⟩
      rw [Path.normalize, h.vec, h2]; rfl

example : Path.getBasename ⟨false, [[]]⟩ = [0x2F#8] ∧ Path.getBasename ⟨false, [[], [0x61#8]]⟩ = [0x61#8] ∧
    Path.getParent Path.mem7 (fun _ => .ok ()) ⟨false, [[]]⟩ = .ok ⟨false, [[]]⟩ ∧
    Path.normalize Path.mem7 (fun _ => .ok ()) ⟨false, [[0x61#8], [0x2E#8, 0x2E#8]]⟩ = ⟨false, []⟩ := by decide +kernel

/-! ### Digests -/

/-- **C150**, negation of "Get a length of the digest in bytes" (digestAlgorithm.hpp:49): for no algorithm and no message is
`getDigestLength` the number of bytes of the digest. -/
theorem C150_digest_length_not_bytes (h : Hash.Host) (pieces : List (List Byte)) (m : Hash.Murmur.M32) (n : Hash.Murmur.M128) :
    (∀ d, Hash.Md5.hash h pieces = .ok d → Hash.Md5.digestLength ≠ d.length) ∧
    (∀ d, Hash.Sha1.hash h pieces = .ok d → Hash.Sha1.digestLength ≠ d.length) ∧
    (∀ d, Hash.Sha2.hash h pieces = .ok d → Hash.Sha2.digestLength ≠ d.length) ∧
    Hash.Sha3.digestLength ≠ (Hash.Sha3.hash h pieces).length ∧
    Hash.Murmur.digestLength32 ≠ (m.digest h).1.length ∧ Hash.Murmur.digestLength128 ≠ (n.digest h).1.length := by
  obtain ⟨⟨d1, e1, k1⟩, ⟨d2, e2, k2⟩, ⟨d3, e3, k3⟩, k4, k5, k6⟩ := Hash.C75_digest_length h pieces m n
  have p1 : Hash.Md5.digestLength = 128 := rfl
  have p2 : Hash.Sha1.digestLength = 160 := rfl
  have p3 : Hash.Sha2.digestLength = 256 := rfl
  have p4 : Hash.Sha3.digestLength = 256 := rfl
  have p5 : Hash.Murmur.digestLength32 = 32 := rfl
  have p6 : Hash.Murmur.digestLength128 = 128 := rfl
  refine ⟨?_, ?_, ?_, by omega, by omega, by omega⟩
  · intro d e; rw [e1] at e; cases e; omega
  · intro d e; rw [e2] at e; cases e; omega
  · intro d e; rw [e3] at e; cases e; omega

end Solace.Docs
