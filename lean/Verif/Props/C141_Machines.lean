import Verif.Lemmas.Machine
/-!
C141: on which machines strings, atoms, dial strings and UUIDs come out the same. A machine is a signedness of `char` and a byte order;
"agree" is equality of what two machines compute from the same arguments.
-/
namespace Solace.Machine
open Atom (counted canon cString pad)

/-- The machine of the other models (x86-64). -/
def x86 : Machine := ⟨true, false⟩
/-- ARM and PowerPC under Linux, 64 bits, little endian: `char` is unsigned. -/
def arm : Machine := ⟨false, false⟩

/-! ### The other models are the signed machine -/

theorem hashCode_signed (b : Bool) (s : List Byte) : hashCode ⟨true, b⟩ s = StringView.hashCode s := rfl

theorem comparePathLoop_signed (b : Bool) : ∀ p q : List (List Byte), comparePathLoop ⟨true, b⟩ p q = Path.compareLoop p q
  | [], _ => by rw [comparePathLoop.eq_def, Path.compareLoop.eq_def]
  | _ :: _, [] => rfl
  | a :: as, c :: cs => by
    rw [comparePathLoop, Path.compareLoop]
    show (StringView.compareTo a c >>= _) = (StringView.compareTo a c >>= _)
    congr 1
    funext d
    split
    · rfl
    · exact comparePathLoop_signed b as cs

theorem trim_little (sg : Bool) (s : List Byte) : trim ⟨sg, false⟩ s = .ok (StringView.trim s) := by
  rw [trim, trimFrom_little, Outcome.bind_ok, trimTo_little, Outcome.bind_ok]
  rfl

theorem onPiece_x86 (r : Except Err DialString.Dial) (p : List Byte) (i : Nat) : onPiece x86 r p i = .ok (DialString.onPiece r p i) := by
  rw [onPiece.eq_def, DialString.onPiece.eq_def]
  cases r with
  | error e => rfl
  | ok ds =>
    dsimp only
    rw [x86, trim_little]
    simp only [Outcome.bind_ok]
    split
    · rw [tryParse, Atom.tryParse, wrap_signed]
      by_cases h : (StringView.trim p).length > 8
      · rw [if_pos h]; rfl
      · rw [if_neg h]; rfl
    · split
      · rfl
      · split <;> rfl

/-- **C141**: with signed characters, in little endian order, these functions are the ones of the other properties. -/
theorem C141_reference (s x : List Byte) (p q : Path) (alloc : Nat → Except Err MutView) (w w' : Byte) (n : BitVec 64) (fuel : Nat) :
    compareTo x86 s x = StringView.compareTo s x ∧ comparePath x86 p q = Path.compareTo p q ∧ hashCode x86 s = StringView.hashCode s ∧
    makeReplaceChar x86 alloc s w w' = Str.makeReplaceChar alloc s w w' ∧ tryParse x86 s = Atom.tryParse s ∧
    toBuffer x86 n = Atom.toBuffer n ∧ trim x86 s = .ok (StringView.trim s) ∧
    parseDial x86 fuel s = (DialString.parse fuel s).map .ok := by
  refine ⟨rfl, ?_, rfl, rfl, ?_, rfl, trim_little true s, ?_⟩
  · rw [comparePath, Path.compareTo, x86, comparePathLoop_signed]
  · rw [tryParse, Atom.tryParse, x86, wrap_signed]
  · rw [parseDial, DialString.parse]
    split
    · rfl
    · dsimp only
      have hz : wrap x86 [0#8] = Atom.atom [] := by decide +kernel
      rw [hz]
      split
      · cases StringView.split3 fuel s [0x3A#8] with
        | none => rfl
        | some r =>
          obtain ⟨calls, n⟩ := r
          dsimp only
          rw [Option.map_some]
          congr 1
          generalize (Except.ok ⟨Atom.atom [], s, []⟩ : Except Err DialString.Dial) = r0
          induction calls generalizing r0 with
          | nil => rfl
          | cons c cs ih =>
            rw [List.foldlM_cons, onPiece_x86, Outcome.bind_ok, ih]
            rfl
      · rfl

/-! ### Comparing -/

/-- The character that `compareTo` looks at when the sizes differ. -/
def looked (s x : List Byte) : Option Byte := if x.length < s.length then s[x.length - 1]? else x[x.length - 1]?

/-- **C141**: comparing gives the same on all machines exactly when the sizes are the same, or the right string is empty (the program
ends on all of them), or the one character looked at is below 128. The byte order plays no role. -/
theorem C141_compare_iff (b b' : Bool) (s x : List Byte) (hs : s.length < 2 ^ 16) (hx : x.length < 2 ^ 16) :
    compareTo ⟨true, b⟩ s x = compareTo ⟨false, b'⟩ s x ↔
      s.length = x.length ∨ x = [] ∨ ∀ c, looked s x = some c → c.toNat < 128 := by
  rw [compareTo, compareTo, looked]
  by_cases h1 : s.length > x.length
  · rw [if_pos h1, if_pos h1, if_pos h1]
    by_cases hxe : x = []
    · subst hxe
      have : StringView.charAt s (sub16 ([] : List Byte).length 1) = .throws := by
        rw [StringView.charAt, List.length_nil, sub16_of_lt (by omega) (by omega), List.getElem?_eq_none (by omega)]
      rw [this]
      exact ⟨fun _ => .inr (.inl rfl), fun _ => rfl⟩
    · have hpos := List.length_pos_iff.mpr hxe
      rw [StringView.charAt, sub16_of_le (by omega) (by omega)]
      cases hc : s[x.length - 1]? with
      | none => rw [List.getElem?_eq_none_iff] at hc; omega
      | some c =>
        show (Outcome.ok c.toInt : Outcome Int) = Outcome.ok (c.toNat : Int) ↔ _
        constructor
        · intro h
          injection h with h
          exact .inr (.inr fun d hd => by cases hd; exact (toInt_eq_iff c).mp h)
        · rintro (h | h | h)
          · omega
          · exact absurd h hxe
          · rw [(toInt_eq_iff c).mpr (h c rfl)]
  · rw [if_neg h1, if_neg h1, if_neg h1]
    by_cases h2 : s.length < x.length
    · rw [if_pos h2, if_pos h2, StringView.charAt, sub16_of_le (by omega) (by omega)]
      cases hc : x[x.length - 1]? with
      | none => rw [List.getElem?_eq_none_iff] at hc; omega
      | some c =>
        show (Outcome.ok (-c.toInt) : Outcome Int) = Outcome.ok (-(c.toNat : Int)) ↔ _
        constructor
        · intro h
          injection h with h
          exact .inr (.inr fun d hd => by cases hd; exact (toInt_eq_iff c).mp (by omega))
        · rintro (h | h | h)
          · omega
          · subst h; exact absurd h2 (by simp)
          · rw [(toInt_eq_iff c).mpr (h c rfl)]
    · rw [if_neg h2, if_neg h2]
      exact ⟨fun _ => .inl (by omega), fun _ => rfl⟩

/-- The signs may be opposite: "aé" is before "a" on one machine and after it on the other. -/
example : compareTo x86 [0x61#8, 0xE9#8] [0xC3#8, 0xA9#8, 0x61#8] = .ok (-97) ∧ compareTo x86 [0xE9#8, 0x61#8] [0xE9#8] = .ok (-23) ∧
    compareTo arm [0xE9#8, 0x61#8] [0xE9#8] = .ok 233 := by decide +kernel

/-- **C141**: with unsigned characters, comparing is the shortlex order for all strings without NUL, except that a non-empty string must
not be compared with an empty one. With signed characters C22 needs the characters to be below 128 as well. -/
theorem C141_compare_unsigned (b : Bool) (s x : List Byte) (h0 : 0#8 ∉ s) (h0' : 0#8 ∉ x) (hs : s.length < 2 ^ 16)
    (hx : x.length < 2 ^ 16) (h : x ≠ [] ∨ s = []) :
    ∃ r, compareTo ⟨false, b⟩ s x = .ok r ∧ (r < 0 ↔ Strings.shortlexLt s x) ∧ (r = 0 ↔ s = x) ∧ (0 < r ↔ Strings.shortlexLt x s) := by
  have pos : ∀ c : Byte, c ≠ 0#8 → 0 < c.toNat := by
    intro c hc
    rcases Nat.eq_zero_or_pos c.toNat with h | h
    · exact absurd (BitVec.eq_of_toNat_eq h) hc
    · exact h
  rw [compareTo]
  by_cases h1 : s.length > x.length
  · rw [if_pos h1]
    have hxne : x ≠ [] := by
      rcases h with h | h
      · exact h
      · subst h; simp at h1
    have hpos := List.length_pos_iff.mpr hxne
    have hi : x.length - 1 < s.length := by omega
    rw [sub16_of_le (by omega) hx, StringView.charAt, List.getElem?_eq_getElem hi]
    have hc := pos s[x.length - 1] (fun e => h0 (e ▸ List.getElem_mem hi))
    refine ⟨(s[x.length - 1].toNat : Int), rfl, ?_, ?_, ?_⟩
    · refine ⟨fun h => by omega, fun h => ?_⟩
      rcases h with h | h <;> omega
    · refine ⟨fun h => by omega, fun h => ?_⟩
      rw [h] at h1; omega
    · exact ⟨fun _ => .inl h1, fun _ => by omega⟩
  · rw [if_neg h1]
    by_cases h2 : s.length < x.length
    · rw [if_pos h2]
      have hi : x.length - 1 < x.length := by omega
      rw [sub16_of_le (by omega) hx, StringView.charAt, List.getElem?_eq_getElem hi]
      have hc := pos x[x.length - 1] (fun e => h0' (e ▸ List.getElem_mem hi))
      refine ⟨-(x[x.length - 1].toNat : Int), rfl, ?_, ?_, ?_⟩
      · exact ⟨fun _ => .inl h2, fun _ => by omega⟩
      · refine ⟨fun h => by omega, fun h => ?_⟩
        rw [h] at h2; omega
      · refine ⟨fun h => by omega, fun h => ?_⟩
        rcases h with h | h <;> omega
    · rw [if_neg h2]
      have hlen : s.length = x.length := by omega
      refine ⟨_, rfl, ?_⟩
      have irr := StringView.shortlex_irrefl
      have tr : ∀ {a c : List Byte}, a.length = c.length → Strings.lexLt a c → ¬ Strings.shortlexLt c a := by
        intro a c hl h h'
        rcases h' with h' | h'
        · omega
        · exact irr a (.inr ⟨rfl, StringView.lexLt_trans h h'.2⟩)
      rcases StringView.strncmp_spec s x hlen (fun c hc e => h0 (e ▸ hc)) with ⟨k1, k2⟩ | ⟨k1, k2⟩ | ⟨k1, k2⟩
      · exact ⟨⟨fun _ => .inr ⟨hlen, k2⟩, fun _ => k1⟩, ⟨fun h => by omega, (fun h => (by rw [h] at k2; exact absurd (.inr ⟨rfl, k2⟩) (irr x)))⟩,
          ⟨fun h => by omega, fun h => absurd h (tr hlen k2)⟩⟩
      · rw [k1, k2]
        exact ⟨⟨fun h => by omega, fun h => absurd h (irr x)⟩, ⟨fun _ => rfl, fun _ => rfl⟩,
          ⟨fun h => by omega, fun h => absurd h (irr x)⟩⟩
      · exact ⟨⟨fun h => by omega, fun h => absurd h (tr hlen.symm k2)⟩, ⟨fun h => by omega, (fun h => (by rw [h] at k2; exact absurd (.inr ⟨rfl, k2⟩) (irr x)))⟩,
          ⟨fun _ => .inr ⟨hlen.symm, k2⟩, fun _ => k1⟩⟩

example : 0#8 ∉ [0xE9#8, 0x61#8] ∧ compareTo arm [0xE9#8, 0x61#8] [0xE9#8] = .ok 233 ∧ compareTo arm [0xE9#8] [0xE8#8] = .ok 1 := by
  decide +kernel

theorem comparePathLoop_ascii (b b' : Bool) : ∀ p q : List (List Byte), (∀ c ∈ p, c.length < 2 ^ 16 ∧ ∀ x ∈ c, x.toNat < 128) →
    (∀ c ∈ q, c.length < 2 ^ 16 ∧ ∀ x ∈ c, x.toNat < 128) → comparePathLoop ⟨true, b⟩ p q = comparePathLoop ⟨false, b'⟩ p q
  | [], _, _, _ => by rw [comparePathLoop.eq_def, comparePathLoop.eq_def]
  | _ :: _, [], _, _ => rfl
  | a :: as, c :: cs, hp, hq => by
    have ha := hp a (by simp)
    have hc := hq c (by simp)
    have e : compareTo ⟨true, b⟩ a c = compareTo ⟨false, b'⟩ a c := by
      rw [C141_compare_iff b b' a c ha.1 hc.1]
      refine .inr (.inr fun d hd => ?_)
      rw [looked] at hd
      split at hd
      · exact ha.2 d (List.mem_of_getElem? hd)
      · exact hc.2 d (List.mem_of_getElem? hd)
    rw [comparePathLoop, comparePathLoop, e]
    congr 1
    funext d
    split
    · rfl
    · exact comparePathLoop_ascii b b' as cs (fun c h => hp c (by simp [h])) (fun c h => hq c (by simp [h]))

/-- **C141** (partial: ASCII components): comparing paths gives the same on all machines. -/
theorem C141_path_partial (b b' : Bool) (p q : Path) (hp : ∀ c ∈ p.comps, c.length < 2 ^ 16 ∧ ∀ x ∈ c, x.toNat < 128)
    (hq : ∀ c ∈ q.comps, c.length < 2 ^ 16 ∧ ∀ x ∈ c, x.toNat < 128) :
    comparePath ⟨true, b⟩ p q = comparePath ⟨false, b'⟩ p q := by
  rw [comparePath, comparePath, comparePathLoop_ascii b b' p.comps q.comps hp hq]

/-- **C141, negation**: the paths "é0/b" and "é/a" are in opposite orders on two machines. -/
theorem C141_path_negation : comparePath x86 ⟨false, [[0xE9#8, 0x30#8], [0x62#8]]⟩ ⟨false, [[0xE9#8], [0x61#8]]⟩ = .ok (-23) ∧
    comparePath arm ⟨false, [[0xE9#8, 0x30#8], [0x62#8]]⟩ ⟨false, [[0xE9#8], [0x61#8]]⟩ = .ok 233 := by decide +kernel

example : ∀ c ∈ (⟨false, [[0x61#8, 0x62#8], [0x63#8]]⟩ : Path).comps, c.length < 2 ^ 16 ∧ ∀ x ∈ c, x.toNat < 128 := by decide

/-! ### Hash codes -/

/-- The string of ones and zeros that tells where the characters from 128 on are. -/
def highs (s : List Byte) : List Byte := s.map fun c => if c.toNat < 128 then 0#8 else 1#8

theorem widen_diff (b b' : Bool) (c : Byte) :
    widen ⟨false, b⟩ c = widen ⟨true, b'⟩ c + 256#64 * (if c.toNat < 128 then 0#8 else 1#8).signExtend 64 := by
  rw [widen_signed, widen_unsigned]
  revert c
  decide +kernel

/-- **C141**: the hash codes of two machines differ by 256 times the hash code of the string that marks the characters from 128 on. -/
theorem C141_hash_difference (b b' : Bool) (s : List Byte) :
    hashCode ⟨false, b⟩ s = hashCode ⟨true, b'⟩ s + 256#64 * StringView.hashCode (highs s) := by
  rw [hashCode, hashCode, StringView.hashCode, highs]
  have key : ∀ (s : List Byte) (u v d : BitVec 64), u = v + 256#64 * d →
      s.foldl (fun h c => widen ⟨false, b⟩ c + h * 31#64) u =
        s.foldl (fun h c => widen ⟨true, b'⟩ c + h * 31#64) v +
          256#64 * (s.map fun c => if c.toNat < 128 then 0#8 else 1#8).foldl (fun h c => c.signExtend 64 + h * 31#64) d := by
    intro s
    induction s with
    | nil => intro u v d h; exact h
    | cons c s ih =>
      intro u v d h
      rw [List.foldl_cons, List.foldl_cons, List.map_cons, List.foldl_cons]
      apply ih
      rw [h, widen_diff b b' c]
      generalize (if c.toNat < 128 then (0#8 : Byte) else 1#8).signExtend 64 = e
      generalize widen ⟨true, b'⟩ c = w
      rw [BitVec.mul_add, BitVec.add_mul, BitVec.mul_assoc]
      ac_rfl
  exact key s 0#64 0#64 0#64 rfl

/-- **C141**: ASCII strings have the same hash code everywhere. -/
theorem C141_hash_ascii (b b' : Bool) (s : List Byte) (h : ∀ c ∈ s, c.toNat < 128) : hashCode ⟨false, b⟩ s = hashCode ⟨true, b'⟩ s := by
  rw [C141_hash_difference b b' s]
  have : StringView.hashCode (highs s) = 0#64 := by
    rw [StringView.hashCode, highs]
    induction s with
    | nil => rfl
    | cons c s ih =>
      rw [List.map_cons, List.foldl_cons, if_pos (h c (by simp))]
      exact ih fun c hc => h c (by simp [hc])
  rw [this]
  simp

theorem hash_parity (s : List Byte) (d : BitVec 64) :
    ((s.map fun c => if c.toNat < 128 then (0#8 : Byte) else 1#8).foldl (fun h c => c.signExtend 64 + h * 31#64) d).toNat % 2 =
      (d.toNat + s.countP fun c => 128 ≤ c.toNat) % 2 := by
  induction s generalizing d with
  | nil => rfl
  | cons c s ih =>
    rw [List.map_cons, List.foldl_cons, ih, List.countP_cons]
    by_cases hc : c.toNat < 128
    · have e : ((0#8).signExtend 64 + d * 31#64).toNat % 2 = d.toNat % 2 := by
        rw [show (0#8).signExtend 64 = 0#64 by decide, BitVec.zero_add, BitVec.toNat_mul, show (31#64).toNat = 31 from rfl]
        omega
      rw [if_pos hc, if_neg (by simpa using hc)]
      omega
    · have e : ((1#8).signExtend 64 + d * 31#64).toNat % 2 = (d.toNat + 1) % 2 := by
        rw [show (1#8).signExtend 64 = 1#64 by decide, BitVec.toNat_add, BitVec.toNat_mul, show (31#64).toNat = 31 from rfl,
          show (1#64).toNat = 1 from rfl]
        omega
      rw [if_neg hc, if_pos (by simpa using hc)]
      omega

/-- **C141, negation**: a string with an odd number of characters from 128 on has different hash codes on machines with signed and with
unsigned characters. -/
theorem C141_hash_negation (b b' : Bool) (s : List Byte) (h : (s.countP fun c => 128 ≤ c.toNat) % 2 = 1) :
    hashCode ⟨false, b⟩ s ≠ hashCode ⟨true, b'⟩ s := by
  intro e
  rw [C141_hash_difference b b' s] at e
  have hp := hash_parity s 0#64
  rw [show (0#64).toNat = 0 from rfl, Nat.zero_add, h] at hp
  change (StringView.hashCode (highs s)).toNat % 2 = 1 at hp
  have hz : 256#64 * StringView.hashCode (highs s) = 0#64 := by
    generalize hashCode ⟨true, b'⟩ s = u at e
    generalize 256#64 * StringView.hashCode (highs s) = d at e
    have := congrArg (· - u) e
    simp only [BitVec.sub_self] at this
    rw [BitVec.add_comm, BitVec.add_sub_cancel] at this
    exact this
  have := congrArg BitVec.toNat hz
  rw [BitVec.toNat_mul, show (256#64).toNat = 256 from rfl, show (0#64).toNat = 0 from rfl] at this
  omega

example : ([0x63#8, 0x61#8, 0xE9#8].countP fun c => 128 ≤ c.toNat) % 2 = 1 := by decide
example : ∀ c ∈ [0x63#8, 0x61#8, 0x66#8], c.toNat < 128 := by decide

/-! ### Replacing characters -/

theorem replace_unsigned (b : Bool) (alloc : Nat → Except Err MutView) (s : List Byte) (w w' : Byte) (v : MutView)
    (hv : alloc s.length = .ok v) (hl : v.bytes.length = s.length) :
    makeReplaceChar ⟨false, b⟩ alloc s w w' =
      if v.null then .error .dom else .ok ⟨s.map fun c => if c = w then w' else c, s.length⟩ := by
  rw [makeReplaceChar, hv]
  simp only [MutView.write]
  by_cases hn : v.null = true
  · rw [if_pos hn, if_pos hn]
  · rw [if_neg hn, if_neg (by omega), if_neg hn]
    simp only
    congr 2
    rw [← hl, List.drop_length, List.append_nil, hl]
    apply List.ext_getElem?
    intro i
    rw [List.getElem?_map, List.getElem?_map, List.getElem?_zipIdx]
    cases hi : s[i]? with
    | none => rfl
    | some c =>
      have hlt := (List.getElem?_eq_some_iff.mp hi).1
      simp only [Option.map_some, Nat.zero_add]
      congr 1
      have : (i < s.length ∧ (c.toNat : Int) = promote ⟨false, b⟩ w) ↔ c = w := by
        rw [promote_unsigned]
        constructor
        · rintro ⟨_, h⟩; exact BitVec.eq_of_toNat_eq (by omega)
        · rintro rfl; exact ⟨hlt, rfl⟩
      by_cases hc : c = w
      · rw [if_pos (this.mpr hc), if_pos hc]
      · rw [if_neg (fun h => hc (this.mp h)), if_neg hc]

/-- **C141**: with unsigned characters every character is replaced, whichever it is: an error, or the text with each occurrence
replaced. With signed characters C31 needs the character to be below 128. -/
theorem C141_replace_unsigned (b : Bool) (alloc : Nat → Except Err MutView) (ha : Str.AllocOk alloc) (s : List Byte) (w w' : Byte) :
    (∃ e, makeReplaceChar ⟨false, b⟩ alloc s w w' = .error e) ∨
    ∃ str, makeReplaceChar ⟨false, b⟩ alloc s w w' = .ok str ∧ str.view = s.map fun c => if c = w then w' else c := by
  cases hv : alloc s.length with
  | error e => exact .inl ⟨e, by rw [makeReplaceChar, hv]⟩
  | ok v =>
    rw [replace_unsigned b alloc s w w' v hv (ha _ v hv).1]
    by_cases hn : v.null = true
    · rw [if_pos hn]; exact .inl ⟨_, rfl⟩
    · rw [if_neg hn]
      refine .inr ⟨_, rfl, ?_⟩
      have := Str.view_whole (s.map fun c => if c = w then w' else c)
      rwa [List.length_map] at this

/-- **C141**: when the memory is given, replacing gives the same on all machines exactly when the character is below 128, or does not
occur, or is replaced by itself. -/
theorem C141_replace_iff (b b' : Bool) (alloc : Nat → Except Err MutView) (ha : Str.AllocOk alloc) (s : List Byte) (w w' : Byte) (v : MutView)
    (hv : alloc s.length = .ok v) (hn : v.null = false) :
    (makeReplaceChar ⟨true, b⟩ alloc s w w').toOption.map Str.view = (makeReplaceChar ⟨false, b'⟩ alloc s w w').toOption.map Str.view ↔
      w.toNat < 128 ∨ w ∉ s ∨ w' = w := by
  have hl := (ha _ v hv).1
  obtain ⟨str, h1, h2⟩ := ((Str.C31_replace_char_exact alloc ha s w w').2 v hv).2 hn
  have hs : makeReplaceChar ⟨true, b⟩ alloc s w w' = .ok str := h1
  have hv2 := Str.view_whole (s.map fun c => if c = w then w' else c)
  rw [List.length_map] at hv2
  rw [hs, replace_unsigned b' alloc s w w' v hv hl, if_neg (by simp [hn])]
  simp only [Except.toOption, Option.map_some, Option.some.injEq]
  rw [h2, hv2]
  constructor
  · intro e
    by_cases hw : w.toNat < 128
    · exact .inl hw
    · by_cases hm : w ∈ s
      · have hp := List.map_inj_left.mp e w hm
        rw [if_neg (fun h => hw h.1), if_pos rfl] at hp
        exact .inr (.inr hp.symm)
      · exact .inr (.inl hm)
  · intro h
    apply List.map_congr_left
    intro c hc
    by_cases hcw : c = w
    · subst hcw
      rcases h with h | h | h
      · rw [if_pos ⟨h, rfl⟩, if_pos rfl]
      · exact absurd hc h
      · rw [h]; split <;> simp
    · rw [if_neg (fun h => hcw h.2), if_neg hcw]

example : (∃ v, (fun n => (Except.ok ⟨false, List.replicate n 0#8⟩ : Except Err MutView)) 3 = .ok v ∧ v.null = false) :=
  ⟨_, rfl, rfl⟩

/-! ### Atoms -/

/-- **C141**: two machines make the same atom of a text exactly when, among the characters before the first NUL, those before a
character from 128 on are all 255; every atom is printed alike. -/
theorem C141_atom_iff (b b' : Bool) (s : List Byte) (hs : s.length ≤ 8) :
    (tryParse ⟨true, b⟩ s = tryParse ⟨false, b'⟩ s ↔
      ∀ p c q, counted s = p ++ c :: q → 128 ≤ c.toNat → ∀ x ∈ p, x = 0xFF#8) ∧
    ∀ n, toBuffer ⟨true, b⟩ n = toBuffer ⟨false, b'⟩ n := by
  constructor
  · have hle := Atom.counted_le s
    rw [← Atom.canon_eq_iff, tryParse, tryParse, if_neg (by omega), if_neg (by omega), wrap_signed]
    have hu := wrap_unsigned_counted b' s hs
    have hsg := Atom.wrap_value (counted s) (by omega) (Atom.counted_no_nul s) [] (.inl rfl)
    rw [List.append_nil, ← Atom.wrap_counted s hs] at hsg
    have hlc : (canon (counted s)).length ≤ 8 := by rw [Atom.canon_length]; omega
    constructor
    · intro h
      injection h with h
      have hp : pad (canon (counted s)) = pad (counted s) := by
        apply Atom.value_inj _ _ (by rw [Atom.pad_length _ hlc, Atom.pad_length _ (by omega)])
        rw [← hsg, ← hu, h]
      have h1 := Atom.cString_pad (canon (counted s)) (Atom.canon_no_nul _ (Atom.counted_no_nul s))
      rw [hp, Atom.cString_pad _ (Atom.counted_no_nul s)] at h1
      exact h1.symm
    · intro h
      congr 1
      exact BitVec.eq_of_toNat_eq (by rw [hsg, hu, h])
  · intro n
    rw [toBuffer, toBuffer]
    congr 1
    apply List.map_congr_left
    intro i _
    rw [widen_signed, widen_unsigned, show (0xFF#8).signExtend 64 = BitVec.allOnes 64 by decide, BitVec.and_allOnes]
    apply BitVec.eq_of_getLsbD_eq
    intro j hj
    simp only [BitVec.getLsbD_setWidth, BitVec.getLsbD_and, hj, decide_true, Bool.true_and]
    have : (0xFF#8).getLsbD j = true := by
      revert j; decide
    simp [this, hj, show j < 64 by omega]

/-- **C141**: with unsigned characters C40 holds for all texts of up to 8 characters other than NUL: the atom is printed as the text,
distinct texts give distinct atoms, and they are ordered like the texts. -/
theorem C141_atom_unsigned (b : Bool) (s t : List Byte) (hs : s.length ≤ 8) (ht : t.length ≤ 8) (h0 : ∀ c ∈ s, c ≠ 0#8)
    (h0' : ∀ c ∈ t, c ≠ 0#8) :
    ∃ x y, tryParse ⟨false, b⟩ s = .ok x ∧ tryParse ⟨false, b⟩ t = .ok y ∧ cString (toBuffer ⟨false, b⟩ x) = s ∧
      (x = y ↔ s = t) ∧ (x.toNat < y.toNat ↔ Strings.lexLt s t) := by
  have hws := wrap_unsigned_value b s hs h0 [] (.inl rfl)
  have hwt := wrap_unsigned_value b t ht h0' [] (.inl rfl)
  rw [List.append_nil] at hws hwt
  have hbuf : ∀ n, toBuffer ⟨false, b⟩ n = Atom.toBuffer n := fun n => ((C141_atom_iff true b [] (by decide)).2 n).symm
  refine ⟨_, _, by rw [tryParse, if_neg (by omega)], by rw [tryParse, if_neg (by omega)], ?_, ?_, ?_⟩
  · rw [hbuf, Atom.toBuffer_value (pad s) (Atom.pad_length s hs) _ hws, Atom.cString_pad s h0]
  · constructor
    · intro h
      have hp : pad s = pad t := by
        apply Atom.value_inj _ _ (by rw [Atom.pad_length s hs, Atom.pad_length t ht])
        rw [← hws, ← hwt, h]
      have := Atom.cString_pad s h0
      rw [hp, Atom.cString_pad t h0'] at this
      exact this.symm
    · rintro rfl; rfl
  · rw [hws, hwt, Atom.value_lexLt _ _ (by rw [Atom.pad_length s hs, Atom.pad_length t ht]), pad, pad,
      Atom.lexLt_pad _ _ _ _ h0 h0' (by omega)]

/-- "té" is printed as "té" by one machine and as "\xFFé" by the other. -/
example : (tryParse arm [0x74#8, 0xE9#8]).toOption.map (fun a => cString (toBuffer arm a)) = some [0x74#8, 0xE9#8] ∧
    (tryParse x86 [0x74#8, 0xE9#8]).toOption.map (fun a => cString (toBuffer x86 a)) = some [0xFF#8, 0xE9#8] := by decide +kernel

/-! ### Trimming -/

/-- **C141**: little endian machines trim alike. -/
theorem C141_trim_little (sg : Bool) (s : List Byte) : trim ⟨sg, false⟩ s = .ok (StringView.trim s) := trim_little sg s

theorem trimFrom_big (sg : Bool) (s : List Byte) : ∀ k i, i + k = s.length →
    trimFrom ⟨sg, true⟩ s k i = (match s[i]? with | none => .ok i | some c => if c = 0#8 then .ok i else .ub)
  | 0, i, h => by rw [trimFrom, List.getElem?_eq_none (by omega)]
  | k + 1, i, h => by
    rw [trimFrom]
    have hi : i < s.length := by omega
    rw [List.getElem?_eq_getElem hi]
    dsimp only
    rw [isSpace_big]
    split <;> rfl

/-- **C141, negation**: on big endian machines `trim()` hands `isspace` a number it is not made for, as soon as it looks at a character
other than NUL. It is defined only for the empty string and for strings whose first and last characters are NUL, which it leaves as
they are. -/
theorem C141_trim_big (sg : Bool) (s : List Byte) :
    trim ⟨sg, true⟩ s = if s = [] ∨ (s.head? = some 0#8 ∧ s.getLast? = some 0#8) then .ok s else .ub := by
  cases s with
  | nil => cases sg <;> rfl
  | cons c r =>
    rw [trim, trimFrom_big sg (c :: r) _ 0 (by omega)]
    simp only [List.getElem?_cons_zero]
    by_cases hc : c = 0#8
    · rw [if_pos hc, Outcome.bind_ok, List.length_cons, trimTo]
      by_cases hr : r.length = 0
      · rw [if_neg (by omega), Outcome.bind_ok]
        have : r = [] := List.length_eq_zero_iff.mp hr
        subst this hc
        rfl
      · rw [if_pos (by omega)]
        have hlast : (c :: r)[r.length]? = (c :: r).getLast? := by
          rw [List.getLast?_eq_getElem?, List.length_cons, Nat.add_sub_cancel]
        rw [hlast]
        cases hl : (c :: r).getLast? with
        | none => simp at hl
        | some d =>
          dsimp only
          rw [isSpace_big]
          by_cases hd : d = 0#8
          · rw [if_pos hd, if_pos (.inr ⟨by simp [hc], by simp [hd]⟩), Outcome.bind_ok, if_neg (by decide)]
            show Outcome.ok (StringView.substring (c :: r) 0 (r.length + 1)) = _
            rw [StringView.substring]
            simp
          · rw [if_neg hd, if_neg (by simp [hd])]
            rfl
    · rw [if_neg hc, if_neg (by simp [hc])]
      rfl

/-! ### Dial strings -/

theorem mem_trim (s : List Byte) : ∀ c ∈ StringView.trim s, c ∈ s := by
  intro c hc
  rw [StringView.trim, StringView.trimBy, StringView.substring] at hc
  exact List.mem_of_mem_drop (List.mem_of_mem_take hc)

theorem mem_split (s d : List Byte) (dc : Nat) : ∀ (fuel to' from' i : Nat) (acc : List (List Byte × Nat × Nat)),
    (∀ p ∈ acc, ∀ c ∈ p.1, c ∈ s) → ∀ r, StringView.split3Loop s d dc fuel to' from' i acc = some r → ∀ p ∈ r.1, ∀ c ∈ p.1, c ∈ s
  | 0, _, _, _, _, _, r, h => by cases h
  | fuel + 1, to', from', i, acc, ha, r, h => by
    rw [StringView.split3Loop] at h
    split at h
    · split at h
      · refine mem_split s d dc fuel _ _ _ _ ?_ r h
        intro p hp
        rcases List.mem_append.mp hp with hp | hp
        · exact ha p hp
        · rw [List.mem_singleton.mp hp]
          intro c hc
          rw [StringView.substring] at hc
          exact List.mem_of_mem_drop (List.mem_of_mem_take hc)
      · exact mem_split s d dc fuel _ _ _ _ ha r h
    · cases h
      exact ha

theorem onPiece_ascii (r : Except Err DialString.Dial) (p : List Byte) (i : Nat) (h : ∀ c ∈ p, c.toNat < 128) :
    onPiece arm r p i = onPiece x86 r p i := by
  rw [onPiece.eq_def, onPiece.eq_def]
  cases r with
  | error e => rfl
  | ok ds =>
    dsimp only
    rw [x86, arm, trim_little, trim_little]
    simp only [Outcome.bind_ok]
    split
    · have e : tryParse ⟨false, false⟩ (StringView.trim p) = tryParse ⟨true, false⟩ (StringView.trim p) := by
        by_cases hl : (StringView.trim p).length ≤ 8
        · refine (((C141_atom_iff false false _ hl).1).mpr ?_).symm
          intro a c q hq hc
          have hm : c ∈ counted (StringView.trim p) := by rw [hq]; simp
          have := h c (mem_trim p c (DialString.counted_mem _ c hm))
          omega
        · rw [tryParse, tryParse, if_pos (by omega), if_pos (by omega)]
      rw [e]
    · rfl

/-- **C141** (partial: ASCII texts, little endian machines): dial strings are parsed alike. -/
theorem C141_dial_partial (fuel : Nat) (data : List Byte) (h : ∀ c ∈ data, c.toNat < 128) :
    parseDial arm fuel data = parseDial x86 fuel data := by
  rw [parseDial, parseDial]
  split
  · rfl
  · dsimp only
    have hz : wrap arm [0#8] = wrap x86 [0#8] := by decide +kernel
    rw [hz]
    split
    · cases hsp : StringView.split3 fuel data [0x3A#8] with
      | none => rfl
      | some r =>
        obtain ⟨calls, n⟩ := r
        dsimp only
        have hm : ∀ p ∈ calls, ∀ c ∈ p.1, c.toNat < 128 := by
          rw [StringView.split3] at hsp
          split at hsp
          · cases hsp
          · rename_i dc _
            split at hsp
            · cases hsp
            · rename_i acc from' hl
              cases hsp
              intro p hp c hc
              rcases List.mem_append.mp hp with hp | hp
              · exact h c (mem_split data _ dc _ _ _ _ _ (by simp) _ hl p hp c hc)
              · rw [List.mem_singleton.mp hp, StringView.substring] at hc
                exact h c (List.mem_of_mem_drop (List.mem_of_mem_take hc))
        congr 1
        generalize (Except.ok ⟨wrap x86 [0#8], data, []⟩ : Except Err DialString.Dial) = r0
        clear hsp
        induction calls generalizing r0 with
        | nil => rfl
        | cons c cs ih =>
          rw [List.foldlM_cons, List.foldlM_cons, onPiece_ascii r0 c.1 c.2.1 (hm c (by simp))]
          congr 1
          funext r
          exact ih (fun p hp => hm p (by simp [hp])) r
    · rfl

/-- **C141, negation**: "té:x" has different protocols on two little endian machines, and "tcp:x" is not parsed at all on big endian
ones. -/
theorem C141_dial_negation :
    (∃ a b, parseDial x86 5 [0x74#8, 0xE9#8, 0x3A#8, 0x78#8] = some (.ok (.ok a)) ∧
      parseDial arm 5 [0x74#8, 0xE9#8, 0x3A#8, 0x78#8] = some (.ok (.ok b)) ∧ a.protocol ≠ b.protocol ∧ a.address = b.address) ∧
    ∀ sg, parseDial ⟨sg, true⟩ 6 [0x74#8, 0x63#8, 0x70#8, 0x3A#8, 0x78#8] = some .ub := by
  refine ⟨⟨⟨0xFFE9000000000000#64, [0x78#8], []⟩, ⟨0x74E9000000000000#64, [0x78#8], []⟩, ?_, ?_, ?_, rfl⟩, ?_⟩ <;> decide +kernel

example : parseDial arm 6 [0x74#8, 0x63#8, 0x70#8, 0x3A#8, 0x78#8] = some (.ok (.ok ⟨0x7463700000000000#64, [0x78#8], []⟩)) := by
  decide +kernel

end Solace.Machine
