import Verif.Lemmas.String
/-
C29 (concatenation), C30 (joining a list), C31 (replacing), C73 (joining arguments).
`AllocOk alloc`: the memory manager gives memory of the requested size (C17), with arbitrary content.
-/
namespace Solace.Str
open ByteWriter Strings

attribute [local irreducible] ByteWriter.write

/-! ### C29 -/

/-- **C29** for one argument (full): an error, or a string with the same content. -/
theorem C29_make (alloc : Nat → Except Err MutView) (ha : AllocOk alloc) (s : List Byte) :
    (∃ e, make alloc s = .error e) ∨ ∃ str, make alloc s = .ok str ∧ str.view = s := by
  rw [make]
  cases h : alloc s.length with
  | error e => exact .inl ⟨e, rfl⟩
  | ok v =>
    obtain ⟨hl, _⟩ := ha _ v h
    simp only [MutView.write]
    by_cases hn : v.null = true
    · rw [if_pos hn]; exact .inl ⟨.dom, rfl⟩
    · rw [if_neg hn, if_neg (by omega)]
      refine .inr ⟨_, rfl, ?_⟩
      simp only
      rw [← hl, List.drop_length, List.append_nil, hl]
      exact view_whole s

/-- **C29** (partial: total length below 65536): the only error is that of the memory manager; otherwise the content is
the concatenation. Missing: longer totals, where the negation below holds. -/
theorem C29_concat_partial (alloc : Nat → Except Err MutView) (ha : AllocOk alloc) (args : List (List Byte))
    (h : args.flatten.length < 2 ^ 16) :
    (∃ e, alloc args.flatten.length = .error e ∧ makeConcat alloc args = .error e) ∨
    ∃ str, makeConcat alloc args = .ok str ∧ str.view = args.flatten := by
  rw [makeConcat, ← flatten_length, wrap16_of_lt h]
  cases hv : alloc args.flatten.length with
  | error e => exact .inl ⟨e, rfl, rfl⟩
  | ok v =>
    obtain ⟨hl, _⟩ := ha _ v hv
    refine .inr ⟨_, rfl, ?_⟩
    rw [writeArgs_eq, writeChunks_fits args _ (ofBuffer_ready _ (by omega)) (by simp only [ofBuffer]; omega)]
    simp only
    rw [wrote_all _ _ hl.symm, view_whole]

/-- **C29, negation**: whenever the total reaches 65536 and memory is available, the call succeeds with a string that is
too short. -/
theorem C29_concat_truncates (alloc : Nat → Except Err MutView) (args : List (List Byte))
    (h : 2 ^ 16 ≤ args.flatten.length) (v : MutView) (hv : alloc (args.flatten.length % 2 ^ 16) = .ok v) :
    ∃ str, makeConcat alloc args = .ok str ∧ str.view.length < args.flatten.length := by
  rw [makeConcat, ← flatten_length, wrap16_def, hv]
  refine ⟨_, rfl, ?_⟩
  refine Nat.lt_of_le_of_lt (view_length_le _) ?_
  simp only
  omega

example : makeConcat (fun n => .ok ⟨false, List.replicate n 7#8⟩) [[1#8, 2#8], [], [3#8]] = .ok ⟨[1#8, 2#8, 3#8], 3⟩ := by
  decide +kernel
example : AllocOk (fun n => .ok ⟨false, List.replicate n 7#8⟩) := by
  intro n v h; cases h; exact ⟨List.length_replicate, fun h => by cases h⟩

/-! ### C30 -/

/-- **C30** (partial: non-empty list): an error, or a string whose content is the elements separated by `by`. A total of
65536 or more is an error. Missing: the empty list with a non-empty separator, where the negation below holds. -/
theorem C30_join_partial (alloc : Nat → Except Err MutView) (ha : AllocOk alloc) (by' : List Byte) (list : List (List Byte))
    (hl : list ≠ []) (hn : list.length < 2 ^ 64) :
    (∃ e, makeJoin alloc by' list = .error e) ∨ ∃ str, makeJoin alloc by' list = .ok str ∧ str.view = by'.intercalate list := by
  rw [makeJoin, joinLength_eq by' list hl hn]
  cases hv : alloc (wrap16 (by'.intercalate list).length) with
  | error e => exact .inl ⟨e, rfl⟩
  | ok v =>
    obtain ⟨hlen, _⟩ := ha _ v hv
    have hlt := wrap16_lt (by'.intercalate list).length
    have hr := ofBuffer_ready v.bytes (by omega)
    simp only
    rw [writeJoin_eq]
    by_cases hs : (by'.intercalate list).length < 2 ^ 16
    · rw [wrap16_of_lt hs] at hlen ⊢
      rw [writeChunks_fits _ _ hr (by simp only [ofBuffer]; rw [List.intercalate] at hlen; omega)]
      refine .inr ⟨_, rfl, ?_⟩
      have : (list.intersperse by').flatten = by'.intercalate list := rfl
      rw [this, wrote_all _ _ hlen.symm, view_whole]
    · obtain ⟨s', h1, _⟩ := writeChunks_short (list.intersperse by') (ofBuffer v.bytes) hr (by
        have : (list.intersperse by').flatten = by'.intercalate list := rfl
        simp only [ofBuffer, this]; omega)
      rw [h1]
      exact .inl ⟨_, rfl⟩

/-- **C30**, success: when the total is below 65536 and memory is available the join succeeds. -/
theorem C30_join_succeeds (alloc : Nat → Except Err MutView) (ha : AllocOk alloc) (by' : List Byte) (list : List (List Byte))
    (hl : list ≠ []) (hn : list.length < 2 ^ 64) (hs : (by'.intercalate list).length < 2 ^ 16) (v : MutView)
    (hv : alloc (by'.intercalate list).length = .ok v) :
    ∃ str, makeJoin alloc by' list = .ok str ∧ str.view = by'.intercalate list := by
  rcases C30_join_partial alloc ha by' list hl hn with ⟨e, he⟩ | h
  · rw [makeJoin, joinLength_eq by' list hl hn, wrap16_of_lt hs, hv] at he
    obtain ⟨hlen, _⟩ := ha _ v hv
    simp only at he
    rw [writeJoin_eq, writeChunks_fits _ _ (ofBuffer_ready v.bytes (by omega))
      (by simp only [ofBuffer]; rw [List.intercalate] at hlen; omega)] at he
    cases he
  · exact h

/-- **C30, negation**: for the empty list and a non-empty separator the call succeeds with 65536 - |by| characters of
uninitialised memory. -/
theorem C30_empty_list (alloc : Nat → Except Err MutView) (ha : AllocOk alloc) (by' : List Byte) (h0 : by' ≠ [])
    (hb : by'.length < 2 ^ 16) (v : MutView) (hv : alloc (2 ^ 16 - by'.length) = .ok v) :
    ∃ str, makeJoin alloc by' [] = .ok str ∧ str.view = v.bytes ∧ str.view.length = 2 ^ 16 - by'.length ∧ str.view ≠ [] := by
  have hpos := List.length_pos_iff.mpr h0
  have hj : joinLength by' [] = 2 ^ 16 - by'.length := by
    rw [joinLength, List.length_nil, sub64_of_lt (by omega) (by omega)]
    simp only [wrap16_def, wrap64_def, List.map_nil, List.sum_nil]
    have : by'.length * (0 + 2 ^ 64 - 1) = by'.length * 2 ^ 64 - by'.length := by
      rw [Nat.zero_add, Nat.mul_sub, Nat.mul_one]
    rw [this]
    omega
  obtain ⟨hlen, _⟩ := ha _ v hv
  rw [makeJoin, hj, hv]
  refine ⟨⟨v.bytes, 2 ^ 16 - by'.length⟩, rfl, ?_⟩
  rw [← hlen, view_whole]
  refine ⟨rfl, hlen ▸ rfl, ?_⟩
  rintro he
  rw [he, List.length_nil] at hlen
  omega

example : makeJoin (fun n => .ok ⟨false, List.replicate n 7#8⟩) [0x2C#8] [[1#8], [], [3#8]] =
    .ok ⟨[1#8, 0x2C#8, 0x2C#8, 3#8], 4⟩ := by decide +kernel

/-! ### C73: joining arguments -/

theorem writeJointArgs_fits (args : List (Bool × List Byte)) (w : ByteWriter) (by' : List Byte) (hr : w.Ready)
    (hf : w.position + (by'.intercalate (args.map (·.2))).length ≤ w.limit) :
    writeJointArgs w by' args = (w.wrote (by'.intercalate (args.map (·.2))), .ok ()) := by
  induction args generalizing w with
  | nil => simp [writeJointArgs, List.intercalate, wrote_nil]
  | cons a args ih =>
    obtain ⟨k, a⟩ := a
    match args with
    | [] =>
      have : by'.intercalate ([(k, a)].map (·.2)) = a := by simp [List.intercalate]
      rw [this] at hf ⊢
      rw [writeJointArgs, write_ready w a hr hf]
    | b :: args =>
      have he : by'.intercalate (((k, a) :: b :: args).map (·.2)) = a ++ (by' ++ by'.intercalate ((b :: args).map (·.2))) := by
        simp [List.intercalate, List.intersperse_cons_cons]
      rw [he, List.length_append, List.length_append] at hf
      rw [he]
      have hA : w.position + a.length ≤ w.limit := by omega
      obtain ⟨hr1, hl1, hp1⟩ := wrote_ready w a hr hA
      have hB : (w.wrote a).position + by'.length ≤ (w.wrote a).limit := by rw [hp1, hl1]; omega
      obtain ⟨hr2, hl2, hp2⟩ := wrote_ready _ by' hr1 hB
      have hlim := hr.2.1
      rw [writeJointArgs, write_ready w a hr hA]
      simp only
      rw [write_ready _ _ hr1 hB]
      simp only
      rw [ih _ hr2 (by rw [hp2, hl2, hp1, hl1]; omega), wrote_wrote _ _ _ (by have := hr1.2.1; omega),
        wrote_wrote _ _ _ (by omega)]

/-- **C73** (partial: total length below 65536): an error of the memory manager, or the arguments separated by `by`. -/
theorem C73_join_args_partial (alloc : Nat → Except Err MutView) (ha : AllocOk alloc) (by' : List Byte)
    (args : List (Bool × List Byte)) (h : (by'.intercalate (args.map (·.2))).length < 2 ^ 16) :
    (∃ e, makeJoinArgs alloc by' args = .error e) ∨
    ∃ str, makeJoinArgs alloc by' args = .ok str ∧ str.view = by'.intercalate (args.map (·.2)) := by
  have hlen : wrap16 (by'.length * (args.length - 1) + wrap16 (args.map (·.2.length)).sum) =
      (by'.intercalate (args.map (·.2))).length := by
    rw [intercalate_length] at h ⊢
    have e1 : (args.map (·.2)).map List.length = args.map (·.2.length) := by rw [List.map_map]; rfl
    rw [e1, List.length_map] at h ⊢
    rw [wrap16_of_lt (n := (args.map (·.2.length)).sum) (by omega), wrap16_of_lt h]
  rw [makeJoinArgs, hlen]
  cases hv : alloc (by'.intercalate (args.map (·.2))).length with
  | error e => exact .inl ⟨e, rfl⟩
  | ok v =>
    obtain ⟨hl, _⟩ := ha _ v hv
    simp only
    rw [writeJointArgs_fits _ _ _ (ofBuffer_ready _ (by omega)) (by simp only [ofBuffer]; omega)]
    refine .inr ⟨_, rfl, ?_⟩
    rw [wrote_all _ _ hl.symm, view_whole]

/-- **C73**, string-view arguments (partial: all arguments are string views; any total): never a wrong result, a total of
65536 or more is an error. -/
theorem C73_join_views_partial (alloc : Nat → Except Err MutView) (ha : AllocOk alloc) (by' : List Byte)
    (args : List (List Byte)) :
    (∃ e, makeJoinArgs alloc by' (args.map (false, ·)) = .error e) ∨
    ∃ str, makeJoinArgs alloc by' (args.map (false, ·)) = .ok str ∧ str.view = by'.intercalate args := by
  have hmm : (args.map (false, ·)).map (·.2) = args := by rw [List.map_map]; exact List.map_id' args
  by_cases h : (by'.intercalate args).length < 2 ^ 16
  · have := C73_join_args_partial alloc ha by' (args.map (false, ·)) (by rw [hmm]; exact h)
    rwa [hmm] at this
  · have hw : ∀ (l : List (List Byte)) (w : ByteWriter), writeJointArgs w by' (l.map (false, ·)) = writeJoin w by' l := by
      intro l
      induction l with
      | nil => intro w; rfl
      | cons a l ih =>
        intro w
        match l with
        | [] => rfl
        | b :: l =>
          have e : (a :: b :: l).map (false, ·) = (false, a) :: (false, b) :: l.map (false, ·) := rfl
          rw [e, writeJointArgs, writeJoin]
          rcases w.write a with ⟨w', _ | _⟩
          · rfl
          · simp only
            rcases w'.write by' with ⟨w'', _ | _⟩
            · rfl
            · exact ih w''
    rw [makeJoinArgs]
    have hlt := wrap16_lt (by'.length * ((args.map (false, ·)).length - 1) +
        wrap16 ((args.map (false, ·)).map (·.2.length)).sum)
    cases hv : alloc (wrap16 (by'.length * ((args.map (false, ·)).length - 1) +
        wrap16 ((args.map (false, ·)).map (·.2.length)).sum)) with
    | error e => exact .inl ⟨e, rfl⟩
    | ok v =>
      obtain ⟨hl, _⟩ := ha _ v hv
      simp only
      rw [hw, writeJoin_eq]
      obtain ⟨s', h1, _⟩ := writeChunks_short (args.intersperse by') (ofBuffer v.bytes) (ofBuffer_ready _ (by omega)) (by
        have : (args.intersperse by').flatten = by'.intercalate args := rfl
        simp only [ofBuffer, this]; omega)
      rw [h1]
      exact .inl ⟨_, rfl⟩

/-- **C73, negation**: joining the strings "a", "b", "c" by a separator of 32768 characters succeeds with "abc". -/
theorem C73_join_strings_drops_separator (alloc : Nat → Except Err MutView) (ha : AllocOk alloc) (by' : List Byte)
    (hb : by'.length = 32768) (a b c : Byte) (v : MutView) (hv : alloc 3 = .ok v) :
    ∃ str, makeJoinArgs alloc by' [(true, [a]), (true, [b]), (true, [c])] = .ok str ∧ str.view = [a, b, c] := by
  obtain ⟨hl, _⟩ := ha _ v hv
  have htot : wrap16 (by'.length * ([(true, [a]), (true, [b]), (true, [c])].length - 1) +
      wrap16 ([(true, [a]), (true, [b]), (true, [c])].map (·.2.length)).sum) = 3 := by
    rw [hb]
    simp [wrap16_def]
  have drop : ∀ w : ByteWriter, w.Ready → w.limit = 3 → ∀ x y z : Byte, w.data = [x, y, z] →
      w.write by' = (w, .error .overflow) := by
    intro w hr hlim x y z hd
    rcases write_cases w by' ⟨hr.2.2, by have := hr.1; have := hr.2.1; have := hr.2.2; omega⟩ with
      ⟨h, _⟩ | ⟨_, _, h⟩ | ⟨_, h, _⟩ | ⟨_, h, _⟩
    · rw [h] at hb; simp at hb
    · exact h
    · rw [hb, hd] at h; simp at h
    · rw [hb, hd] at h; simp at h
  obtain ⟨x, y, z, hxyz⟩ : ∃ x y z, v.bytes = [x, y, z] := by
    match v.bytes, hl with
    | [x, y, z], _ => exact ⟨x, y, z, rfl⟩
  have w1 : (ofBuffer [x, y, z]).write [a] = (⟨[a, y, z], 1, 3⟩, .ok ()) :=
    write_ready _ _ (ofBuffer_ready _ (by simp)) (by simp [ofBuffer])
  have w2 : (ByteWriter.mk [a, y, z] 1 3).write [b] = (⟨[a, b, z], 2, 3⟩, .ok ()) :=
    write_ready _ _ ⟨by simp, by simp, by simp⟩ (by simp)
  have w3 : (ByteWriter.mk [a, b, z] 2 3).write [c] = (⟨[a, b, c], 3, 3⟩, .ok ()) :=
    write_ready _ _ ⟨by simp, by simp, by simp⟩ (by simp)
  have d1 := drop ⟨[a, y, z], 1, 3⟩ ⟨by simp, by simp, by simp⟩ rfl a y z rfl
  have d2 := drop ⟨[a, b, z], 2, 3⟩ ⟨by simp, by simp, by simp⟩ rfl a b z rfl
  have hw : writeJointArgs (ofBuffer [x, y, z]) by' [(true, [a]), (true, [b]), (true, [c])] =
      (⟨[a, b, c], 3, 3⟩, .ok ()) := by
    rw [writeJointArgs, w1]
    simp only
    rw [d1]
    simp only [if_true]
    rw [writeJointArgs, w2]
    simp only
    rw [d2]
    simp only [if_true]
    rw [writeJointArgs, w3]
  rw [makeJoinArgs, htot, hv]
  simp only
  rw [hxyz, hw]
  exact ⟨_, rfl, view_whole [a, b, c]⟩

example : makeJoinArgs (fun n => .ok ⟨false, List.replicate n 7#8⟩) [0x2C#8] [(true, [1#8]), (false, []), (true, [3#8])] =
    .ok ⟨[1#8, 0x2C#8, 0x2C#8, 3#8], 4⟩ := by decide +kernel

/-! ### C31 -/

/-- **C31**, characters (partial: the replaced character is below 128): an error, or the string with each occurrence
replaced. Missing: characters from 128 on, where the negation below holds. -/
theorem C31_replace_char_partial (alloc : Nat → Except Err MutView) (ha : AllocOk alloc) (s : List Byte) (what with' : Byte)
    (hw : what.toNat < 128) :
    (∃ e, makeReplaceChar alloc s what with' = .error e) ∨
    ∃ str, makeReplaceChar alloc s what with' = .ok str ∧ str.view = s.map fun c => if c = what then with' else c := by
  rw [makeReplaceChar]
  cases h : alloc s.length with
  | error e => exact .inl ⟨e, rfl⟩
  | ok v =>
    obtain ⟨hl, _⟩ := ha _ v h
    simp only [MutView.write]
    by_cases hn : v.null = true
    · rw [if_pos hn]; exact .inl ⟨.dom, rfl⟩
    · rw [if_neg hn, if_neg (by omega)]
      refine .inr ⟨_, rfl, ?_⟩
      simp only
      rw [← hl, List.drop_length, List.append_nil, hl]
      have hm : (s.zipIdx.map fun (b, i) => if i < s.length ∧ (b.toNat : Int) = what.toInt then with' else b) =
          s.map fun c => if c = what then with' else c := by
        apply List.ext_getElem?
        intro i
        rw [List.getElem?_map, List.getElem?_map, List.getElem?_zipIdx]
        cases hi : s[i]? with
        | none => rfl
        | some b =>
          have hlt := (List.getElem?_eq_some_iff.mp hi).1
          simp only [Option.map_some, Nat.zero_add]
          congr 1
          have : (i < s.length ∧ (b.toNat : Int) = what.toInt) ↔ b = what := by
            rw [BitVec.toInt_eq_toNat_of_lt (by omega)]
            constructor
            · rintro ⟨_, h⟩; exact BitVec.eq_of_toNat_eq (by omega)
            · rintro rfl; exact ⟨hlt, rfl⟩
          by_cases hb : b = what
          · rw [if_pos (this.mpr hb), if_pos hb]
          · rw [if_neg (fun h => hb (this.mp h)), if_neg hb]
      rw [hm]
      have := view_whole (s.map fun c => if c = what then with' else c)
      rwa [List.length_map] at this

/-- **C31, negation**: a character from 128 on is never replaced. -/
theorem C31_replace_char_high (alloc : Nat → Except Err MutView) (ha : AllocOk alloc) (s : List Byte) (what with' : Byte)
    (hw : 128 ≤ what.toNat) (str : Str) (hs : makeReplaceChar alloc s what with' = .ok str) : str.view = s := by
  rw [makeReplaceChar] at hs
  cases h : alloc s.length with
  | error e => rw [h] at hs; cases hs
  | ok v =>
    obtain ⟨hl, _⟩ := ha _ v h
    rw [h] at hs
    simp only [MutView.write] at hs
    by_cases hn : v.null = true
    · rw [if_pos hn] at hs; cases hs
    · rw [if_neg hn, if_neg (by omega)] at hs
      simp only [Except.ok.injEq] at hs
      subst hs
      rw [← hl, List.drop_length, List.append_nil, hl]
      have hm : (s.zipIdx.map fun (b, i) => if i < s.length ∧ (b.toNat : Int) = what.toInt then with' else b) = s := by
        apply List.ext_getElem?
        intro i
        rw [List.getElem?_map, List.getElem?_zipIdx]
        cases hi : s[i]? with
        | none => rfl
        | some b =>
          simp only [Option.map_some]
          rw [if_neg]
          rintro ⟨_, h⟩
          rw [BitVec.toInt_eq_toNat_cond, if_neg (by omega)] at h
          have := what.isLt
          omega
      rw [hm]
      exact view_whole s

example : makeReplaceChar (fun n => .ok ⟨false, List.replicate n 7#8⟩) [1#8, 2#8, 1#8] 1#8 9#8 = .ok ⟨[9#8, 2#8, 9#8], 3⟩ ∧
    makeReplaceChar (fun n => .ok ⟨false, List.replicate n 7#8⟩) [200#8] 200#8 9#8 = .ok ⟨[200#8], 1⟩ := by
  decide +kernel

theorem replace_count (s what : List Byte) (hw : what ≠ []) (hs : s.length < 2 ^ 16) (fuel : Nat) (hf : s.length < fuel) :
    StringView.split3Count s what fuel 0 0 = some ((StringView.scan what [] s).length - 1) := by
  have h1 := StringView.split3Count_eq s what hw hs fuel 0 0 [] (Nat.zero_le _) (by omega)
  have hle := StringView.scan_length_le what [] s hw
  rwa [wrap16_of_lt (n := 0) (by omega), List.drop_zero, Nat.zero_add, wrap16_of_lt (n := _ - 1) (by omega)] at h1

/-- **C31**, strings (partial: non-empty pattern, result below 65536 characters): the splitting around the pattern joined
by the replacement; the call throws when memory is not available. Missing: the empty pattern and longer results, where
the negations below hold. -/
theorem C31_replace_partial (alloc : Nat → Except Err MutView) (ha : AllocOk alloc) (s what by' : List Byte)
    (hw : what ≠ []) (hs : s.length < 2 ^ 16) (ps : List (List Byte)) (hp : IsSplit what s ps)
    (hr : (by'.intercalate ps).length < 2 ^ 16) (fuel : Nat) (hf : s.length < fuel) :
    (∃ e, alloc (by'.intercalate ps).length = .error e ∧ makeReplace alloc fuel s what by' = some .throws) ∨
    ∃ str, makeReplace alloc fuel s what by' = some (.ok (.ok str)) ∧ str.view = by'.intercalate ps := by
  have hps : ps = StringView.scan what [] s := StringView.isSplit_unique hp (StringView.scan_spec what s hw)
  subst hps
  have hne := StringView.scan_ne_nil what [] s hw
  have hpos := List.length_pos_iff.mpr hne
  have hlen := intercalate_length by' (StringView.scan what [] s)
  have hlen' := intercalate_length what (StringView.scan what [] s)
  rw [StringView.isSplit_join hp] at hlen'
  have hprod : by'.length * ((StringView.scan what [] s).length - 1) < 2 ^ 16 := by omega
  have hnew : wrap16 (s.length + by'.length * ((StringView.scan what [] s).length - 1) -
      what.length * ((StringView.scan what [] s).length - 1)) = (by'.intercalate (StringView.scan what [] s)).length := by
    rw [hlen, hlen', wrap16_of_lt (by omega)]
    omega
  rw [makeReplace, replace_count s what hw hs fuel hf]
  simp only
  rw [if_neg (by omega), hnew]
  cases hv : alloc (by'.intercalate (StringView.scan what [] s)).length with
  | error e => exact .inl ⟨e, rfl, rfl⟩
  | ok v =>
    obtain ⟨hl, _⟩ := ha _ v hv
    have hready := ofBuffer_ready v.bytes (by omega)
    obtain ⟨w', from', h1, h2, h3, _, h5⟩ := replaceLoop_spec s what by' hw hs fuel 0 0 (ofBuffer v.bytes) (Nat.le_refl _)
      (Nat.zero_le _) (by omega)
    rw [List.drop_zero, Nat.sub_zero, List.take_zero] at h3 h5
    have hlast : (StringView.scan what [] s).getLast hne = s.drop from' := by
      rw [List.getLast?_eq_some_getLast hne] at h3
      exact Option.some.inj h3
    have hsplit := intercalate_eq_initText by' _ hne
    rw [hlast] at hsplit
    have hsl : (by'.intercalate (StringView.scan what [] s)).length =
        (initText by' (StringView.scan what [] s)).length + (s.drop from').length := by
      rw [hsplit, List.length_append]
    have hfit : (ofBuffer v.bytes).position + (initText by' (StringView.scan what [] s)).length ≤
        (ofBuffer v.bytes).limit := by simp only [ofBuffer]; omega
    have hw' := h5 hready hfit
    obtain ⟨hr1, hl1, hp1⟩ := wrote_ready _ _ hready hfit
    simp only
    rw [h1]
    simp only
    rw [hw', StringView.substring_end s h2, write_ready _ _ hr1 (by rw [hp1, hl1]; simp only [ofBuffer]; omega)]
    refine .inr ⟨_, rfl, ?_⟩
    rw [wrote_wrote _ _ _ (by simp only [ofBuffer]; omega), ← hsplit, wrote_all _ _ hl.symm, view_whole]

/-- **C31, negation**: an empty pattern makes the call loop for ever on any non-empty string. -/
theorem C31_replace_empty_pattern_diverges (alloc : Nat → Except Err MutView) (s by' : List Byte) (hne : s ≠ [])
    (hs : s.length < 2 ^ 16) (fuel : Nat) : makeReplace alloc fuel s [] by' = none := by
  have key : ∀ (fuel n : Nat), StringView.split3Count s [] fuel 0 n = none := by
    intro fuel
    induction fuel with
    | zero => intro n; rfl
    | succ fuel ih =>
      intro n
      have hpos := List.length_pos_iff.mpr hne
      have hsub : StringView.substring s 0 (wrap16 (0 + ([] : List Byte).length)) = [] := by
        rw [List.length_nil, Nat.add_zero, wrap16_of_lt (by omega), StringView.substring_eq s (Nat.le_refl _) (by omega)]
        simp
      have hnext : wrap16 (sub16 (0 + ([] : List Byte).length) 1 + 1) = 0 := by
        rw [List.length_nil, sub16_of_lt (by omega) (by omega), wrap16_def]
      rw [StringView.split3Count, if_pos ⟨hpos, by simp⟩, hsub, if_pos (StringView.equals_self _), hnext]
      exact ih _
  rw [makeReplace, key]

/-- **C31, negation**: replacing each of 256 characters by 256 characters succeeds with the empty string. -/
theorem C31_replace_truncates (alloc : Nat → Except Err MutView) (ha : AllocOk alloc) (c : Byte) (by' : List Byte)
    (hb : by'.length = 256) (v : MutView) (hv : alloc 0 = .ok v) (fuel : Nat) (hf : 256 < fuel) :
    ∃ str, makeReplace alloc fuel (List.replicate 256 c) [c] by' = some (.ok (.ok str)) ∧ str.view = [] := by
  have hscan : ∀ n, StringView.scan [c] [] (List.replicate n c) = List.replicate (n + 1) [] := by
    intro n
    induction n with
    | zero => rw [List.replicate_zero, StringView.scan_nil _ _ (by simp)]; rfl
    | succ n ih =>
      have hp : [c] <+: c :: List.replicate n c := ⟨List.replicate n c, rfl⟩
      rw [List.replicate_succ, StringView.scan_match (by simp) hp, List.length_singleton, List.drop_one, List.tail_cons, ih]
      rfl
  have hw : [c] ≠ [] := by simp
  obtain ⟨N, hN⟩ : ∃ N, N = 256 := ⟨_, rfl⟩
  rw [← hN] at hf ⊢
  have hs : (List.replicate N c).length < 2 ^ 16 := by rw [List.length_replicate]; omega
  obtain ⟨hl, _⟩ := ha _ v hv
  have hnil : v.bytes = [] := List.length_eq_zero_iff.mp hl
  rw [makeReplace, replace_count _ [c] hw hs fuel (by simpa using hf), hscan]
  obtain ⟨w', from', h1, h2, h3, h4, _⟩ := replaceLoop_spec (List.replicate N c) [c] by' hw hs fuel 0 0
    (ofBuffer []) (Nat.le_refl _) (Nat.zero_le _) (by simpa using hf)
  rw [List.drop_zero, Nat.sub_zero, List.take_zero, hscan] at h3
  have hlast : (List.replicate N c).drop from' = [] := by
    simp [List.getLast?_replicate] at h3
    simpa using h3
  have e0 : wrap16 ((List.replicate N c).length + by'.length * ((List.replicate (N + 1) ([] : List Byte)).length - 1) -
      [c].length * ((List.replicate (N + 1) ([] : List Byte)).length - 1)) = 0 := by
    rw [hb]; simp only [List.length_replicate, List.length_singleton, wrap16_def]; omega
  simp only
  rw [if_neg (by rw [hb, List.length_replicate, List.length_replicate]; omega), e0, hv]
  simp only
  rw [hnil, h1]
  simp only
  rw [h4 rfl, StringView.substring_end _ h2, hlast,
    write_ready (ofBuffer []) [] (ofBuffer_ready [] (by simp)) (by simp [ofBuffer]), wrote_nil]
  exact ⟨⟨[], 0⟩, rfl, by simp [view, slice_eq]⟩

example : makeReplace (fun n => .ok ⟨false, List.replicate n 7#8⟩) 9 [1#8, 2#8, 1#8, 2#8] [1#8] [5#8, 5#8] =
    some (.ok (.ok ⟨[5#8, 5#8, 2#8, 5#8, 5#8, 2#8], 6⟩)) := by decide +kernel

end Solace.Str
