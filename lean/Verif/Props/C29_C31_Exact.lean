import Verif.Props.C29_C31_String
/-
C29, C30, C31 and C73 for texts of any length: what exactly the string made from 65536 characters or more contains. The
memory has the wanted length modulo 65536, pieces that do not fit are an error, end the writing or are left out, and what
was in the memory before shows behind them.
-/
namespace Solace.Str
open ByteWriter Strings

attribute [local irreducible] ByteWriter.write

/-- A usable writer whose limit is the size of its memory. -/
def Full (w : ByteWriter) : Prop := w.Ready ∧ w.limit = w.data.length

theorem ofBuffer_full (g : List Byte) (h : g.length < 2 ^ 64) : Full (ofBuffer g) := ⟨ofBuffer_ready g h, rfl⟩

theorem Full.wrote {w : ByteWriter} (h : Full w) (x : List Byte) (hf : x.length ≤ w.limit - w.position) :
    Full (w.wrote x) ∧ (w.wrote x).limit - (w.wrote x).position = w.limit - w.position - x.length := by
  have hr := h.1.1
  obtain ⟨h1, h2, h3⟩ := wrote_ready w x h.1 (by omega)
  refine ⟨⟨h1, ?_⟩, by omega⟩
  rw [h2, h.2]
  exact (overwrite_length _ _ _ (by have := h.2; omega)).symm

/-- A write to such a writer stores everything or changes nothing. -/
theorem Full.write {w : ByteWriter} (h : Full w) (p : List Byte) :
    w.write p = if p.length ≤ w.limit - w.position then (w.wrote p, .ok ()) else (w, .error .overflow) := by
  have hr := h.1.1
  by_cases hf : p.length ≤ w.limit - w.position
  · rw [if_pos hf, write_ready w p h.1 (by omega)]
  · rw [if_neg hf]
    have hrem := remaining_of_ready w h.1
    obtain ⟨h1, h2, h3⟩ := h.1
    have h4 := h.2
    rcases write_cases w p ⟨h3, by omega⟩ with ⟨h, hw⟩ | ⟨_, hc, hw⟩ | ⟨_, hc, hr', hw⟩ | ⟨_, hc, hr', hw⟩
    · rw [h] at hf; simp at hf
    · exact hw
    · omega
    · omega

/-- Write the pieces in order; a failing one ends it if it is needed. -/
def storeAll (w : ByteWriter) : List (Bool × List Byte) → Call
  | [] => (w, .ok ())
  | (needed, p) :: ps =>
    match w.write p with
    | (w', .ok _) => storeAll w' ps
    | (w', .error e) => if needed then (w', .error e) else storeAll w' ps

theorem storedAll_length (room : Nat) (ps : List (Bool × List Byte)) (x : List Byte) (h : storedAll room ps = some x) :
    x.length ≤ room := by
  induction ps generalizing room x with
  | nil => rw [storedAll] at h; cases h; simp
  | cons p ps ih =>
    obtain ⟨n, p⟩ := p
    rw [storedAll] at h
    by_cases hf : p.length ≤ room
    · rw [if_pos hf, Option.map_eq_some_iff] at h
      obtain ⟨y, hy, rfl⟩ := h
      have := ih _ y hy
      rw [List.length_append]
      omega
    · rw [if_neg hf] at h
      cases n
      · exact ih _ x h
      · cases h

theorem storedUntil_length (room : Nat) (ps : List (List Byte)) : (storedUntil room ps).length ≤ room := by
  induction ps generalizing room with
  | nil => simp [storedUntil]
  | cons p ps ih =>
    rw [storedUntil]
    by_cases hf : p.length ≤ room
    · rw [if_pos hf, List.length_append]
      have := ih (room - p.length)
      omega
    · rw [if_neg hf]; simp

theorem storeAll_eq (ps : List (Bool × List Byte)) (w : ByteWriter) (h : Full w) :
    (∀ x, storedAll (w.limit - w.position) ps = some x → storeAll w ps = (w.wrote x, .ok ())) ∧
    (storedAll (w.limit - w.position) ps = none → ∃ w', storeAll w ps = (w', .error .overflow)) := by
  induction ps generalizing w with
  | nil =>
    refine ⟨fun x hx => ?_, fun hx => ?_⟩
    · rw [storedAll] at hx; cases hx; rw [storeAll, wrote_nil]
    · rw [storedAll] at hx; cases hx
  | cons p ps ih =>
    obtain ⟨n, p⟩ := p
    rw [storedAll, storeAll, h.write p]
    by_cases hf : p.length ≤ w.limit - w.position
    · rw [if_pos hf, if_pos hf]
      obtain ⟨h1, h2⟩ := h.wrote p hf
      obtain ⟨i1, i2⟩ := ih _ h1
      rw [h2] at i1 i2
      refine ⟨fun x hx => ?_, fun hx => ?_⟩
      · rw [Option.map_eq_some_iff] at hx
        obtain ⟨y, hy, rfl⟩ := hx
        simp only
        rw [i1 y hy, wrote_wrote _ _ _ (by have := h.2; have := h.1.1; omega)]
      · rw [Option.map_eq_none_iff] at hx
        exact i2 hx
    · rw [if_neg hf, if_neg hf]
      cases n
      · exact ih w h
      · exact ⟨fun x hx => (by cases hx), fun _ => ⟨w, rfl⟩⟩

theorem storeUntil_eq (ps : List (List Byte)) (w : ByteWriter) (h : Full w) :
    writeArgs w ps = w.wrote (storedUntil (w.limit - w.position) ps) := by
  induction ps generalizing w with
  | nil => rw [writeArgs, storedUntil, wrote_nil]
  | cons p ps ih =>
    rw [writeArgs, h.write p, storedUntil]
    by_cases hf : p.length ≤ w.limit - w.position
    · rw [if_pos hf, if_pos hf]
      obtain ⟨h1, h2⟩ := h.wrote p hf
      simp only
      rw [ih _ h1, h2, wrote_wrote _ _ _ (by have := h.2; have := h.1.1; omega)]
    · rw [if_neg hf, if_neg hf, wrote_nil]

theorem wrote_start (g x : List Byte) : ((ofBuffer g).wrote x).data = x ++ g.drop x.length := by
  simp [wrote, ofBuffer, overwrite]

theorem view_start (g x : List Byte) (n : Nat) (h : g.length = n) (hx : x.length ≤ n) :
    view ⟨((ofBuffer g).wrote x).data, n⟩ = x ++ g.drop x.length := by
  have hl : (x ++ g.drop x.length).length = n := by rw [List.length_append, List.length_drop]; omega
  rw [wrote_start, ← hl, view_whole]

/-! ### C29 -/

/-- **C29** (exactly, any lengths): with `n` the total length modulo 65536, the call fails when `n` bytes cannot be had;
otherwise it succeeds with the arguments that fit into `n` bytes up to the first that does not, followed by what the
memory contained. -/
theorem C29_concat_exact (alloc : Nat → Except Err MutView) (ha : AllocOk alloc) (args : List (List Byte)) :
    (∀ e, alloc (args.flatten.length % 2 ^ 16) = .error e → makeConcat alloc args = .error e) ∧
    ∀ v, alloc (args.flatten.length % 2 ^ 16) = .ok v →
      ∃ str, makeConcat alloc args = .ok str ∧
        str.view = storedUntil (args.flatten.length % 2 ^ 16) args ++
          v.bytes.drop (storedUntil (args.flatten.length % 2 ^ 16) args).length := by
  rw [makeConcat, ← flatten_length, wrap16_def]
  refine ⟨fun e he => by rw [he], fun v hv => ?_⟩
  obtain ⟨hl, _⟩ := ha _ v hv
  have hm : args.flatten.length % 2 ^ 16 < 2 ^ 16 := Nat.mod_lt _ (by omega)
  rw [hv]
  refine ⟨_, rfl, ?_⟩
  rw [storeUntil_eq _ _ (ofBuffer_full _ (by omega))]
  have hroom : (ofBuffer v.bytes).limit - (ofBuffer v.bytes).position = args.flatten.length % 2 ^ 16 := by
    simp only [ofBuffer]; omega
  rw [hroom]
  exact view_start _ _ _ hl (storedUntil_length _ _)

/-- **C29**: the result is the concatenation exactly when the total is below 65536. -/
theorem C29_concat_iff (alloc : Nat → Except Err MutView) (ha : AllocOk alloc) (args : List (List Byte)) (str : Str)
    (h : makeConcat alloc args = .ok str) : str.view = args.flatten ↔ args.flatten.length < 2 ^ 16 := by
  cases hv : alloc (args.flatten.length % 2 ^ 16) with
  | error e => rw [(C29_concat_exact alloc ha args).1 e hv] at h; cases h
  | ok v =>
    by_cases hlt : args.flatten.length < 2 ^ 16
    · refine ⟨fun _ => hlt, fun _ => ?_⟩
      rcases C29_concat_partial alloc ha args hlt with ⟨e, _, he⟩ | ⟨s, hs, hv⟩
      · rw [he] at h; cases h
      · rw [hs] at h; cases h; exact hv
    · refine ⟨fun he => ?_, fun he => absurd he hlt⟩
      obtain ⟨s, hs, hlen⟩ := C29_concat_truncates alloc args (by omega) v hv
      rw [hs] at h
      cases h
      rw [he] at hlen
      omega

/-! ### C30 -/

/-- **C30** (exactly, any non-empty list): the error of the memory manager; an error when the whole text has 65536
characters or more; the joined text otherwise. -/
theorem C30_join_exact (alloc : Nat → Except Err MutView) (ha : AllocOk alloc) (by' : List Byte) (list : List (List Byte))
    (hl : list ≠ []) (hn : list.length < 2 ^ 64) :
    (∀ e, alloc ((by'.intercalate list).length % 2 ^ 16) = .error e → makeJoin alloc by' list = .error e) ∧
    ∀ v, alloc ((by'.intercalate list).length % 2 ^ 16) = .ok v →
      (2 ^ 16 ≤ (by'.intercalate list).length → makeJoin alloc by' list = .error .overflow) ∧
      ((by'.intercalate list).length < 2 ^ 16 → ∃ str, makeJoin alloc by' list = .ok str ∧ str.view = by'.intercalate list) := by
  refine ⟨fun e he => by rw [makeJoin, joinLength_eq by' list hl hn, wrap16_def, he], fun v hv => ⟨fun hge => ?_, fun hlt => ?_⟩⟩
  · obtain ⟨hlen, _⟩ := ha _ v hv
    have hm : (by'.intercalate list).length % 2 ^ 16 < 2 ^ 16 := Nat.mod_lt _ (by omega)
    obtain ⟨s', h1, _⟩ := writeChunks_short (list.intersperse by') (ofBuffer v.bytes) (ofBuffer_ready v.bytes (by omega)) (by
      have : (list.intersperse by').flatten = by'.intercalate list := rfl
      simp only [ofBuffer, this]; omega)
    rw [makeJoin, joinLength_eq by' list hl hn, wrap16_def, hv]
    simp only
    rw [writeJoin_eq, h1]
  · rw [Nat.mod_eq_of_lt hlt] at hv
    exact C30_join_succeeds alloc ha by' list hl hn hlt v hv

/-! ### C73 -/

/-- The pieces of a join of arguments: each argument is needed, the separator after a view is needed, the one after a
string may be left out. -/
def joinPieces (by' : List Byte) : List (Bool × List Byte) → List (Bool × List Byte)
  | [] => []
  | [(_, a)] => [(true, a)]
  | (isString, a) :: b :: as => (true, a) :: (!isString, by') :: joinPieces by' (b :: as)

theorem writeJointArgs_eq (by' : List Byte) (args : List (Bool × List Byte)) (w : ByteWriter) :
    writeJointArgs w by' args = storeAll w (joinPieces by' args) := by
  induction args generalizing w with
  | nil => rfl
  | cons a args ih =>
    obtain ⟨k, a⟩ := a
    match args with
    | [] =>
      rw [writeJointArgs, joinPieces, storeAll]
      rcases w.write a with ⟨w', _ | _⟩ <;> rfl
    | b :: args =>
      rw [writeJointArgs, joinPieces, storeAll]
      rcases w.write a with ⟨w', _ | _⟩
      · rfl
      · simp only
        rw [storeAll]
        rcases w'.write by' with ⟨w'', _ | _⟩
        · cases k
          · rfl
          · exact ih w''
        · exact ih w''

/-- **C73** (exactly, any arguments): with `n` the length of the joined text modulo 65536, the error of the memory
manager; an error when a needed piece does not fit into what is left of `n` bytes; otherwise the pieces that fit, followed
by what the memory contained. -/
theorem C73_join_exact (alloc : Nat → Except Err MutView) (ha : AllocOk alloc) (by' : List Byte)
    (args : List (Bool × List Byte)) (n : Nat) (hn : n = (by'.intercalate (args.map (·.2))).length % 2 ^ 16) :
    (∀ e, alloc n = .error e → makeJoinArgs alloc by' args = .error e) ∧
    ∀ v, alloc n = .ok v →
      (storedAll n (joinPieces by' args) = none → makeJoinArgs alloc by' args = .error .overflow) ∧
      ∀ x, storedAll n (joinPieces by' args) = some x →
        ∃ str, makeJoinArgs alloc by' args = .ok str ∧ str.view = x ++ v.bytes.drop x.length := by
  have hlen : wrap16 (by'.length * (args.length - 1) + wrap16 (args.map (·.2.length)).sum) = n := by
    rw [hn, intercalate_length]
    have e1 : (args.map (·.2)).map List.length = args.map (·.2.length) := by rw [List.map_map]; rfl
    rw [e1, List.length_map]
    simp only [wrap16_def]
    omega
  have hm : n < 2 ^ 16 := by rw [hn]; exact Nat.mod_lt _ (by omega)
  rw [makeJoinArgs, hlen]
  refine ⟨fun e he => by rw [he], fun v hv => ?_⟩
  obtain ⟨hl, _⟩ := ha _ v hv
  rw [hv]
  simp only
  rw [writeJointArgs_eq]
  obtain ⟨h1, h2⟩ := storeAll_eq (joinPieces by' args) (ofBuffer v.bytes) (ofBuffer_full _ (by omega))
  have hroom : (ofBuffer v.bytes).limit - (ofBuffer v.bytes).position = n := by
    simp only [ofBuffer]; omega
  rw [hroom] at h1 h2
  refine ⟨fun hx => ?_, fun x hx => ?_⟩
  · obtain ⟨w', hw⟩ := h2 hx
    rw [hw]
  · rw [h1 x hx]
    exact ⟨_, rfl, view_start _ _ _ hl (storedAll_length _ _ _ hx)⟩

/-! ### C31 -/

/-- The pieces of a replacement: the text between occurrences and the replacement may be left out, the text after the
last occurrence is needed. -/
def replacePieces (by' : List Byte) : List (List Byte) → List (Bool × List Byte)
  | [] => []
  | [p] => [(true, p)]
  | p :: q :: ps => (false, p) :: (false, by') :: replacePieces by' (q :: ps)

open StringView in
theorem replaceLoop_exact (s what by' : List Byte) (hw : what ≠ []) (hs : s.length < 2 ^ 16) (fuel t f : Nat)
    (w : ByteWriter) (hft : f ≤ t) (ht : t ≤ s.length) (hfuel : s.length - t < fuel) :
    ∃ w' from', replaceLoop s what by' fuel t f w = some (w', from') ∧ from' ≤ s.length ∧
      w'.write (s.drop from') = storeAll w (replacePieces by' (scan what ((s.drop f).take (t - f)) (s.drop t))) := by
  have hpos := List.length_pos_iff.mpr hw
  induction fuel generalizing t f w with
  | zero => omega
  | succ fuel ih =>
    rw [replaceLoop]
    by_cases hlt : t + what.length ≤ s.length
    · rw [if_pos ⟨by omega, hlt⟩]
      by_cases hm : what <+: s.drop t
      · have hne := scan_ne_nil what [] (s.drop (t + what.length)) hw
        rw [if_pos ((split_test s what t hlt hs).mpr hm), scan_match hw hm,
          sub16_of_le (by omega) (by omega), Nat.sub_add_cancel (by omega), wrap16_of_lt (n := t + what.length) (by omega),
          sub16_of_le hft (by omega), Nat.add_sub_cancel' hft, wrap16_of_lt (n := t) (by omega), substring_eq s hft ht,
          List.drop_drop]
        obtain ⟨w', from', h1, h2, h3⟩ := ih (t + what.length) (t + what.length)
          ((w.write ((s.drop f).take (t - f))).1.write by').1 (Nat.le_refl _) hlt (by omega)
        rw [Nat.sub_self, List.take_zero] at h3
        refine ⟨w', from', h1, h2, ?_⟩
        rw [h3]
        obtain ⟨q, qs, hq⟩ := List.exists_cons_of_ne_nil hne
        rw [hq, replacePieces, storeAll]
        rcases w.write ((s.drop f).take (t - f)) with ⟨w1, _ | _⟩ <;> simp only <;> rw [storeAll] <;>
          rcases w1.write by' with ⟨w2, _ | _⟩ <;> rfl
      · rw [if_neg (fun h => hm ((split_test s what t hlt hs).mp h)), wrap16_of_lt (n := t + 1) (by omega)]
        have ht' : t < s.length := by omega
        obtain ⟨w', from', h⟩ := ih (t + 1) f w (by omega) (by omega) (by omega)
        have he : scan what ((s.drop f).take (t - f)) (s.drop t) = scan what ((s.drop f).take (t + 1 - f)) (s.drop (t + 1)) := by
          rw [List.drop_eq_getElem_cons ht', scan_cons, cur_step s hft ht']
          rwa [← List.drop_eq_getElem_cons ht']
        rw [he]
        exact ⟨w', from', h⟩
    · rw [if_neg (fun h => hlt h.2), scan_short hw (by rw [List.length_drop]; omega), cur_end s hft]
      refine ⟨w, f, rfl, by omega, ?_⟩
      rw [replacePieces, storeAll]
      rcases w.write (s.drop f) with ⟨w1, _ | _⟩ <;> rfl

/-- **C31**, strings (exactly, any non-empty pattern). `ps` are the parts of `s` around the occurrences of the pattern.
When the length of `s` and of all replacements reaches 2^31 the computation of the length overflows, which is undefined.
Otherwise, with `n` the length of the wanted text modulo 65536: the call throws when `n` bytes cannot be had; it is an
error when the part after the last occurrence does not fit; otherwise the result is the pieces that fit, followed by what
the memory contained. -/
theorem C31_replace_exact (alloc : Nat → Except Err MutView) (ha : AllocOk alloc) (s what by' : List Byte)
    (hw : what ≠ []) (hs : s.length < 2 ^ 16) (ps : List (List Byte)) (hp : IsSplit what s ps) (fuel : Nat)
    (hf : s.length < fuel) (n : Nat) (hn : n = (by'.intercalate ps).length % 2 ^ 16) :
    (2 ^ 31 ≤ s.length + by'.length * (ps.length - 1) → makeReplace alloc fuel s what by' = some .ub) ∧
    (s.length + by'.length * (ps.length - 1) < 2 ^ 31 →
      (∀ e, alloc n = .error e → makeReplace alloc fuel s what by' = some .throws) ∧
      ∀ v, alloc n = .ok v →
        (storedAll n (replacePieces by' ps) = none → makeReplace alloc fuel s what by' = some (.ok (.error .overflow))) ∧
        ∀ x, storedAll n (replacePieces by' ps) = some x →
          ∃ str, makeReplace alloc fuel s what by' = some (.ok (.ok str)) ∧ str.view = x ++ v.bytes.drop x.length) := by
  have hps : ps = StringView.scan what [] s := StringView.isSplit_unique hp (StringView.scan_spec what s hw)
  subst hps
  have hlen := intercalate_length by' (StringView.scan what [] s)
  have hlen' := intercalate_length what (StringView.scan what [] s)
  rw [StringView.isSplit_join hp] at hlen'
  rw [makeReplace, replace_count s what hw hs fuel hf]
  simp only
  refine ⟨fun h => by rw [if_pos h], fun h => ?_⟩
  rw [if_neg (by omega)]
  have hnew : wrap16 (s.length + by'.length * ((StringView.scan what [] s).length - 1) -
      what.length * ((StringView.scan what [] s).length - 1)) = n := by
    rw [hn, hlen, wrap16_def]
    congr 1
    omega
  have hm : n < 2 ^ 16 := by rw [hn]; exact Nat.mod_lt _ (by omega)
  rw [hnew]
  refine ⟨fun e he => by rw [he], fun v hv => ?_⟩
  obtain ⟨hl, _⟩ := ha _ v hv
  rw [hv]
  simp only
  obtain ⟨w', from', h1, h2, h3⟩ := replaceLoop_exact s what by' hw hs fuel 0 0 (ofBuffer v.bytes) (Nat.le_refl _)
    (Nat.zero_le _) (by omega)
  rw [List.drop_zero, Nat.sub_zero, List.take_zero] at h3
  rw [h1]
  simp only
  rw [StringView.substring_end s h2, h3]
  obtain ⟨k1, k2⟩ := storeAll_eq (replacePieces by' (StringView.scan what [] s)) (ofBuffer v.bytes)
    (ofBuffer_full _ (by omega))
  have hroom : (ofBuffer v.bytes).limit - (ofBuffer v.bytes).position = n := by
    simp only [ofBuffer]; omega
  rw [hroom] at k1 k2
  refine ⟨fun hx => ?_, fun x hx => ?_⟩
  · obtain ⟨w', hw⟩ := k2 hx
    rw [hw]
  · rw [k1 x hx]
    exact ⟨_, rfl, view_start _ _ _ hl (storedAll_length _ _ _ hx)⟩

/-- **C31**, characters (exactly): the error of the memory manager, an error on a null pointer, or the text with every
character equal to `what` replaced if `what` is below 128, and unchanged otherwise. -/
theorem C31_replace_char_exact (alloc : Nat → Except Err MutView) (ha : AllocOk alloc) (s : List Byte) (what with' : Byte) :
    (∀ e, alloc s.length = .error e → makeReplaceChar alloc s what with' = .error e) ∧
    ∀ v, alloc s.length = .ok v →
      (v.null = true → makeReplaceChar alloc s what with' = .error .dom) ∧
      (v.null = false → ∃ str, makeReplaceChar alloc s what with' = .ok str ∧
        str.view = s.map fun c => if what.toNat < 128 ∧ c = what then with' else c) := by
  refine ⟨fun e he => by rw [makeReplaceChar, he], fun v hv => ?_⟩
  obtain ⟨hl, _⟩ := ha _ v hv
  refine ⟨fun hn => by rw [makeReplaceChar, hv]; simp only [MutView.write]; rw [if_pos hn], fun hn => ?_⟩
  have hok : ∃ str, makeReplaceChar alloc s what with' = .ok str := by
    rw [makeReplaceChar, hv]
    simp only [MutView.write]
    rw [if_neg (by simp [hn]), if_neg (by omega)]
    exact ⟨_, rfl⟩
  obtain ⟨str, hstr⟩ := hok
  refine ⟨str, hstr, ?_⟩
  by_cases hw : what.toNat < 128
  · rcases C31_replace_char_partial alloc ha s what with' hw with ⟨e, he⟩ | ⟨str', h1, h2⟩
    · rw [he] at hstr; cases hstr
    · rw [hstr] at h1
      cases h1
      rw [h2]
      simp only [hw, true_and]
  · rw [C31_replace_char_high alloc ha s what with' (by omega) str hstr]
    simp only [hw, false_and, if_false, List.map_id']

/-! Non-trivial cases: with 65536 + 3 bytes in all, three bytes are left. -/

example : storedUntil 3 [[1#8, 2#8], List.replicate 65536 5#8, [9#8]] = [1#8, 2#8] := by
  rw [storedUntil, if_pos (by simp), storedUntil, if_neg (by rw [List.length_replicate]; simp)]; rfl
example : storedAll 3 [(true, [1#8]), (false, [7#8, 7#8, 7#8]), (true, [2#8])] = some [1#8, 2#8] ∧
    storedAll 3 [(true, [1#8]), (true, [7#8, 7#8, 7#8]), (true, [2#8])] = none := by decide
example : IsSplit [1#8] [2#8, 1#8, 3#8] [[2#8], [3#8]] := by
  refine ⟨[3#8], rfl, fun i hi => ?_, rfl, fun i hi => ?_⟩
  · obtain ⟨a, b, h, rfl⟩ := hi
    match a, h with
    | [], h => simp at h
    | _ :: _, _ => simp
  · obtain ⟨a, b, h, _⟩ := hi
    match a, h with
    | [], h => simp at h
    | [_], h => simp at h
    | _ :: _ :: _, h => simp at h
example : replacePieces [7#8] [[2#8], [3#8]] = [(false, [2#8]), (false, [7#8]), (true, [3#8])] := rfl

end Solace.Str
