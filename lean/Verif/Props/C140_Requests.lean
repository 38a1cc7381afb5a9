import Verif.Lemmas.Requests
import Verif.Props.C34_C36_Version
/-
C140: strings, versions and paths ask the memory manager for the blocks of what they return and for no others.
-/
namespace Solace.Requests
open PathMem Strings

/-! ### Strings -/

/-- `makeString(view)`: one block for the characters. -/
theorem C140_string (h : Heap) (s : List Byte) :
    Asks h (fun g h => newStr g h s) [s.length] (fun _ r => ∃ b, r = .ok ⟨some b, s⟩) :=
  (asks_newStr h s).imp fun _ _ ⟨b, e, _⟩ => ⟨b, e⟩

/-- `makeString(a, b, ...)`: one block, for the sum of the lengths as a 16 bit number. -/
theorem C140_concat (h : Heap) (args : List (List Byte)) :
    Asks h (fun g h => StrMem.newConcat g h args) [(args.map List.length).sum % 65536] (fun _ r => ∃ o, r = .ok o ∧ o.block ≠ none) := by
  have hw : wrap16 (args.map List.length).sum = (args.map List.length).sum % 65536 := wrap16_def _
  rw [← hw]
  refine ((asks_single h _ _).of_eq fun g => StrMem.newConcat_single g h args).imp ?_
  rintro h' r ⟨v, _, _, b, e, _⟩
  exact ⟨_, e, by simp⟩

/-- `makeStringJoin(by, list)`: one block, for the characters of the strings and of the delimiters between them. -/
theorem C140_join (h : Heap) (d : List Byte) (cs : List (List Byte)) (hc : cs ≠ []) (hd : d.length * cs.length < 2 ^ 64) :
    Asks h (fun g h => newJoin g h d cs) [(d.length * (cs.length - 1) + (cs.map List.length).sum) % 65536] (fun _ _ => True) := by
  have hpos := List.length_pos_iff.mpr hc
  have hw : Str.joinLength d cs = (d.length * (cs.length - 1) + (cs.map List.length).sum) % 65536 := by
    have hle : d.length * (cs.length - 1) ≤ d.length * cs.length := Nat.mul_le_mul_left _ (Nat.sub_le _ _)
    have hlen : cs.length < 2 ^ 64 ∨ d.length = 0 := by
      rcases Nat.eq_zero_or_pos d.length with h0 | h0
      · exact .inr h0
      · exact .inl (Nat.lt_of_le_of_lt (Nat.le_mul_of_pos_left _ h0) hd)
    rw [Str.joinLength]
    rcases hlen with hlen | hlen
    · rw [sub64_of_le (by omega) (by omega), wrap64_of_lt (by omega), wrap16_def, wrap16_def, Nat.mod_add_mod]
    · rw [hlen, Nat.zero_mul, Nat.zero_mul, wrap64_of_lt (by decide), wrap16_def, wrap16_def, Nat.zero_mod]
  rw [← hw]
  exact ((asks_single h _ _).of_eq fun g => StrMem.newJoin_single g h d cs).imp fun _ _ _ => trivial

/-- `makeStringJoin(by, a, b, ...)`. -/
theorem C140_joinArgs (h : Heap) (d : List Byte) (args : List (Bool × List Byte)) :
    Asks h (fun g h => StrMem.newJoinArgs g h d args)
      [(d.length * (args.length - 1) + (args.map (·.2.length)).sum) % 65536] (fun _ _ => True) := by
  have hw : StrMem.jointLength d args = (d.length * (args.length - 1) + (args.map (·.2.length)).sum) % 65536 := by
    rw [StrMem.jointLength, wrap16_def, wrap16_def, Nat.add_mod_mod]
  rw [← hw]
  exact ((asks_single h _ _).of_eq fun g => StrMem.newJoinArgs_single g h d args).imp fun _ _ _ => trivial

/-- `makeStringReplace(str, char, char)`: one block, for the characters of the string. -/
theorem C140_replaceChar (h : Heap) (s : List Byte) (a b : Byte) :
    Asks h (fun g h => StrMem.newReplaceChar g h s a b) [s.length] (fun _ r => ∃ o, r = .ok o ∧ o.text.length = s.length) := by
  refine ((asks_single h _ _).of_eq fun g => StrMem.newReplaceChar_single g h s a b).imp ?_
  rintro h' r ⟨v, hn, hl, hk⟩
  rw [write_all v s hn hl] at hk
  obtain ⟨k, e, _⟩ := hk
  refine ⟨_, e, ?_⟩
  rw [Str.view, Solace.slice_eq]
  simp

/-- `makeStringReplace(str, what, by)` that returns: one block, for the string with `by` instead of each `what` that is found. The pieces
between them are those of the text split by `what`. -/
theorem C140_replace (h : Heap) (g : Policy) (s what by' : List Byte) (ps : List (List Byte)) (hw : what ≠ []) (hs : s.length < 2 ^ 16 - 1)
    (hp : IsSplit what s ps) (fuel : Nat) (hf : s.length < fuel) (hb : s.length + by'.length * (ps.length - 1) < 2 ^ 31)
    (h' : Heap) (r : Option (Except Err SObj)) (he : StrMem.newReplace g h fuel s what by' = some (.ok (h', r))) :
    h'.asked = h.asked + 1 ∧
    ∀ g' : Policy, g' h.asked ((s.length + by'.length * (ps.length - 1) - what.length * (ps.length - 1)) % 65536) =
        g h.asked ((s.length + by'.length * (ps.length - 1) - what.length * (ps.length - 1)) % 65536) →
      StrMem.newReplace g' h fuel s what by' = StrMem.newReplace g h fuel s what by' := by
  have hps := StringView.isSplit_unique hp (StringView.scan_spec what s hw)
  have h1 := StringView.split3Count_eq s what hw (by omega) fuel 0 0 [] (Nat.zero_le _) (by omega)
  have hle := StringView.scan_length_le what [] s hw
  have hlen : (StringView.scan what [] s).length = ps.length := by rw [hps]
  rw [wrap16_of_lt (n := 0) (by omega), List.drop_zero, Nat.zero_add, hlen, wrap16_of_lt (n := _ - 1) (by omega)] at h1
  rw [← wrap16_def]
  rw [StrMem.newReplace, h1] at he
  dsimp only at he
  rw [if_neg (by omega)] at he
  refine ⟨?_, fun g' hg => ?_⟩
  · cases hg : g h.asked (wrap16 (s.length + by'.length * (ps.length - 1) - what.length * (ps.length - 1))) with
    | error e =>
      rw [allocate, hg] at he
      cases he
      rfl
    | ok v =>
      rw [allocate, hg] at he
      dsimp only at he
      split at he
      · cases he
      · split at he
        · rw [free_mem List.mem_cons_self, Outcome.bind_ok] at he
          cases he
          rfl
        · cases he
          rfl
  · rw [StrMem.newReplace, StrMem.newReplace, h1]
    dsimp only
    rw [allocate, allocate, hg]

/-! ### Versions -/

/-- `Version::toString`: one block, for one character more than the text has. -/
theorem C140_print (h : Heap) (v : Version) :
    Asks h (fun g h => .ok (StrMem.print g h v)) [(Version.text v).length + 1] (fun _ o => o.block ≠ none) := by
  rw [← Version.bufferSize_eq]
  have := Asks.bind (asks_allocate h v.bufferSize) (k := fun _ h r =>
    match r with
    | .error _ => .ok (h, SObj.empty)
    | .ok (b, m) => .ok (h, ⟨some b, (StringBuilder.build (StringBuilder.run (.ofBuffer m.bytes) v.items)).view⟩)) (ys := [])
    (R := fun _ o => o.block ≠ none) ?_
  · refine this.of_eq fun g => ?_
    rw [StrMem.print, Outcome.bind_ok]
    rcases allocate g h v.bufferSize with ⟨h1, e | ⟨b, m⟩⟩ <;> rfl
  · rintro h' r ⟨b, m, rfl, _⟩
    exact asks_nothing h' _ (fun _ => rfl) rfl rfl (by simp)

/-- The labels of `Version::parse`: a block for the text before the first "+", without the dashes around it, and one for the text between
the first and the second "+", if there is a "+"; also when there are more and the text is refused. -/
theorem C140_labels (h : Heap) (s : List Byte) (ps : List (List Byte)) (hs : s.length < 2 ^ 16) (hne : s ≠ []) (hp : IsSplit [0x2B#8] s ps)
    (pre : List Byte) (ht : IsTrim (· == 0x2D#8) (ps.headD []) pre) (rest : List Nat) (ho : Owns h rest) :
    Asks h (fun g h => StrMem.newLabels g h s) (pre.length :: ((ps.drop 1).take 1).map List.length) (fun _ _ => True) := by
  have hps : (StringView.splitChar s 0x2B#8).1 = ps := by
    rw [StringView.splitChar_eq s _ hs]
    exact (StringView.isSplit_unique hp (StringView.scan_spec [0x2B#8] s (by simp))).symm
  have htr : StringView.trimChar (ps.headD []) 0x2D#8 = pre := ((StringView.C26_trim_char _ _ _).mp ht).symm
  have := Asks.bind (asks_newStr h pre) (k := fun g h1 r =>
    match r with
    | .error e => pure (h1, .error e)
    | .ok pre =>
      if ps.length = 1 then pure (h1, .ok (pre, SObj.empty))
      else do
        let (h2, r2) ← newStr g h1 (ps.getD 1 [])
        match r2 with
        | .error e => do
          let h3 ← dropStr h2 pre
          pure (h3, .error e)
        | .ok build =>
          if 2 < wrap16 ps.length then do
            let h3 ← dropStr h2 build
            let h4 ← dropStr h3 pre
            pure (h4, .error .invalidInput)
          else pure (h2, .ok (pre, build))) (ys := ((ps.drop 1).take 1).map List.length)
    (R := fun _ (_ : Except Err (SObj × SObj)) => True) ?_
  · refine this.of_eq fun g => ?_
    rw [StrMem.newLabels, if_neg hne]
    dsimp only
    rw [hps, htr]
    rfl
  · rintro h1 r ⟨b, rfl, hb⟩
    match ps, hp with
    | [], hp => exact hp.elim
    | [p], _ => exact asks_nothing h1 _ (fun _ => if_pos rfl) rfl rfl trivial
    | p :: q :: qs, _ =>
      have := Asks.bind (asks_newStr h1 q) (k := fun _ h2 r2 =>
        match r2 with
        | .error e => do
          let h3 ← dropStr h2 ⟨some b, pre⟩
          pure (h3, .error e)
        | .ok build =>
          if 2 < wrap16 (p :: q :: qs).length then do
            let h3 ← dropStr h2 build
            let h4 ← dropStr h3 ⟨some b, pre⟩
            pure (h4, .error .invalidInput)
          else pure (h2, .ok (⟨some b, pre⟩, build))) (ys := []) (R := fun _ (_ : Except Err (SObj × SObj)) => True) (by
          rintro h2 r ⟨b2, rfl, hb2⟩
          by_cases hm : 2 < wrap16 (p :: q :: qs).length
          · have o2 := hb2 _ (hb _ ho)
            have m2 : b2 ∈ h2.live := by
              rw [← List.count_pos_iff, o2.count, List.count_cons_self]; exact Nat.succ_pos _
            obtain ⟨h3, e3, o3, _⟩ := free_owns o2
            rw [free_mem m2] at e3
            obtain rfl := Outcome.ok.inj e3
            have m3 : b ∈ h2.live.erase b2 := by
              rw [← List.count_pos_iff, o3.count, List.count_cons_self]; exact Nat.succ_pos _
            refine asks_nothing { h2 with live := (h2.live.erase b2).erase b } (.error .invalidInput) (fun _ => ?_) rfl rfl trivial
            dsimp only
            rw [if_pos hm, show dropStr h2 ⟨some b2, q⟩ = free h2 b2 from rfl, free_mem m2, Outcome.bind_ok,
              show ∀ x : Heap, dropStr x ⟨some b, pre⟩ = free x b from fun _ => rfl, free_mem m3, Outcome.bind_ok]
            rfl
          · refine asks_nothing h2 (.ok (⟨some b, pre⟩, ⟨some b2, q⟩)) (fun _ => ?_) rfl rfl trivial
            dsimp only
            rw [if_neg hm]
            rfl)
      refine this.of_eq fun g => ?_
      dsimp only
      rw [if_neg (by simp)]
      rfl

/-- `Version::parse`: nothing for a text without three numbers, nor for one without labels; otherwise the blocks of the labels. -/
theorem C140_version (h : Heap) (str after : List Byte) (res : Option (Nat × Nat × Nat × List Byte))
    (hr : Version.numbers str (str ++ after) = .ok res) (rest : List Nat) (ho : Owns h rest) :
    match (generalizing := false) res with
    | none => Asks h (fun g h => StrMem.parse g h str after) [] (fun _ r => r = .error .invalidInput)
    | some (_, _, _, l) =>
      (l = [] → Asks h (fun g h => StrMem.parse g h str after) [] (fun _ r => ∃ v, r = .ok v)) ∧
      ∀ ps pre, l ≠ [] → l.length < 2 ^ 16 → IsSplit [0x2B#8] l ps → IsTrim (· == 0x2D#8) (ps.headD []) pre →
        Asks h (fun g h => StrMem.parse g h str after) (pre.length :: ((ps.drop 1).take 1).map List.length) (fun _ _ => True) := by
  match res, hr with
  | none, hr =>
    refine asks_nothing h (.error .invalidInput) (fun g => ?_) rfl rfl rfl
    rw [StrMem.parse, hr]
    rfl
  | some (maj, min, pat, l), hr =>
    refine ⟨fun hl => ?_, fun ps pre hne hlen hp ht => ?_⟩
    · subst hl
      refine asks_nothing h (.ok (.ver maj min pat .empty .empty)) (fun g => ?_) rfl rfl ⟨_, rfl⟩
      rw [StrMem.parse, hr]
      rfl
    · have := Asks.bind (C140_labels h l ps hlen hne hp pre ht rest ho) (k := fun _ h1 r =>
        match r with
        | .error e => pure (h1, Except.error e)
        | .ok (pre, build) => pure (h1, Except.ok (StrMem.Val.ver maj min pat pre build))) (ys := []) (R := fun _ _ => True) (by
          rintro h1 (e | ⟨a, b⟩) _
          · exact asks_nothing h1 _ (fun _ => rfl) rfl rfl trivial
          · exact asks_nothing h1 _ (fun _ => rfl) rfl rfl trivial)
      rw [List.append_nil] at this
      refine this.of_eq fun g => ?_
      rw [StrMem.parse, hr]
      rfl

/-! ### Paths -/

/-- `makePath(view)`: the characters, then the array. -/
theorem C140_single (h : Heap) (s : List Byte) :
    Asks h (fun g h => single g h s) [s.length, 32] (fun _ r => ∃ p, r = .ok p ∧ p.elems.map SObj.text = [s]) := by
  have := Asks.bind (asks_newStr h s) (k := fun g h r =>
    match r with
    | .error e => pure (h, .error e)
    | .ok o =>
      match allocate g h 32 with
      | (h2, .error e) => do
        let h3 ← dropStr h2 o
        pure (h3, .error e)
      | (h2, .ok (b, _)) => pure (h2, .ok (⟨some b, false, [o]⟩ : PObj))) (ys := [32])
    (R := fun _ (r : Except Err PObj) => ∃ p, r = .ok p ∧ p.elems.map SObj.text = [s]) ?_
  · exact this.of_eq fun g => rfl
  · rintro h' r ⟨b, rfl, _⟩
    have := Asks.bind (asks_allocate h' 32) (k := fun g h2 r =>
      match r with
      | .error e => do
        let h3 ← dropStr h2 ⟨some b, s⟩
        pure (h3, .error e)
      | .ok (b', _) => pure (h2, .ok (⟨some b', false, [⟨some b, s⟩]⟩ : PObj))) (ys := [])
      (R := fun _ (r : Except Err PObj) => ∃ p, r = .ok p ∧ p.elems.map SObj.text = [s]) ?_
    · refine this.of_eq fun g => ?_
      rw [Outcome.bind_ok]
      dsimp only
      rcases allocate g h' 32 with ⟨h1, e | ⟨b, m⟩⟩ <;> rfl
    · rintro h2 r ⟨b', v, rfl, _⟩
      exact asks_nothing h2 _ (fun _ => rfl) rfl rfl ⟨_, rfl, rfl⟩

/-- `Path::Root`. -/
theorem C140_root (h : Heap) :
    Asks h root [0, 32] (fun _ p => p.elems.map SObj.text = [[]]) := by
  have := Asks.bind (C140_single h []) (k := fun _ h r =>
    match r with
    | .ok p => pure (h, p)
    | .error _ => pure (h, .none)) (ys := []) (R := fun _ (p : PObj) => p.elems.map SObj.text = [[]]) ?_
  · exact this.of_eq fun g => rfl
  · rintro h' r ⟨p, rfl, hp⟩
    exact asks_nothing h' p (fun _ => rfl) rfl rfl hp

/-- `Path::parse`: an array with room for as many strings as there are pieces, and the characters of each component. -/
theorem C140_parse (h : Heap) (s d : List Byte) (ps : List (List Byte)) (hd : d ≠ []) (hs : s.length < 2 ^ 16 - 1) (hp : IsSplit d s ps)
    (fuel : Nat) (hf : s.length < fuel) :
    ∃ f, (∀ g h, parse g h fuel s d = some (f g h)) ∧
      Asks h f (32 * ps.length :: (components ps).map List.length) (fun _ r => ∃ p, r = .ok p ∧
        p.elems.map SObj.text = if components ps = [] then [[]] else components ps) := by
  have hps := StringView.isSplit_unique hp (StringView.scan_spec d s hd)
  have hle := StringView.scan_length_le d [] s hd
  have h3 := StringView.split3_eq s d hd (by omega) fuel hf
  rw [← hps] at h3 hle
  rw [wrap16_of_lt (by omega)] at h3
  refine ⟨fun g h => onPieces g h ⟨none, .none⟩ (StringView.number 0 ps.length ps) >>= fun r => finish r.1 r.2, fun g h => ?_, ?_⟩
  · rw [parse, h3]
  · have hpos : 0 < ps.length := List.length_pos_iff.mpr (by rw [hps]; exact StringView.scan_ne_nil d [] s hd)
    -- The array is made before the first piece is looked at.
    have hfirst := Asks.bind (asks_newVec h ps.length (by omega)) (k := fun g h1 r =>
      match r with
      | .ok v => onPieces g h1 ⟨none, v⟩ (StringView.number 0 ps.length ps) >>= fun r => finish r.1 r.2
      | .error e => .ok (h1, .error e)) (ys := (components ps).map List.length)
      (R := fun _ (r : Except Err PObj) => ∃ p, r = .ok p ∧ p.elems.map SObj.text = if components ps = [] then [[]] else components ps) (by
        rintro h1 r ⟨b, rfl, _⟩
        have := Asks.bind (asks_onPieces ps.length ps h1 ⟨none, ⟨some b, ps.length, []⟩⟩ 0 rfl rfl hpos (Nat.le_refl _) (by omega))
          (k := fun _ h a => finish h a) (ys := [])
          (R := fun _ (r : Except Err PObj) => ∃ p, r = .ok p ∧ p.elems.map SObj.text = if components ps = [] then [[]] else components ps) (by
            rintro h2 ⟨err, vec⟩ ⟨e1, e2, e3, e4⟩
            dsimp only at e1 e2 e3 e4
            subst e1
            rw [List.map_nil, List.nil_append] at e4
            by_cases hv : vec.elems = []
            · have hcn : components ps = [] := by rw [← e4, hv]; rfl
              refine asks_nothing h2 (.ok (ofVec { vec with elems := [.empty] })) (fun _ => ?_) rfl rfl ⟨_, rfl, ?_⟩
              · rw [finish]
                dsimp only
                rw [if_pos hv, pushBack_room vec _ (by rw [hv, e3]; exact hpos), hv]
                rfl
              · rw [if_pos hcn]; rfl
            · have hcn : components ps ≠ [] := fun hc => hv (List.map_eq_nil_iff.mp (e4.trans hc))
              refine asks_nothing h2 (.ok (ofVec vec)) (fun _ => ?_) rfl rfl ⟨_, rfl, ?_⟩
              · rw [finish]
                dsimp only
                rw [if_neg hv]
              · rw [if_neg hcn]; exact e4)
        rw [List.append_nil] at this
        exact this)
    intro g hg
    have hsame : ∀ g, Grants g h.asked (32 * ps.length :: (components ps).map List.length) →
        (onPieces g h ⟨none, .none⟩ (StringView.number 0 ps.length ps) >>= fun r => finish r.1 r.2) =
        (Outcome.ok (newVec g h ps.length) >>= fun r =>
          match r.2 with
          | .ok v => onPieces g r.1 ⟨none, v⟩ (StringView.number 0 ps.length ps) >>= fun r => finish r.1 r.2
          | .error e => .ok (r.1, .error e)) := by
      intro g hg
      obtain ⟨⟨h1, r, e1, _, _, b, rfl, _⟩, _⟩ := asks_newVec h ps.length (by omega) g (Grants.left (xs := [32 * ps.length]) hg)
      have e1 : newVec g h ps.length = (h1, .ok ⟨some b, ps.length, []⟩) := Outcome.ok.inj e1
      rw [Outcome.bind_ok, e1]
      dsimp only
      congr 1
      obtain ⟨p, qs, rfl⟩ := List.exists_cons_of_length_pos hpos
      rw [StringView.number, onPieces, onPieces]
      congr 1
      rw [onPiece, onPiece, if_neg (by simp), if_neg (by simp)]
      congr 1
      rw [prepare, prepare, if_pos ⟨rfl, Nat.ne_of_gt hpos⟩, e1,
        if_neg (show ¬((⟨none, ⟨some b, (p :: qs).length, []⟩⟩ : Parse).vec.cap = 0 ∧ (p :: qs).length ≠ 0) from fun hx => hx.2 hx.1)]
      rfl
    obtain ⟨hok, hag⟩ := hfirst g hg
    refine ⟨?_, fun g' ha => ?_⟩
    · dsimp only
      rw [hsame g hg]; exact hok
    · dsimp only
      rw [hsame g hg, hsame g' (fun i n hi => by
        obtain ⟨v, hv⟩ := hg i n hi
        exact ⟨v, by rw [ha i n hi]; exact hv.1, hv.2⟩)]
      exact hag g' ha

/-- `normalize`: an array with room for all components, and the characters of each component that is not ".", nor a ".." that takes away
another. -/
theorem C140_normalize (h : Heap) (p : PObj) (rest : List Nat) (ho : Owns h rest) (hp : p.elems.length < 2 ^ 59) :
    Asks h (fun g h => normalize g h p) (32 * p.elems.length :: (copied 0 (p.elems.map SObj.text)).map List.length)
      (fun _ q => q.elems.map SObj.text = normalized [] (p.elems.map SObj.text)) := by
  have := Asks.bind (asks_newVec h p.elems.length hp) (k := fun g h1 r =>
    match r with
    | .error _ => .ok (h1, .none)
    | .ok v => do
      let (h2, v1) ← normalizeLoop g h1 v (p.elems.map SObj.text)
      pure (h2, ofVec v1)) (ys := (copied 0 (p.elems.map SObj.text)).map List.length)
    (R := fun _ (q : PObj) => q.elems.map SObj.text = normalized [] (p.elems.map SObj.text)) ?_
  · refine this.of_eq fun g => ?_
    rw [normalize, Outcome.bind_ok]
    rcases newVec g h p.elems.length with ⟨h1, e | v⟩ <;> rfl
  · rintro h1 r ⟨b, rfl, hb⟩
    have := Asks.bind (asks_normalizeLoop (p.elems.map SObj.text) h1 ⟨some b, p.elems.length, []⟩ rest (hb rest ho) (by simp))
      (k := fun _ h v1 => pure (h, ofVec v1)) (ys := [])
      (R := fun _ (q : PObj) => q.elems.map SObj.text = normalized [] (p.elems.map SObj.text))
      (fun h' v' e => asks_nothing h' _ (fun _ => rfl) rfl rfl e)
    rw [List.append_nil] at this
    exact this

/-- `getParent`: the blocks of the parent; of the path itself when it has one component or none. -/
theorem C140_getParent (h : Heap) (p : PObj) (hp : p.elems.length < 2 ^ 59) :
    Asks h (fun g h => getParent g h p)
      (blocksOf (if p.elems.length < 2 then p.elems.map SObj.text else (p.elems.map SObj.text).dropLast))
      (fun _ r => ∃ q, r = some q ∧
        q.elems.map SObj.text = if p.elems.length < 2 then p.elems.map SObj.text else (p.elems.map SObj.text).dropLast) := by
  by_cases hn : p.elems.length < 2
  · rw [if_pos hn, blocksOf, List.length_map]
    have hw : wrap64 (p.elems.length * 32) = 32 * p.elems.length := by rw [wrap64_of_lt (by omega), Nat.mul_comm]
    have := Asks.bind (asks_allocate h (32 * p.elems.length)) (k := fun g h1 r =>
      match r with
      | .error _ => .ok (h1, some .none)
      | .ok (b, _) => do
        let (h2, r) ← copyArray g h1 [] (p.elems.map SObj.text)
        match r with
        | some os => pure (h2, some (⟨some b, wrap64 (p.elems.length * 32) == 0, os⟩ : PObj))
        | none => do
          let h3 ← free h2 b
          pure (h3, none)) (ys := (p.elems.map SObj.text).map List.length)
      (R := fun _ r => ∃ q, r = some q ∧ q.elems.map SObj.text = p.elems.map SObj.text) ?_
    · refine this.of_eq fun g => ?_
      rw [getParent, if_pos hn, copyPath, hw, Outcome.bind_ok]
      rcases allocate g h (32 * p.elems.length) with ⟨h1, e | ⟨b, m⟩⟩ <;> rfl
    · rintro h1 r ⟨b, v, rfl, _⟩
      have := Asks.bind (asks_copyArray (p.elems.map SObj.text) h1 [])
        (k := fun _ h2 r =>
          match r with
          | some os => pure (h2, some (⟨some b, wrap64 (p.elems.length * 32) == 0, os⟩ : PObj))
          | none => do
            let h3 ← free h2 b
            pure (h3, none)) (ys := []) (R := fun _ r => ∃ q, r = some q ∧ q.elems.map SObj.text = p.elems.map SObj.text) (by
          rintro h2 r ⟨os, rfl, e⟩
          exact asks_nothing h2 _ (fun _ => rfl) rfl rfl ⟨_, rfl, e⟩)
      rw [List.append_nil] at this
      exact this
  · rw [if_neg hn, blocksOf, List.length_dropLast, List.length_map]
    have := Asks.bind (asks_newVec h (p.elems.length - 1) (by omega)) (k := fun g h1 r =>
      match r with
      | .error _ => .ok (h1, some .none)
      | .ok v => do
        let (h2, v1) ← copyAll g h1 v ((p.elems.map SObj.text).take (p.elems.length - 1))
        pure (h2, some (ofVec v1))) (ys := (p.elems.map SObj.text).dropLast.map List.length)
      (R := fun _ r => ∃ q, r = some q ∧ q.elems.map SObj.text = (p.elems.map SObj.text).dropLast) ?_
    · refine this.of_eq fun g => ?_
      rw [getParent, if_neg hn, Outcome.bind_ok]
      rcases newVec g h (p.elems.length - 1) with ⟨h1, e | v⟩ <;> rfl
    · rintro h1 r ⟨b, rfl, _⟩
      have hdl : (p.elems.map SObj.text).dropLast = (p.elems.map SObj.text).take (p.elems.length - 1) := by
        rw [List.dropLast_eq_take, List.length_map]
      rw [hdl]
      have := Asks.bind (asks_copyAll ((p.elems.map SObj.text).take (p.elems.length - 1)) h1 ⟨some b, p.elems.length - 1, []⟩ (by
        simp only [List.length_take, List.length_map, List.length_nil]; omega))
        (k := fun _ h v1 => pure (h, some (ofVec v1))) (ys := [])
        (R := fun _ r => ∃ q, r = some q ∧ q.elems.map SObj.text = (p.elems.map SObj.text).take (p.elems.length - 1)) (by
          rintro h2 v' ⟨_, _, e⟩
          exact asks_nothing h2 _ (fun _ => rfl) rfl rfl ⟨_, rfl, e⟩)
      rw [List.append_nil] at this
      exact this

/-- `subpath`: the blocks of the new path. -/
theorem C140_subpath (h : Heap) (p : PObj) (a b : Nat) (hp : p.elems.length < 2 ^ 59) :
    Asks h (fun g h => subpath g h p a b) (blocksOf (((p.elems.map SObj.text).take b).drop a))
      (fun _ q => q.elems.map SObj.text = ((p.elems.map SObj.text).take b).drop a) := by
  have hcut : ((p.elems.map SObj.text).take b).drop a = ((p.elems.map SObj.text).drop (min a p.elems.length)).take
      (max (min a p.elems.length) (min b p.elems.length) - min a p.elems.length) := by
    apply List.ext_getElem?
    intro i
    simp only [List.getElem?_drop, List.getElem?_take]
    have hl : (p.elems.map SObj.text).length = p.elems.length := List.length_map _
    by_cases hi : a + i < p.elems.length
    · rw [Nat.min_eq_left (by omega)]
      by_cases hb : a + i < b
      · rw [if_pos hb, if_pos (by omega)]
      · rw [if_neg hb, if_neg (by omega)]
    · have h1 : (p.elems.map SObj.text)[a + i]? = none := List.getElem?_eq_none (by omega)
      rw [h1]
      by_cases hb : i < max (min a p.elems.length) (min b p.elems.length) - min a p.elems.length
      · rw [if_pos hb, List.getElem?_eq_none (by omega)]; split <;> rfl
      · rw [if_neg hb]; split <;> rfl
  have hlen : (((p.elems.map SObj.text).take b).drop a).length =
      max (min a p.elems.length) (min b p.elems.length) - min a p.elems.length := by
    rw [List.length_drop, List.length_take, List.length_map]; omega
  rw [blocksOf, hlen]
  have := Asks.bind (asks_newVec h (max (min a p.elems.length) (min b p.elems.length) - min a p.elems.length) (by omega)) (k := fun g h1 r =>
    match r with
    | .error _ => .terminate
    | .ok v => do
      let (h2, v1) ← copyAll g h1 v (((p.elems.map SObj.text).take b).drop a)
      pure (h2, ofVec v1)) (ys := (((p.elems.map SObj.text).take b).drop a).map List.length)
    (R := fun _ q => q.elems.map SObj.text = ((p.elems.map SObj.text).take b).drop a) ?_
  · refine this.of_eq fun g => ?_
    rw [subpath, Outcome.bind_ok, hcut]
    dsimp only
    rcases newVec g h (max (min a p.elems.length) (min b p.elems.length) - min a p.elems.length) with ⟨h1, e | v⟩ <;> rfl
  · rintro h1 r ⟨k, rfl, _⟩
    have := Asks.bind (asks_copyAll (((p.elems.map SObj.text).take b).drop a) h1
      ⟨some k, max (min a p.elems.length) (min b p.elems.length) - min a p.elems.length, []⟩ (by
        rw [hlen]; exact Nat.le_of_eq (Nat.zero_add _)))
      (k := fun _ h v1 => pure (h, ofVec v1)) (ys := [])
      (R := fun _ q => q.elems.map SObj.text = ((p.elems.map SObj.text).take b).drop a) (by
        rintro h2 v' ⟨_, _, e⟩
        exact asks_nothing h2 _ (fun _ => rfl) rfl rfl e)
    rw [List.append_nil] at this
    exact this

/-- `toString`: one block for the text. -/
theorem C140_toString (h : Heap) (p : PObj) (d : List Byte) (hb : p.noBuffer = false) (hc : p.elems ≠ [])
    (hd : d.length * p.elems.length < 2 ^ 64) :
    Asks h (fun g h => PathMem.toString g h p d)
      [if p.elems.map SObj.text = [[]] then d.length
        else (d.length * (p.elems.length - 1) + (p.elems.map (·.text.length)).sum) % 65536] (fun _ _ => True) := by
  obtain ⟨o, os, hos⟩ := List.exists_cons_of_ne_nil hc
  have habs : p.view.isAbsolute = .ok (o.text == []) := by
    rw [Path.isAbsolute, show p.view.noBuffer = false from hb, if_neg (by simp), Path.component, show p.view.comps = p.elems.map SObj.text from rfl,
      hos]
    rfl
  have htail : ∀ f : Policy → Heap → Outcome (Heap × Except Err SObj), ∀ xs, Asks h f xs (fun _ _ => True) →
      Asks h (fun g h => f g h >>= fun r => match r.2 with | .ok o => pure (r.1, o) | .error _ => pure (r.1, SObj.empty)) xs
        (fun _ _ => True) := by
    intro f xs hf
    have := Asks.bind hf (k := fun _ h r => match r with | .ok o => pure (h, o) | .error _ => pure (h, SObj.empty)) (ys := [])
      (R := fun _ _ => True) (by
        rintro h' (e | o) _
        · exact asks_nothing h' _ (fun _ => rfl) rfl rfl trivial
        · exact asks_nothing h' _ (fun _ => rfl) rfl rfl trivial)
    rwa [List.append_nil] at this
  by_cases h1 : p.elems.map SObj.text = [[]]
  · rw [if_pos h1]
    refine (htail _ _ ((asks_newStr h d).imp fun _ _ _ => trivial)).of_eq fun g => ?_
    have hl : p.elems.length = 1 := by have := congrArg List.length h1; rwa [List.length_map] at this
    have ht : o.text = [] := by rw [hos] at h1; exact (List.cons.inj h1).1
    rw [PathMem.toString, habs, Outcome.bind_ok, if_pos (by rw [ht, hl]; rfl)]
    rfl
  · rw [if_neg h1]
    have hj := C140_join h d (p.elems.map SObj.text) (by simpa using hc) (by rw [List.length_map]; exact hd)
    rw [List.length_map, List.map_map] at hj
    refine (htail _ _ hj).of_eq fun g => ?_
    rw [PathMem.toString, habs, Outcome.bind_ok, if_neg (by
      intro ht
      rw [Bool.and_eq_true, beq_iff_eq, beq_iff_eq, hos, List.length_cons] at ht
      refine h1 ?_
      have : os = [] := List.length_eq_zero_iff.mp (by omega)
      rw [hos, this, List.map_cons, ht.1]
      rfl)]
    rfl

/-- `makePath(args...)`: an array for the components of all arguments, and the characters of those that are copied. The components of
rvalues are taken over, without a request. -/
theorem C140_joinPaths (h : Heap) (vs : Vars) (args : List Arg) (n : Nat) (hc : countArgs vs args = some n) (hn : n < 2 ^ 59) :
    Asks h (fun g h => join g h vs args n) (32 * n :: (joinCopied vs args).map List.length)
      (fun _ r => ∃ p, r.2 = .ok p ∧ p.elems.map SObj.text = expected vs args) := by
  have hw : wrap64 n = n := wrap64_of_lt (by omega)
  have := Asks.bind (asks_newVec h n hn) (k := fun g h1 r =>
    match r with
    | .error e => Outcome.ok (h1, vs, (Except.error e : Except Err PObj))
    | .ok v => do
      let (h2, v1, vs1, e) ← joinArgs g h1 v vs args
      match e with
      | some e => do
        let h3 ← dropVec h2 v1
        pure (h3, vs1, .error e)
      | none => pure (h2, vs1, .ok (ofVec v1))) (ys := (joinCopied vs args).map List.length)
    (R := fun _ (r : Vars × Except Err PObj) => ∃ p, r.2 = .ok p ∧ p.elems.map SObj.text = expected vs args) ?_
  · refine this.of_eq fun g => ?_
    rw [join, hw, Outcome.bind_ok]
    rcases newVec g h n with ⟨h1, e | v⟩ <;> rfl
  · rintro h1 r ⟨b, rfl, _⟩
    have := Asks.bind (asks_joinArgs args h1 ⟨some b, n, []⟩ vs n hc (by simp))
      (k := fun _ h2 r =>
        match r.2.2 with
        | some e => do
          let h3 ← dropVec h2 r.1
          pure (h3, r.2.1, Except.error e)
        | none => pure (h2, r.2.1, Except.ok (ofVec r.1))) (ys := [])
      (R := fun _ (r : Vars × Except Err PObj) => ∃ p, r.2 = .ok p ∧ p.elems.map SObj.text = expected vs args) (by
        rintro h2 ⟨v, vs1, e⟩ ⟨rfl, _, _, e3⟩
        exact asks_nothing h2 _ (fun _ => rfl) rfl rfl ⟨_, rfl, e3⟩)
    rw [List.append_nil] at this
    exact this

/-! ### Where more is asked for than is returned -/

/-- A text that does not end with a delimiter: `parse` asks for the blocks of the path it returns. -/
theorem C140_parse_partial (h : Heap) (s d : List Byte) (ps : List (List Byte)) (hd : d ≠ []) (hs : s.length < 2 ^ 16 - 1) (hp : IsSplit d s ps)
    (hl : ps.getLast? ≠ some []) (fuel : Nat) (hf : s.length < fuel) :
    ∃ f, (∀ g h, parse g h fuel s d = some (f g h)) ∧
      Asks h f (blocksOf ps) (fun _ r => ∃ p, r = .ok p ∧ p.elems.map SObj.text = ps) := by
  obtain ⟨f, h1, h2⟩ := C140_parse h s d ps hd hs hp fuel hf
  have hc : components ps = ps := if_neg hl
  have hne : ps ≠ [] := by intro h0; rw [h0] at hp; exact hp
  rw [hc, if_neg hne] at h2
  exact ⟨f, h1, h2⟩

/-- A path without "." and "..": `normalize` asks for the blocks of the path it returns. -/
theorem C140_normalize_partial (h : Heap) (p : PObj) (rest : List Nat) (ho : Owns h rest) (hp : p.elems.length < 2 ^ 59)
    (hn : ∀ o ∈ p.elems, o.text ≠ [0x2E#8] ∧ o.text ≠ [0x2E#8, 0x2E#8]) :
    Asks h (fun g h => normalize g h p) (blocksOf (p.elems.map SObj.text)) (fun _ q => q.elems.map SObj.text = p.elems.map SObj.text) := by
  have key : ∀ (cs : List (List Byte)), (∀ c ∈ cs, c ≠ [0x2E#8] ∧ c ≠ [0x2E#8, 0x2E#8]) →
      (∀ d, copied d cs = cs) ∧ ∀ acc, normalized acc cs = acc ++ cs := by
    intro cs
    induction cs with
    | nil => intro _; exact ⟨fun _ => rfl, fun acc => (List.append_nil acc).symm⟩
    | cons c cs ih =>
      intro hc
      obtain ⟨i1, i2⟩ := ih fun c hm => hc c (List.mem_cons_of_mem _ hm)
      have h0 := hc c List.mem_cons_self
      refine ⟨fun d => ?_, fun acc => ?_⟩
      · rw [copied, if_neg h0.1, if_neg (fun hx => h0.2 hx.1), i1]
      · rw [normalized, if_neg h0.1, if_neg (fun hx => h0.2 hx.1), i2, List.append_assoc]; rfl
  obtain ⟨k1, k2⟩ := key (p.elems.map SObj.text) (by
    intro c hc
    obtain ⟨o, ho, rfl⟩ := List.mem_map.mp hc
    exact hn o ho)
  have := C140_normalize h p rest ho hp
  rw [k1, k2, List.nil_append] at this
  rw [blocksOf, List.length_map]
  exact this

/-- Components that are taken away again are copied before: `a/../b` has three requests, for an array of three strings among them, and the
result has one component. -/
theorem C140_normalize_extra (h : Heap) (o1 o2 o3 : SObj) (b : Option Nat) (rest : List Nat) (ho : Owns h rest)
    (h1 : o1.text = [0x61#8]) (h2 : o2.text = [0x2E#8, 0x2E#8]) (h3 : o3.text = [0x62#8]) :
    Asks h (fun g h => normalize g h ⟨b, false, [o1, o2, o3]⟩) [96, 1, 1] (fun _ q => q.elems.map SObj.text = [[0x62#8]]) := by
  have := C140_normalize h ⟨b, false, [o1, o2, o3]⟩ rest ho (by simp)
  simp only [List.map_cons, List.map_nil, h1, h2, h3] at this
  exact this

/-- A delimiter at the end: an array for two strings, though the path has one component. -/
theorem C140_parse_extra (h : Heap) :
    ∃ f, (∀ g h, parse g h 3 [0x61#8, 0x2F#8] [0x2F#8] = some (f g h)) ∧
      Asks h f [64, 1] (fun _ r => ∃ p, r = .ok p ∧ p.elems.map SObj.text = [[0x61#8]]) := by
  have hsplit : IsSplit [0x2F#8] [0x61#8, 0x2F#8] [[0x61#8], []] := by
    have := StringView.scan_spec [0x2F#8] [0x61#8, 0x2F#8] (by simp)
    rwa [show StringView.scan [0x2F#8] [] [0x61#8, 0x2F#8] = [[0x61#8], []] by decide +kernel] at this
  exact C140_parse h [0x61#8, 0x2F#8] [0x2F#8] [[0x61#8], []] (by simp) (by simp) hsplit 3 (by simp)

/-- Joining no strings: the size wraps around, and the request is for nearly 64K. -/
theorem C140_join_empty (h : Heap) (c : Byte) : Asks h (fun g h => newJoin g h [c] []) [65535] (fun _ _ => True) := by
  have hw : Str.joinLength [c] [] = 65535 := by
    rw [Str.joinLength]
    simp only [List.length_cons, List.length_nil, List.map_nil, List.sum_nil]
    decide +kernel
  rw [← hw]
  exact ((asks_single h _ _).of_eq fun g => StrMem.newJoin_single g h [c] []).imp fun _ _ _ => trivial

/-! ### The hypotheses can be met -/

/-- A manager that grants everything grants every list of requests. -/
example (sizes : List Nat) : Grants (fun _ n => .ok ⟨false, List.replicate n 0⟩) 0 sizes :=
  fun _ _ _ => ⟨_, rfl, rfl, List.length_replicate⟩

/-- A manager that grants the first two requests of 64 and 1 bytes and no others is enough for parsing "a/". -/
example : Grants (fun k n => if (k, n) = (0, 64) ∨ (k, n) = (1, 1) then .ok ⟨false, List.replicate n 0⟩ else .error .nomem) 0 [64, 1] := by
  intro _ _ hi
  rename_i i _
  match i, hi with
  | 0, hi => cases hi; exact ⟨_, rfl, rfl, List.length_replicate⟩
  | 1, hi => cases hi; exact ⟨_, rfl, rfl, List.length_replicate⟩

example : Owns ⟨0, 0, 0, []⟩ [] := ⟨fun _ => rfl, List.nodup_nil, fun _ h => by cases h⟩

example : ([[0x61#8], [0x62#8]] : List (List Byte)) ≠ [] ∧ [0x2F#8].length * [[0x61#8], [0x62#8]].length < 2 ^ 64 := by decide

example : (StrMem.newReplace (fun _ n => .ok ⟨false, List.replicate n 0⟩) ⟨0, 0, 0, []⟩ 4 [0x61#8, 0x62#8] [0x62#8] [0x63#8, 0x64#8]).isSome := by
  decide +kernel

example : IsTrim (· == 0x2D#8) [0x2D#8, 0x61#8] [0x61#8] := ⟨[0x2D#8], [], by decide, by simp, by simp, by simp, by simp⟩

/-- Joining a string and two paths, the second an rvalue: only the components of the first two are copied. -/
example : joinCopied [some ⟨some 0, false, [⟨some 1, [0x61#8]⟩]⟩, some ⟨some 2, false, [⟨some 3, [0x62#8, 0x63#8]⟩]⟩]
      [.str [], .copy 0, .move 1] = [[], [0x61#8]] ∧
    countArgs [some ⟨some 0, false, [⟨some 1, [0x61#8]⟩]⟩, some ⟨some 2, false, [⟨some 3, [0x62#8, 0x63#8]⟩]⟩]
      [.str [], .copy 0, .move 1] = some 3 := by decide +kernel

end Solace.Requests
