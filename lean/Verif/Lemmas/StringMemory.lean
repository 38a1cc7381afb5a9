import Verif.Spec.StringMemory
import Verif.Lemmas.PathMemory
/- Helper lemmas for the memory of strings. -/
namespace Solace.StrMem
open PathMem

/-- One request, then the rest of the function, which gives the block back when it fails. -/
def single (g : Policy) (h : Heap) (n : Nat) (k : MutView → Except Err Str) : Outcome (Heap × Except Err SObj) :=
  match allocate g h n with
  | (h1, .error e) => .ok (h1, .error e)
  | (h1, .ok (b, v)) =>
    match k v with
    | .error e => free h1 b >>= fun h2 => pure (h2, .error e)
    | .ok s => .ok (h1, .ok ⟨some b, s.view⟩)

theorem single_exact (g : Policy) {h : Heap} {rest : List Nat} (ho : Owns h rest) (n : Nat) (k : MutView → Except Err Str) :
    ∃ h' r, single g h n k = .ok (h', r) ∧ Exact h rest h' r (match g h.asked n with | .error e => .error e | .ok v => k v) := by
  rw [single]
  cases ha : allocate g h n with
  | mk h1 r =>
    cases r with
    | error e =>
      obtain ⟨o1, _, hg⟩ := allocate_error ho ha
      exact ⟨h1, .error e, rfl, o1, by rw [hg]; rfl⟩
    | ok bv =>
      obtain ⟨b, v⟩ := bv
      obtain ⟨o1, r1, hg⟩ := allocate_ok ho ha
      dsimp only
      rw [hg]
      dsimp only
      cases hk : k v with
      | error e =>
        obtain ⟨h2, e2, o2, _⟩ := free_owns o1
        refine ⟨h2, .error e, ?_, o2, rfl⟩
        dsimp only
        rw [e2]; rfl
      | ok s => exact ⟨h1, .ok ⟨some b, s.view⟩, rfl, ⟨o1, r1⟩, rfl⟩

theorem newStr_single (g : Policy) (h : Heap) (s : List Byte) :
    newStr g h s = single g h s.length fun v =>
      match v.write s with
      | (_, .error e) => .error e
      | (v', .ok _) => .ok ⟨v'.bytes, s.length⟩ := by
  rw [newStr, single]
  rcases allocate g h s.length with ⟨h1, e | ⟨b, v⟩⟩
  · rfl
  · dsimp only
    rcases v.write s with ⟨_, e | _⟩ <;> rfl

theorem newConcat_single (g : Policy) (h : Heap) (args : List (List Byte)) :
    newConcat g h args = single g h (wrap16 (args.map List.length).sum) fun v =>
      .ok ⟨(Str.writeArgs (.ofBuffer v.bytes) args).data, wrap16 (args.map List.length).sum⟩ := by
  rw [newConcat, single]
  rcases allocate g h (wrap16 (args.map List.length).sum) with ⟨h1, e | ⟨b, v⟩⟩ <;> rfl

theorem newJoin_single (g : Policy) (h : Heap) (d : List Byte) (cs : List (List Byte)) :
    newJoin g h d cs = single g h (Str.joinLength d cs) fun v =>
      match Str.writeJoin (.ofBuffer v.bytes) d cs with
      | (_, .error e) => .error e
      | (w, .ok _) => .ok ⟨w.data, Str.joinLength d cs⟩ := by
  rw [newJoin, single]
  rcases allocate g h (Str.joinLength d cs) with ⟨h1, e | ⟨b, v⟩⟩
  · rfl
  · dsimp only
    rcases Str.writeJoin (.ofBuffer v.bytes) d cs with ⟨_, e | _⟩ <;> rfl

theorem newJoinArgs_single (g : Policy) (h : Heap) (d : List Byte) (args : List (Bool × List Byte)) :
    newJoinArgs g h d args = single g h (jointLength d args) fun v =>
      match Str.writeJointArgs (.ofBuffer v.bytes) d args with
      | (_, .error e) => .error e
      | (w, .ok _) => .ok ⟨w.data, jointLength d args⟩ := by
  rw [newJoinArgs, single]
  rcases allocate g h (jointLength d args) with ⟨h1, e | ⟨b, v⟩⟩
  · rfl
  · dsimp only
    rcases Str.writeJointArgs (.ofBuffer v.bytes) d args with ⟨_, e | _⟩ <;> rfl

theorem newReplaceChar_single (g : Policy) (h : Heap) (s : List Byte) (what with' : Byte) :
    newReplaceChar g h s what with' = single g h s.length fun v =>
      match v.write s with
      | (_, .error e) => .error e
      | (v', .ok _) =>
        .ok ⟨v'.bytes.zipIdx.map fun (b, i) => if i < s.length ∧ (b.toNat : Int) = what.toInt then with' else b, s.length⟩ := by
  rw [newReplaceChar, single]
  rcases allocate g h s.length with ⟨h1, e | ⟨b, v⟩⟩
  · rfl
  · dsimp only
    rcases v.write s with ⟨_, e | _⟩ <;> rfl

theorem newStr_exact (g : Policy) {h : Heap} {rest : List Nat} (ho : Owns h rest) (s : List Byte) :
    ∃ h' r, newStr g h s = .ok (h', r) ∧ Exact h rest h' r (Str.make (g h.asked) s) := by
  rw [newStr_single]
  exact single_exact g ho _ _

theorem newConcat_exact (g : Policy) {h : Heap} {rest : List Nat} (ho : Owns h rest) (args : List (List Byte)) :
    ∃ h' r, newConcat g h args = .ok (h', r) ∧ Exact h rest h' r (Str.makeConcat (g h.asked) args) := by
  rw [newConcat_single]
  exact single_exact g ho _ _

theorem newJoin_exact (g : Policy) {h : Heap} {rest : List Nat} (ho : Owns h rest) (d : List Byte) (cs : List (List Byte)) :
    ∃ h' r, newJoin g h d cs = .ok (h', r) ∧ Exact h rest h' r (Str.makeJoin (g h.asked) d cs) := by
  rw [newJoin_single]
  exact single_exact g ho _ _

theorem newJoinArgs_exact (g : Policy) {h : Heap} {rest : List Nat} (ho : Owns h rest) (d : List Byte) (args : List (Bool × List Byte)) :
    ∃ h' r, newJoinArgs g h d args = .ok (h', r) ∧ Exact h rest h' r (Str.makeJoinArgs (g h.asked) d args) := by
  rw [newJoinArgs_single]
  exact single_exact g ho _ _

theorem newReplaceChar_exact (g : Policy) {h : Heap} {rest : List Nat} (ho : Owns h rest) (s : List Byte) (what with' : Byte) :
    ∃ h' r, newReplaceChar g h s what with' = .ok (h', r) ∧ Exact h rest h' r (Str.makeReplaceChar (g h.asked) s what with') := by
  rw [newReplaceChar_single]
  exact single_exact g ho _ _

/-- `makeStringReplace` with strings: no return, undefined, an exception, or a string or an error, all as without ownership. -/
theorem newReplace_exact (g : Policy) {h : Heap} {rest : List Nat} (ho : Owns h rest) (fuel : Nat) (s what by' : List Byte) :
    match Str.makeReplace (g h.asked) fuel s what by', newReplace g h fuel s what by' with
    | none, none => True
    | some .ub, some .ub => ∃ n, StringView.split3Count s what fuel 0 0 = some n ∧ 2 ^ 31 ≤ s.length + by'.length * n
    | some .throws, some (.ok (h', none)) => Owns h' rest
    | some (.ok want), some (.ok (h', some r)) => Exact h rest h' r want
    | _, _ => False := by
  rw [Str.makeReplace, newReplace]
  cases hc : StringView.split3Count s what fuel 0 0 with
  | none => trivial
  | some n =>
    dsimp only
    by_cases hu : 2 ^ 31 ≤ s.length + by'.length * n
    · rw [if_pos hu, if_pos hu]; exact ⟨n, rfl, hu⟩
    · rw [if_neg hu, if_neg hu]
      generalize wrap16 (s.length + by'.length * n - what.length * n) = len
      cases ha : allocate g h len with
      | mk h1 r =>
        cases r with
        | error e =>
          obtain ⟨o1, _, hg⟩ := allocate_error ho ha
          rw [hg]
          exact o1
        | ok bv =>
          obtain ⟨b, v⟩ := bv
          obtain ⟨o1, r1, hg⟩ := allocate_ok ho ha
          dsimp only
          rw [hg]
          dsimp only
          cases hl : Str.replaceLoop s what by' fuel 0 0 (.ofBuffer v.bytes) with
          | none => trivial
          | some wf =>
            obtain ⟨w, from'⟩ := wf
            dsimp only
            cases hw : w.write (StringView.substring s from' s.length) with
            | mk w' r =>
              cases r with
              | error e =>
                obtain ⟨h2, e2, o2, _⟩ := free_owns o1
                dsimp only
                rw [e2]
                exact ⟨o2, rfl⟩
              | ok u => exact ⟨⟨o1, r1⟩, rfl⟩

/-- Memory that is always granted. -/
def Granted (alloc : Nat → Except Err MutView) : Prop := ∀ n, ∃ v, alloc n = .ok v ∧ v.null = false ∧ v.bytes.length = n

theorem make_granted {alloc : Nat → Except Err MutView} (ha : Granted alloc) (s : List Byte) :
    ∃ str, Str.make alloc s = .ok str ∧ str.view = s := by
  obtain ⟨v, h1, h2, h3⟩ := ha s.length
  rw [Str.make, h1]
  have hw : v.write s = ({ v with bytes := s ++ v.bytes.drop s.length }, .ok ()) := by
    simp only [MutView.write, h2, Bool.false_eq_true, if_false]
    rw [if_neg (by omega)]
  dsimp only
  rw [hw]
  refine ⟨_, rfl, ?_⟩
  have hd : v.bytes.drop s.length = [] := List.drop_eq_nil_of_le (by omega)
  rw [Str.view]
  dsimp only
  rw [hd, List.append_nil, Solace.slice_eq]
  simp

/-- The labels: two strings with their blocks, the texts being those wanted; or an error and no blocks, and then memory was refused or the
error is the one wanted. -/
theorem newLabels_owns (g : Policy) {h : Heap} {rest : List Nat} (ho : Owns h rest) (s : List Byte) :
    ∃ h' r, newLabels g h s = .ok (h', r) ∧
      match r with
      | .ok (pre, build) => Owns h' (pre.blocks ++ build.blocks ++ rest) ∧ h'.refused = h.refused ∧
          (Fair g → ∀ alloc, Granted alloc → Version.labels alloc s = .ok (pre.text, build.text))
      | .error e => Owns h' rest ∧
          (Fair g → h.refused < h'.refused ∨ ∀ alloc, Granted alloc → Version.labels alloc s = .error e) := by
  rw [newLabels]
  by_cases hs : s = []
  · rw [if_pos hs]
    refine ⟨h, _, rfl, ho, rfl, fun _ alloc _ => ?_⟩
    rw [Version.labels, if_pos hs]; rfl
  · rw [if_neg hs]
    generalize hp : (StringView.splitChar s 0x2B#8).1 = pieces
    obtain ⟨h1, r1, e1, m1⟩ := newStr_owns g (StringView.trimChar (pieces.headD []) 0x2D#8) ho
    dsimp only
    rw [e1, Outcome.bind_ok]
    dsimp only
    cases r1 with
    | error e => exact ⟨h1, .error e, rfl, m1.1, fun hf => .inl (m1.2.2 hf)⟩
    | ok pre =>
      dsimp only
      by_cases h1l : pieces.length = 1
      · rw [if_pos h1l]
        refine ⟨h1, .ok (pre, .empty), rfl, ?_, m1.2.1, fun hf alloc ha => ?_⟩
        · simpa [SObj.blocks, SObj.empty] using m1.1
        · obtain ⟨str, g1, g2⟩ := make_granted ha (StringView.trimChar (pieces.headD []) 0x2D#8)
          rw [Version.labels, if_neg hs, hp]
          dsimp only
          rw [g1]
          dsimp only
          rw [if_pos h1l, g2, m1.2.2 hf]; rfl
      · rw [if_neg h1l]
        obtain ⟨h2, r2, e2, m2⟩ := newStr_owns g (pieces.getD 1 []) m1.1
        rw [e2, Outcome.bind_ok]
        dsimp only
        cases r2 with
        | error e =>
          obtain ⟨h3, e3, o3, r3⟩ := dropStr_owns pre m2.1
          dsimp only
          rw [e3, Outcome.bind_ok]
          refine ⟨h3, .error e, rfl, o3, fun hf => .inl ?_⟩
          have k1 := m1.2.1
          have k2 := m2.2.2 hf
          omega
        | ok build =>
          dsimp only
          have hlab : Fair g → ∀ alloc, Granted alloc → Version.labels alloc s =
              if 2 < wrap16 pieces.length then .error .invalidInput else .ok (pre.text, build.text) := by
            intro hf alloc ha
            obtain ⟨str, g1, g2⟩ := make_granted ha (StringView.trimChar (pieces.headD []) 0x2D#8)
            obtain ⟨str2, g3, g4⟩ := make_granted ha (pieces.getD 1 [])
            rw [Version.labels, if_neg hs, hp]
            dsimp only
            rw [g1]
            dsimp only
            rw [if_neg h1l, g3]
            dsimp only
            rw [g2, g4, m1.2.2 hf, m2.2.2 hf]
          by_cases h2l : 2 < wrap16 pieces.length
          · rw [if_pos h2l]
            obtain ⟨h3, e3, o3, r3⟩ := dropStr_owns build m2.1
            obtain ⟨h4, e4, o4, r4⟩ := dropStr_owns pre o3
            rw [e3, Outcome.bind_ok, e4, Outcome.bind_ok]
            refine ⟨h4, .error .invalidInput, rfl, o4, fun hf => .inr fun alloc ha => ?_⟩
            rw [hlab hf alloc ha, if_pos h2l]
          · rw [if_neg h2l]
            refine ⟨h2, .ok (pre, build), rfl, ?_, ?_, fun hf alloc ha => ?_⟩
            · exact m2.1.congr fun b => by simp only [List.count_append]; omega
            · have k1 := m1.2.1
              have k2 := m2.2.1
              omega
            · rw [hlab hf alloc ha, if_neg h2l]

theorem get_eq {vs : Vars} {i : Nat} {v : Val} (h : get vs i = some v) : vs[i]? = some (some v) := by
  rw [get] at h
  cases hv : vs[i]? with
  | none => rw [hv] at h; cases h
  | some o => rw [hv] at h; exact congrArg some h

theorem get_set (vs : Vars) (i j : Nat) (p q : Val) (hp : get vs i = some p) :
    get (vs.set i (some q)) j = if i = j then some q else get vs j := by
  have hl : i < vs.length := (List.getElem?_eq_some_iff.mp (get_eq hp)).1
  rw [get, get, List.getElem?_set]
  split
  · rfl
  · rfl

/-- Replacing a variable exchanges its blocks. -/
theorem allBlocks_set (vs : Vars) : ∀ (i : Nat) (p : Val) (q : Option Val) (b : Nat), get vs i = some p →
    (allBlocks (vs.set i q)).count b + p.blocks.count b = (allBlocks vs).count b + ((q.map Val.blocks).getD []).count b := by
  induction vs with
  | nil => intro i p q b h; cases h
  | cons o vs ih =>
    intro i p q b h
    cases i with
    | zero =>
      have ho : o = some p := by
        have := get_eq h
        simpa using this
      subst ho
      simp only [List.set_cons_zero, allBlocks, List.flatMap_cons, List.count_append, Option.map_some, Option.getD_some]
      omega
    | succ i =>
      have := ih i p q b h
      simp only [List.set_cons_succ, allBlocks, List.flatMap_cons, List.count_append] at this ⊢
      omega

theorem allBlocks_append (vs : Vars) (p : Val) (b : Nat) :
    (allBlocks (vs ++ [some p])).count b = (allBlocks vs).count b + p.blocks.count b := by
  simp [allBlocks, List.flatMap_append, List.count_append]

theorem dropVal_owns (v : Val) {h : Heap} {rest : List Nat} (ho : Owns h (v.blocks ++ rest)) :
    ∃ h', dropVal h v = .ok h' ∧ Owns h' rest ∧ h'.refused = h.refused := by
  cases v with
  | str o => exact dropStr_owns o ho
  | ver maj min pat pre build =>
    obtain ⟨h1, e1, o1, r1⟩ := dropStr_owns build (h := h) (rest := pre.blocks ++ rest)
      (ho.congr fun b => by simp only [Val.blocks, List.count_append]; omega)
    obtain ⟨h2, e2, o2, r2⟩ := dropStr_owns pre o1
    exact ⟨h2, by rw [dropVal, e1, Outcome.bind_ok, e2], o2, r2.trans r1⟩
  | bld b w => exact freeOpt_owns b ho

theorem numbers_defined (str mem : List Byte) : Version.numbers str mem = .ub ∨ ∃ r, Version.numbers str mem = .ok r := by
  have hn : ∀ m, Version.number m = .ub ∨ ∃ r, Version.number m = .ok r := by
    intro m
    rw [Version.number]
    split
    · exact .inl rfl
    · exact .inr ⟨_, rfl⟩
  have ha : ∀ pe, Version.afterPatch str mem pe = .ub ∨ ∃ r, Version.afterPatch str mem pe = .ok r := by
    intro pe
    rw [Version.afterPatch]
    split
    · exact .inr ⟨_, rfl⟩
    · dsimp only
      split
      · exact .inr ⟨_, rfl⟩
      · exact .inl rfl
  rw [Version.numbers]
  split
  · exact .inr ⟨_, rfl⟩
  · next p ps _ =>
    rcases hn mem with e | ⟨r, e⟩ <;> rw [e]
    · exact .inl rfl
    rw [Outcome.bind_ok]
    cases ps with
    | nil => exact .inr ⟨_, rfl⟩
    | cons q qs =>
      dsimp only
      rcases hn (mem.drop (p.length + 1)) with e | ⟨r2, e⟩ <;> rw [e]
      · exact .inl rfl
      rw [Outcome.bind_ok]
      cases qs with
      | nil => exact .inr ⟨_, rfl⟩
      | cons x xs =>
        dsimp only
        rcases hn (mem.drop (p.length + 1 + q.length + 1)) with e | ⟨r3, e⟩ <;> rw [e]
        · exact .inl rfl
        rw [Outcome.bind_ok]
        rcases ha (p.length + 1 + q.length + 1 + r3.2) with e | ⟨r4, e⟩ <;> rw [e]
        · exact .inl rfl
        · exact .inr ⟨_, rfl⟩

end Solace.StrMem
