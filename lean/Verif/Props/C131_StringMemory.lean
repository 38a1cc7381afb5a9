import Verif.Lemmas.StringMemory
/-
C131: strings, versions and string builders lose no memory, whenever it runs out.
-/
namespace Solace.StrMem
open PathMem

/-- **C131**, making strings: whatever the manager answers, the functions return the string or the error that the answer calls for
(`Verif.Model.String`), and the blocks given out are those there were and that of the string. -/
theorem C131_makers (g : Policy) (h : Heap) (rest : List Nat) (ho : Owns h rest) (s d : List Byte) (ts : List (List Byte))
    (args : List (Bool × List Byte)) (a b : Byte) :
    (∃ h' r, newStr g h s = .ok (h', r) ∧ Exact h rest h' r (Str.make (g h.asked) s)) ∧
    (∃ h' r, newConcat g h ts = .ok (h', r) ∧ Exact h rest h' r (Str.makeConcat (g h.asked) ts)) ∧
    (∃ h' r, newJoin g h d ts = .ok (h', r) ∧ Exact h rest h' r (Str.makeJoin (g h.asked) d ts)) ∧
    (∃ h' r, newJoinArgs g h d args = .ok (h', r) ∧ Exact h rest h' r (Str.makeJoinArgs (g h.asked) d args)) ∧
    (∃ h' r, newReplaceChar g h s a b = .ok (h', r) ∧ Exact h rest h' r (Str.makeReplaceChar (g h.asked) s a b)) :=
  ⟨newStr_exact g ho s, newConcat_exact g ho ts, newJoin_exact g ho d ts, newJoinArgs_exact g ho d args, newReplaceChar_exact g ho s a b⟩

/-- **C131**, replacing: the same, with an exception when memory is refused (nothing is lost then either). -/
theorem C131_replace (g : Policy) (h : Heap) (rest : List Nat) (ho : Owns h rest) (fuel : Nat) (s what by' : List Byte) :
    match Str.makeReplace (g h.asked) fuel s what by', newReplace g h fuel s what by' with
    | none, none => True
    | some .ub, some .ub => ∃ n, StringView.split3Count s what fuel 0 0 = some n ∧ 2 ^ 31 ≤ s.length + by'.length * n
    | some .throws, some (.ok (h', none)) => Owns h' rest
    | some (.ok want), some (.ok (h', some r)) => Exact h rest h' r want
    | _, _ => False := newReplace_exact g ho fuel s what by'

/-- **C131**, parsing versions: a version with the blocks of its labels, which has the value that is parsed when there is memory; or an error
and no blocks, and then memory was refused or the text is no version. -/
theorem C131_parse (g : Policy) (h : Heap) (rest : List Nat) (ho : Owns h rest) (str after : List Byte) :
    (Version.numbers str (str ++ after) = .ub ∧ parse g h str after = .ub) ∨
    ∃ h' r, parse g h str after = .ok (h', r) ∧
      match r with
      | .ok v => ∃ maj min pat pre build, v = .ver maj min pat pre build ∧ Owns h' (v.blocks ++ rest) ∧ h'.refused = h.refused ∧
          (Fair g → ∀ alloc, Granted alloc → Version.parse alloc false str after = .ok (.ok ⟨maj, min, pat, pre.text, build.text⟩))
      | .error e => Owns h' rest ∧
          (Fair g → h.refused < h'.refused ∨ ∀ alloc, Granted alloc → Version.parse alloc false str after = .ok (.error e)) := by
  rw [parse]
  rcases numbers_defined str (str ++ after) with hn | ⟨r, hn⟩
  · rw [hn]; exact .inl ⟨rfl, rfl⟩
  · rw [hn, Outcome.bind_ok]
    refine .inr ?_
    rcases r with _ | ⟨maj, min, pat, tail⟩
    · refine ⟨h, .error .invalidInput, rfl, ho, fun _ => .inr fun alloc _ => ?_⟩
      rw [Version.parse, if_neg (by simp), hn]; rfl
    · dsimp only
      obtain ⟨h1, r, e1, m⟩ := newLabels_owns g ho tail
      rw [e1, Outcome.bind_ok]
      dsimp only
      rcases r with e | ⟨pre, build⟩
      · refine ⟨h1, .error e, rfl, m.1, fun hf => (m.2 hf).imp id fun k alloc ha => ?_⟩
        rw [Version.parse, if_neg (by simp), hn, Outcome.bind_ok]
        dsimp only
        rw [k alloc ha]; rfl
      · refine ⟨h1, .ok (.ver maj min pat pre build), rfl, maj, min, pat, pre, build, rfl, m.1, m.2.1, fun hf alloc ha => ?_⟩
        rw [Version.parse, if_neg (by simp), hn, Outcome.bind_ok]
        dsimp only
        rw [m.2.2 hf alloc ha]; rfl

/-- **C131**, printing versions: the text of C38, with its block; without memory an empty string that has none. -/
theorem C131_print (g : Policy) (h : Heap) (rest : List Nat) (ho : Owns h rest) (v : Version) :
    Owns (print g h v).1 ((print g h v).2.blocks ++ rest) ∧ (print g h v).2.text = (Version.toString (g h.asked) v).view ∧
    (h.refused < (print g h v).1.refused → (print g h v).2 = .empty) := by
  rw [print, Version.toString]
  cases ha : allocate g h v.bufferSize with
  | mk h1 r =>
    cases r with
    | error e =>
      obtain ⟨o1, _, hg⟩ := allocate_error ho ha
      rw [hg]
      exact ⟨o1, rfl, fun _ => rfl⟩
    | ok bv =>
      obtain ⟨b, m⟩ := bv
      obtain ⟨o1, r1, hg⟩ := allocate_ok ho ha
      rw [hg]
      refine ⟨o1, rfl, fun hl => ?_⟩
      dsimp only at hl
      omega

/-- What a statement guarantees: the blocks given out are those of the variables, and when memory was refused no variable is new or changed,
but for the empty string that printing a version gives then. -/
def Good (p : Prog) (o : Op) (q : Prog) : Prop :=
  Inv q ∧ (p.heap.refused < q.heap.refused →
    q.vars = p.vars ∨ ∃ i, o = .print i ∧ q.vars = p.vars ++ [some (.str .empty)])

theorem inv_append {h : Heap} {vs : Vars} {v : Val} (ho : Owns h (v.blocks ++ allBlocks vs)) : Inv ⟨h, vs ++ [some v]⟩ :=
  ho.congr fun b => by rw [allBlocks_append, List.count_append]; omega

theorem keepStr_good {p : Prog} {o : Op} {h' : Heap} {r : Except Err SObj} {want : Except Err Str}
    (he : Exact p.heap (allBlocks p.vars) h' r want) : Good p o (keepStr p.vars (h', r)) := by
  cases r with
  | ok s =>
    refine ⟨inv_append (v := .str s) he.1.1, fun hl => ?_⟩
    have := he.1.2
    rw [show (keepStr p.vars (h', .ok s)).heap = h' from rfl] at hl
    omega
  | error e => exact ⟨he.1, fun _ => .inl rfl⟩

theorem same_good {p : Prog} {o : Op} (hi : Inv p) : Good p o p := ⟨hi, fun h => absurd h (Nat.lt_irrefl _)⟩

theorem exchange_inv {p : Prog} (hi : Inv p) {i j : Nat} {a b a' b' : Val} (ha : get p.vars i = some a) (hb : get p.vars j = some b)
    (hc : ∀ c, a'.blocks.count c + b'.blocks.count c = a.blocks.count c + b.blocks.count c)
    (hself : i = j → ∀ c, b'.blocks.count c = b.blocks.count c) :
    Inv { p with vars := (p.vars.set i (some a')).set j (some b') } := by
  refine hi.congr fun c => ?_
  have h1 := allBlocks_set p.vars i a (some a') c ha
  have hg := get_set p.vars i j a a' ha
  have k := hc c
  simp only [Option.map_some, Option.getD_some] at h1
  by_cases hij : i = j
  · rw [if_pos hij] at hg
    have h2 := allBlocks_set (p.vars.set i (some a')) j a' (some b') c hg
    simp only [Option.map_some, Option.getD_some] at h2
    have hb' := hself hij c
    have : a = b := by rw [hij, hb] at ha; exact (Option.some.inj ha).symm
    subst this
    show _ = (allBlocks ((p.vars.set i (some a')).set j (some b'))).count c
    omega
  · rw [if_neg hij, hb] at hg
    have h2 := allBlocks_set (p.vars.set i (some a')) j b (some b') c hg
    simp only [Option.map_some, Option.getD_some] at h2
    show _ = (allBlocks ((p.vars.set i (some a')).set j (some b'))).count c
    omega

theorem step_good (g : Policy) (p : Prog) (o : Op) (hi : Inv p) :
    (∃ q, step g p o = .ok q ∧ Good p o q ∧ ¬ Bad p.vars o) ∨ (step g p o = .ub ∧ Bad p.vars o) := by
  cases o with
  | make s =>
    refine .inl ?_
    rw [step]
    cases s.view p.vars with
    | none => exact ⟨p, rfl, same_good hi, id⟩
    | some t =>
      obtain ⟨h', r, e, x⟩ := newStr_exact g hi t
      exact ⟨_, by dsimp only; rw [e]; rfl, keepStr_good x, id⟩
  | concat ss =>
    refine .inl ?_
    rw [step]
    cases views p.vars ss with
    | none => exact ⟨p, rfl, same_good hi, id⟩
    | some ts =>
      obtain ⟨h', r, e, x⟩ := newConcat_exact g hi ts
      exact ⟨_, by dsimp only; rw [e]; rfl, keepStr_good x, id⟩
  | join by' ss =>
    refine .inl ?_
    rw [step]
    cases by'.view p.vars with
    | none => exact ⟨p, rfl, same_good hi, id⟩
    | some d =>
      cases views p.vars ss with
      | none => exact ⟨p, rfl, same_good hi, id⟩
      | some ts =>
        obtain ⟨h', r, e, x⟩ := newJoin_exact g hi d ts
        exact ⟨_, by dsimp only; rw [e]; rfl, keepStr_good x, id⟩
  | joinArgs by' kinds ss =>
    refine .inl ?_
    rw [step]
    cases by'.view p.vars with
    | none => exact ⟨p, rfl, same_good hi, id⟩
    | some d =>
      cases views p.vars ss with
      | none => exact ⟨p, rfl, same_good hi, id⟩
      | some ts =>
        obtain ⟨h', r, e, x⟩ := newJoinArgs_exact g hi d (kinds.zip ts)
        exact ⟨_, by dsimp only; rw [e]; rfl, keepStr_good x, id⟩
  | replaceChar s a b =>
    refine .inl ?_
    rw [step]
    cases s.view p.vars with
    | none => exact ⟨p, rfl, same_good hi, id⟩
    | some t =>
      obtain ⟨h', r, e, x⟩ := newReplaceChar_exact g hi t a b
      exact ⟨_, by dsimp only; rw [e]; rfl, keepStr_good x, id⟩
  | replace fuel s what by' =>
    rw [step]
    cases hs : s.view p.vars with
    | none => exact .inl ⟨p, rfl, same_good hi, fun ⟨_, _, _, _, h, _⟩ => by rw [hs] at h; cases h⟩
    | some t =>
      cases hw : what.view p.vars with
      | none => exact .inl ⟨p, rfl, same_good hi, fun ⟨_, _, _, _, _, h, _⟩ => by rw [hw] at h; cases h⟩
      | some w =>
        cases hd : by'.view p.vars with
        | none => exact .inl ⟨p, rfl, same_good hi, fun ⟨_, _, _, _, _, _, h, _⟩ => by rw [hd] at h; cases h⟩
        | some d =>
          dsimp only
          have hx := newReplace_exact g hi fuel t w d
          have hbad : Bad p.vars (.replace fuel s what by') →
              ∃ n, StringView.split3Count t w fuel 0 0 = some n ∧ 2 ^ 31 ≤ t.length + d.length * n := by
            rintro ⟨t', w', d', n, h1, h2, h3, h4, h5⟩
            rw [hs] at h1; rw [hw] at h2; rw [hd] at h3
            cases h1; cases h2; cases h3
            exact ⟨n, h4, h5⟩
          have hub : (∃ n, StringView.split3Count t w fuel 0 0 = some n ∧ 2 ^ 31 ≤ t.length + d.length * n) →
              newReplace g p.heap fuel t w d = some .ub := by
            rintro ⟨n, h4, h5⟩
            rw [newReplace, h4]
            dsimp only
            rw [if_pos h5]
          rcases hr : newReplace g p.heap fuel t w d with _ | (⟨h', x⟩ | _ | _ | _)
          · exact .inl ⟨p, rfl, same_good hi, fun hb => by have := hub (hbad hb); rw [hr] at this; cases this⟩
          · rw [hr] at hx
            rcases x with _ | r
            · refine .inl ⟨⟨h', p.vars⟩, rfl, ⟨?_, fun _ => .inl rfl⟩, fun hb => ?_⟩
              · rcases hm : Str.makeReplace (g p.heap.asked) fuel t w d with _ | (_ | _ | _ | _) <;> rw [hm] at hx <;>
                  first | exact hx | exact hx.elim
              · have := hub (hbad hb); rw [hr] at this; cases this
            · refine .inl ⟨_, rfl, ?_, fun hb => ?_⟩
              · rcases hm : Str.makeReplace (g p.heap.asked) fuel t w d with _ | (_ | _ | _ | _) <;> rw [hm] at hx <;>
                  first | exact keepStr_good hx | exact hx.elim
              · have := hub (hbad hb); rw [hr] at this; cases this
          · rw [hr] at hx
            exfalso
            rcases hm : Str.makeReplace (g p.heap.asked) fuel t w d with _ | (_ | _ | _ | _) <;> rw [hm] at hx <;> exact hx
          · rw [hr] at hx
            exfalso
            rcases hm : Str.makeReplace (g p.heap.asked) fuel t w d with _ | (_ | _ | _ | _) <;> rw [hm] at hx <;> exact hx
          · rw [hr] at hx
            refine .inr ⟨rfl, ?_⟩
            have : ∃ n, StringView.split3Count t w fuel 0 0 = some n ∧ 2 ^ 31 ≤ t.length + d.length * n := by
              rcases hm : Str.makeReplace (g p.heap.asked) fuel t w d with _ | (_ | _ | _ | _) <;> rw [hm] at hx <;>
                first | exact hx | exact hx.elim
            obtain ⟨n, h4, h5⟩ := this
            exact ⟨t, w, d, n, hs, hw, hd, h4, h5⟩
  | parse s after =>
    rw [step]
    cases hs : s.view p.vars with
    | none => exact .inl ⟨p, rfl, same_good hi, fun ⟨_, h, _⟩ => by rw [hs] at h; cases h⟩
    | some t =>
      dsimp only
      rcases C131_parse g p.heap (allBlocks p.vars) hi t after with ⟨hn, e⟩ | ⟨h', r, e, m⟩
      · rw [e]; exact .inr ⟨rfl, t, hs, hn⟩
      · refine .inl ⟨keep p.vars (h', r), by rw [e]; rfl, ?_, ?_⟩
        · cases r with
          | ok v =>
            obtain ⟨_, _, _, _, _, _, m1, m2, _⟩ := m
            refine ⟨inv_append m1, fun hl => ?_⟩
            rw [show (keep p.vars (h', .ok v)).heap = h' from rfl] at hl
            omega
          | error x => exact ⟨m.1, fun _ => .inl rfl⟩
        · rintro ⟨t', h1, h2⟩
          rw [hs] at h1
          cases h1
          rw [parse, h2] at e
          cases e
  | print i =>
    refine .inl ?_
    rw [step]
    rcases get p.vars i with _ | (o | ⟨maj, min, pat, pre, build⟩ | ⟨b, w⟩)
    · exact ⟨p, rfl, same_good hi, id⟩
    · exact ⟨p, rfl, same_good hi, id⟩
    · obtain ⟨m1, _, m3⟩ := C131_print g p.heap (allBlocks p.vars) hi ⟨maj, min, pat, pre.text, build.text⟩
      refine ⟨_, rfl, ⟨inv_append (v := .str _) m1, fun hl => .inr ⟨i, rfl, ?_⟩⟩, id⟩
      rw [m3 hl]
    · exact ⟨p, rfl, same_good hi, id⟩
  | builder n =>
    refine .inl ?_
    rw [step]
    cases ha : allocate g p.heap n with
    | mk h1 r =>
      cases r with
      | error e => exact ⟨_, rfl, ⟨(allocate_error hi ha).1, fun _ => .inl rfl⟩, id⟩
      | ok bv =>
        obtain ⟨b, v⟩ := bv
        obtain ⟨o1, r1, _⟩ := allocate_ok hi ha
        refine ⟨_, rfl, ⟨inv_append (v := .bld (some b) _) o1, fun hl => ?_⟩, id⟩
        dsimp only at hl
        omega
  | append i item =>
    refine .inl ?_
    rw [step]
    rcases hg : get p.vars i with _ | (o | ⟨maj, min, pat, pre, build⟩ | ⟨b, w⟩)
    · exact ⟨p, rfl, same_good hi, id⟩
    · exact ⟨p, rfl, same_good hi, id⟩
    · exact ⟨p, rfl, same_good hi, id⟩
    · refine ⟨_, rfl, ⟨hi.congr fun c => ?_, fun h => absurd h (Nat.lt_irrefl _)⟩, id⟩
      have := allBlocks_set p.vars i _ (some (.bld b (StringBuilder.append w item))) c hg
      simp only [Option.map_some, Option.getD_some, Val.blocks] at this
      show _ = (allBlocks (p.vars.set i _)).count c
      omega
  | build i =>
    refine .inl ?_
    rw [step]
    rcases hg : get p.vars i with _ | (o | ⟨maj, min, pat, pre, build⟩ | ⟨b, w⟩)
    · exact ⟨p, rfl, same_good hi, id⟩
    · exact ⟨p, rfl, same_good hi, id⟩
    · exact ⟨p, rfl, same_good hi, id⟩
    · refine ⟨_, rfl, ⟨hi.congr fun c => ?_, fun h => absurd h (Nat.lt_irrefl _)⟩, id⟩
      have := allBlocks_set p.vars i _ (some (.bld none (StringBuilder.afterBuild w))) c hg
      simp only [Option.map_some, Option.getD_some, Val.blocks, Option.toList, List.count_nil] at this
      show _ = (allBlocks (p.vars.set i _ ++ [some (.str ⟨b, _⟩)])).count c
      rw [allBlocks_append]
      cases b <;> simp only [Val.blocks, SObj.blocks, Option.toList] at this ⊢ <;> omega
  | moveCtor i =>
    refine .inl ?_
    rw [step]
    cases hg : get p.vars i with
    | none => exact ⟨p, rfl, same_good hi, id⟩
    | some v =>
      refine ⟨_, rfl, ⟨hi.congr fun c => ?_, fun h => absurd h (Nat.lt_irrefl _)⟩, id⟩
      have := allBlocks_set p.vars i _ (some v.left) c hg
      have hl : v.left.blocks = [] := by cases v <;> rfl
      simp only [Option.map_some, Option.getD_some, hl, List.count_nil] at this
      show _ = (allBlocks (p.vars.set i _ ++ [some v])).count c
      rw [allBlocks_append]
      omega
  | assign i j =>
    refine .inl ?_
    rw [step]
    cases ha : get p.vars i with
    | none => exact ⟨p, rfl, same_good hi, id⟩
    | some a =>
      cases hb : get p.vars j with
      | none => exact ⟨p, rfl, same_good hi, id⟩
      | some b =>
        dsimp only
        cases hx : StrMem.assign a b with
        | none => exact ⟨p, rfl, same_good hi, id⟩
        | some ab =>
          refine ⟨_, rfl, ⟨?_, fun h => absurd h (Nat.lt_irrefl _)⟩, id⟩
          refine exchange_inv hi ha hb ?_ ?_
          · intro c
            cases a <;> cases b <;> cases hx <;> simp only [Val.blocks, List.count_append] <;> omega
          · intro hij c
            have hab : a = b := by rw [hij, hb] at ha; exact (Option.some.inj ha).symm
            subst hab
            cases a <;> cases hx <;> rfl
  | swap i j =>
    refine .inl ?_
    rw [step]
    cases ha : get p.vars i with
    | none => exact ⟨p, rfl, same_good hi, id⟩
    | some a =>
      cases hb : get p.vars j with
      | none => exact ⟨p, rfl, same_good hi, id⟩
      | some b =>
        dsimp only
        cases hx : StrMem.swap a b with
        | none => exact ⟨p, rfl, same_good hi, id⟩
        | some ab =>
          refine ⟨_, rfl, ⟨?_, fun h => absurd h (Nat.lt_irrefl _)⟩, id⟩
          refine exchange_inv hi ha hb ?_ ?_
          · intro c
            cases a <;> cases b <;> cases hx <;> simp only [Val.blocks, List.count_append] <;> omega
          · intro hij c
            have hab : a = b := by rw [hij, hb] at ha; exact (Option.some.inj ha).symm
            subst hab
            cases a <;> cases hx <;> rfl
  | destroy i =>
    refine .inl ?_
    rw [step]
    cases hg : get p.vars i with
    | none => exact ⟨p, rfl, same_good hi, id⟩
    | some v =>
      obtain ⟨h', e, o1, r1⟩ := dropVal_owns v (h := p.heap) (rest := allBlocks (p.vars.set i none)) (hi.congr fun c => by
        have := allBlocks_set p.vars i v none c hg
        simp only [Option.map_none, Option.getD_none, List.count_nil] at this
        rw [List.count_append]
        omega)
      refine ⟨⟨h', p.vars.set i none⟩, by dsimp only; rw [e]; rfl, ⟨o1, fun hl => ?_⟩, id⟩
      dsimp only at hl
      omega

/-- **C131**, each statement: it is undefined exactly for the two reasons that have nothing to do with memory; otherwise the blocks given out
are those of the variables, and a refusal leaves all variables as they were. -/
theorem C131_step (g : Policy) (p : Prog) (hi : Inv p) (o : Op) :
    (Bad p.vars o ↔ step g p o = .ub) ∧ (¬ Bad p.vars o → ∃ q, step g p o = .ok q ∧ Inv q ∧ (p.heap.refused < q.heap.refused →
      q.vars = p.vars ∨ ∃ i, o = .print i ∧ q.vars = p.vars ++ [some (.str .empty)])) := by
  rcases step_good g p o hi with ⟨q, e, hq, hb⟩ | ⟨e, hb⟩
  · exact ⟨⟨fun h => (hb h).elim, fun h => by rw [e] at h; cases h⟩, fun _ => ⟨q, e, hq⟩⟩
  · exact ⟨⟨fun _ => e, fun _ => hb⟩, fun h => (h hb).elim⟩

theorem inv_init : Inv init := ⟨fun _ => rfl, List.nodup_nil, fun _ h => by cases h⟩

/-- **C131**, every program, whatever the manager refuses: the blocks given out are exactly those of the variables alive, each once; or a
statement was undefined for a reason that has nothing to do with memory. -/
theorem C131_program (g : Policy) (ops : List Op) :
    (∃ q, run g init ops = .ok q ∧ Inv q) ∨
    (run g init ops = .ub ∧ ∃ before o after p, ops = before ++ o :: after ∧ run g init before = .ok p ∧ Bad p.vars o) := by
  suffices ∀ (ops : List Op) (p : Prog), Inv p → (∃ q, run g p ops = .ok q ∧ Inv q) ∨
      (run g p ops = .ub ∧ ∃ before o after p', ops = before ++ o :: after ∧ run g p before = .ok p' ∧ Bad p'.vars o) from
    this ops init inv_init
  intro ops
  induction ops with
  | nil => intro p hp; exact .inl ⟨p, rfl, hp⟩
  | cons o os ih =>
    intro p hp
    rw [run]
    rcases step_good g p o hp with ⟨q, e, hq, _⟩ | ⟨e, hb⟩
    · rw [e, Outcome.bind_ok]
      rcases ih q hq.1 with h | ⟨h, before, o', after, p', h1, h2, h3⟩
      · exact .inl h
      · exact .inr ⟨h, o :: before, o', after, p', by rw [h1]; rfl, by rw [run, e, Outcome.bind_ok, h2], h3⟩
    · rw [e]
      exact .inr ⟨rfl, [], o, os, p, rfl, rfl, hb⟩

/-- **C131**: when all variables are gone every block was given back. -/
theorem C131_all_back (g : Policy) (ops : List Op) (q : Prog) (hr : run g init ops = .ok q) (hv : ∀ o ∈ q.vars, o = none) :
    q.heap.live = [] := by
  have hi : Inv q := by
    rcases C131_program g ops with ⟨q', e, hq⟩ | ⟨e, _⟩
    · rw [hr] at e; cases e; exact hq
    · rw [hr] at e; cases e
  have hb : allBlocks q.vars = [] := by
    rw [allBlocks, List.flatMap_eq_nil_iff]
    intro o ho
    rw [hv o ho]; rfl
  apply List.eq_nil_iff_forall_not_mem.mpr
  intro b hm
  have := hi.count b
  rw [hb, List.count_nil] at this
  exact absurd (List.count_pos_iff.mpr hm) (by omega)

/-- Nothing is ever appended to a builder over no bytes. -/
theorem append_none (item : StringBuilder.Item) : StringBuilder.append (.ofBuffer []) item = .ofBuffer [] := by
  have w : ∀ src, ((ByteWriter.ofBuffer []).write src).1 = .ofBuffer [] := by
    intro src
    rw [ByteWriter.write]
    split
    · rfl
    · split
      rename_i off size h
      have hs : size = 0 := by
        have := congrArg Prod.snd h
        simp only [MutableMemoryView.slice, ByteWriter.ofBuffer] at this
        simp at this
        exact this.symm
      rw [if_pos (by omega)]
  cases item with
  | char c => exact w _
  | uchar c => exact w _
  | str s => exact w _
  | number n =>
    have hv : (ByteWriter.ofBuffer []).viewRemaining = [] := rfl
    rw [StringBuilder.append, StringBuilder.appendNumber, hv, snprintfAt, if_neg (by simp), if_pos List.length_nil]

/-- **C131**, builders that were moved: whatever is appended to one, it keeps no byte of it, and what it builds is empty and has no memory; the new
builder is the old one. -/
theorem C131_moved (g : Policy) (p : Prog) (i : Nat) (b : Option Nat) (w : ByteWriter) (item : StringBuilder.Item) (h : get p.vars i = some (.bld b w)) :
    ∃ q, run g p [.moveCtor i, .append i item] = .ok q ∧ get q.vars i = some (.bld none (.ofBuffer [])) ∧ get q.vars p.vars.length = some (.bld b w) ∧
      ∃ r, step g q (.build i) = .ok r ∧ r.vars.getLast? = some (some (.str .empty)) := by
  have hi : i < p.vars.length := by
    rw [get] at h
    rcases Nat.lt_or_ge i p.vars.length with hl | hl
    · exact hl
    · rw [List.getElem?_eq_none hl] at h; cases h
  have e1 : get (p.vars.set i (some (Val.left (.bld b w))) ++ [some (.bld b w)]) i = some (.bld none (.ofBuffer [])) := by
    rw [get, List.getElem?_append_left (by rw [List.length_set]; exact hi), List.getElem?_set_self hi]
    rfl
  have e2 : get ((p.vars.set i (some (Val.left (.bld b w))) ++ [some (Val.bld b w)]).set i (some (.bld none (.ofBuffer [])))) i =
      some (.bld none (.ofBuffer [])) := by
    rw [get, List.getElem?_set_self (by rw [List.length_append, List.length_set]; omega)]
    rfl
  refine ⟨{ p with vars := (p.vars.set i (some (Val.left (.bld b w))) ++ [some (Val.bld b w)]).set i (some (.bld none (.ofBuffer []))) }, ?_, e2, ?_, ?_⟩
  · rw [run, step, h]
    dsimp only
    rw [Outcome.bind_ok, run, step]
    dsimp only
    rw [e1]
    dsimp only
    rw [append_none, Outcome.bind_ok, run]
  · dsimp only
    rw [get, List.getElem?_set_ne (by omega), List.getElem?_append_right (by rw [List.length_set]; exact Nat.le_refl _), List.length_set, Nat.sub_self]
    rfl
  · rw [step]
    dsimp only
    rw [e2]
    exact ⟨_, rfl, by rw [List.getLast?_append]; rfl⟩

/-- A manager that refuses the requests with these numbers. -/
def refusing (ks : List Nat) : Policy := fun k n => if k ∈ ks then .error .nomem else .ok ⟨false, List.replicate n 0⟩

/-- "1.2.3-a+b" is parsed; the memory for the second label is refused: nothing is kept. -/
example : (run (refusing [1]) init [.parse (.text [0x31#8, 0x2E#8, 0x32#8, 0x2E#8, 0x33#8, 0x2D#8, 0x61#8, 0x2B#8, 0x62#8]) [0#8]]) =
    .ok ⟨⟨2, 1, 1, []⟩, []⟩ := by decide +kernel

/-- The blocks of the variables and the blocks given out, at the end of a program. -/
def outcome (r : Outcome Prog) : Option (List (Option (List Nat)) × List Nat) :=
  match r with
  | .ok q => some (q.vars.map (Option.map Val.blocks), q.heap.live)
  | _ => none

/-- Two strings are joined, joining them again is refused, a builder is filled and built, and all but one variable end. -/
example : outcome (run (refusing [3]) init
    [.make (.text [0x61#8]), .make (.text [0x62#8]), .join (.text [0x2C#8]) [.var 0, .var 1], .concat [.var 0, .var 1],
     .builder 4, .append 3 (.str [0x63#8]), .build 3, .assign 0 2, .destroy 0, .destroy 1, .destroy 3, .destroy 4]) =
    some ([none, none, some [0], none, none], [0]) := by decide +kernel

end Solace.StrMem
