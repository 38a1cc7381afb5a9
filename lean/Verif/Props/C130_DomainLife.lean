import Verif.Model.DomainLife
import Verif.Props.C66_ErrorDomain
/-
C130: error domains that end.
-/
namespace Solace.DomainLife
open ErrorDomains
variable {V : Type}

/-- Specification: the registrations a program makes, in order. -/
def registered : List (Op V) → List (BitVec 64 × Nat)
  | [] => []
  | .register id a :: ops => (id, a) :: registered ops
  | _ :: ops => registered ops

/-- Specification: what lives at an address after a program, told from the operations on that address alone. -/
def livesAt (a : Nat) : Option V → List (Op V) → Option V
  | v, [] => v
  | v, .make b x :: ops => livesAt a (if b = a then some x else v) ops
  | v, .drop b :: ops => livesAt a (if b = a then none else v) ops
  | v, _ :: ops => livesAt a v ops

/-- Programs that move no domain. -/
def Still (ops : List (Op V)) : Prop := ∀ a b l, Op.move a b l ∉ ops

/-- The registry holds the first 128 of the registrations so far. -/
def Keeps (w : World V) (rs : List (BitVec 64 × Nat)) : Prop := Dict.Entries 8 8 w.map (rs.take 128) ∧ Dict.room 8 8 w.map = 128

theorem keeps_initial : Keeps (World.initial : World V) [] := ⟨entries_registry, room_registry⟩

theorem step_keeps {w w' : World V} {rs : List (BitVec 64 × Nat)} {op : Op V} (h : Keeps w rs) (hs : step w op = .ok w') :
    Keeps w' (rs ++ registered [op]) := by
  cases op with
  | make a v =>
    rw [step] at hs
    split at hs <;> cases hs
    show Keeps _ (rs ++ [])
    rw [List.append_nil]; exact h
  | drop a =>
    rw [step] at hs
    split at hs <;> cases hs
    show Keeps _ (rs ++ [])
    rw [List.append_nil]; exact h
  | move a b l =>
    rw [step] at hs
    split at hs <;> cases hs
    show Keeps _ (rs ++ [])
    rw [List.append_nil]; exact h
  | register id a =>
    rw [step] at hs
    split at hs
    · cases hs
    · obtain ⟨m', h1, h2, h3⟩ := register_spec h.1 h.2 id a
      rw [h1] at hs
      cases hs
      refine ⟨?_, h3⟩
      have e : (rs.take 128 ++ [(id, a)]).take 128 = (rs ++ registered [(Op.register id a : Op V)]).take 128 := by
        rw [registered, registered]
        by_cases hl : rs.length ≤ 128
        · rw [List.take_of_length_le hl]
        · rw [List.take_append_of_le_length (l₁ := rs) (by omega), List.take_append_of_le_length (by rw [List.length_take]; omega),
            List.take_take, Nat.min_self]
      rwa [e] at h2

theorem registered_append (xs ys : List (Op V)) : registered (xs ++ ys) = registered xs ++ registered ys := by
  induction xs with
  | nil => rfl
  | cons x xs ih => cases x <;> simp [registered, ih]

theorem run_keeps : ∀ (ops : List (Op V)) {w w' : World V} {rs : List (BitVec 64 × Nat)}, Keeps w rs → run w ops = .ok w' →
    Keeps w' (rs ++ registered ops) := by
  intro ops
  induction ops with
  | nil => intro w w' rs h hr; cases hr; rw [registered, List.append_nil]; exact h
  | cons op ops ih =>
    intro w w' rs h hr
    rw [run] at hr
    cases hs : step w op with
    | ok w1 =>
      rw [hs] at hr
      have := ih (step_keeps h hs) hr
      rwa [List.append_assoc, ← registered_append] at this
    | throws => rw [hs] at hr; cases hr
    | terminate => rw [hs] at hr; cases hr
    | ub => rw [hs] at hr; cases hr

theorem find_keeps {w : World V} {rs : List (BitVec 64 × Nat)} (h : Keeps w rs) (id : BitVec 64) :
    find w.map id = .ok (firstFor (rs.take 128) id) := by
  rw [find, Dict.find_eq h.1, firstIn_eq]; rfl

/-- **C130, exactly**: after any program, an id leads to the address of its first registration among the first 128; a lookup is undefined
when no object lives there then, whether registered or not later. -/
theorem C130_lookup (ops : List (Op V)) (w : World V) (h : run World.initial ops = .ok w) (id : BitVec 64) :
    lookup w id = match firstFor ((registered ops).take 128) id with
      | none => .ok none
      | some a => match w.obj a with
        | some v => .ok (some v)
        | none => .ub := by
  rw [lookup, find_keeps (run_keeps ops keeps_initial h), List.nil_append]
  rfl

theorem run_obj (a : Nat) : ∀ (ops : List (Op V)) (w w' : World V), Still ops → run w ops = .ok w' →
    w'.obj a = livesAt a (w.obj a) ops := by
  intro ops
  induction ops with
  | nil => intro w w' _ h; cases h; rfl
  | cons op ops ih =>
    intro w w' hm h
    rw [run] at h
    have hm' : Still ops := fun a b l hx => hm a b l (List.mem_cons_of_mem _ hx)
    cases hs : step w op with
    | ok w1 =>
      rw [hs] at h
      rw [ih w1 w' hm' h]
      cases op with
      | make b v =>
        rw [livesAt]
        rw [step] at hs
        split at hs <;> cases hs
        congr 1
        show (if a = b then some v else w.obj a) = _
        by_cases e : a = b
        · rw [if_pos e, if_pos e.symm]
        · rw [if_neg e, if_neg (fun h => e h.symm)]
      | drop b =>
        rw [livesAt]
        rw [step] at hs
        split at hs <;> cases hs
        congr 1
        show (if a = b then none else w.obj a) = _
        by_cases e : a = b
        · rw [if_pos e, if_pos e.symm]
        · rw [if_neg e, if_neg (fun h => e h.symm)]
      | move b c l => exact (hm b c l (List.mem_cons_self ..)).elim
      | register id b =>
        rw [step] at hs
        split at hs
        · cases hs
        · split at hs <;> cases hs
          rfl
    | throws => rw [hs] at h; cases h
    | terminate => rw [hs] at h; cases h
    | ub => rw [hs] at h; cases h

/-- **C130, exactly**, for programs that move no domain: told from the operations alone. -/
theorem C130_told (ops : List (Op V)) (w : World V) (h : run World.initial ops = .ok w) (hm : Still ops) (id : BitVec 64) :
    lookup w id = match firstFor ((registered ops).take 128) id with
      | none => .ok none
      | some a => match livesAt a none ops with
        | some v => .ok (some v)
        | none => .ub := by
  rw [C130_lookup ops w h]
  cases firstFor ((registered ops).take 128) id with
  | none => rfl
  | some a => dsimp only; rw [run_obj a ops _ w hm h]; rfl

theorem firstFor_in {rs : List (BitVec 64 × Nat)} {id : BitVec 64} {a : Nat} (h : firstFor rs id = some a) : (id, a) ∈ rs := by
  induction rs with
  | nil => cases h
  | cons r rs ih =>
    rw [firstFor] at h
    split at h
    · next e => cases h; rw [← e]; exact List.mem_cons_self ..
    · exact List.mem_cons_of_mem _ (ih h)

/-- An object that is registered stays: it is neither ended nor moved from before the end of the program. -/
def Stays : List (Op V) → Prop
  | [] => True
  | .register _ a :: ops => (∀ op ∈ ops, op ≠ Op.drop a ∧ ∀ b l, op ≠ Op.move a b l) ∧ Stays ops
  | _ :: ops => Stays ops

theorem keep_object {a : Nat} : ∀ (ops : List (Op V)) (w w' : World V) (v : V), w.obj a = some v →
    (∀ op ∈ ops, op ≠ Op.drop a ∧ ∀ b l, op ≠ Op.move a b l) → run w ops = .ok w' → w'.obj a = some v := by
  intro ops
  induction ops with
  | nil => intro w w' v hv _ h; cases h; exact hv
  | cons op ops ih =>
    intro w w' v hv hn h
    rw [run] at h
    cases hs : step w op with
    | ok w1 =>
      rw [hs] at h
      refine ih w1 w' v ?_ (fun op hop => hn op (List.mem_cons_of_mem _ hop)) h
      have hop := hn op (List.mem_cons_self ..)
      cases op with
      | make b x =>
        rw [step] at hs
        split at hs <;> cases hs
        next e =>
        show (if a = b then some x else w.obj a) = _
        rw [if_neg, hv]
        rintro rfl
        rw [hv] at e; cases e
      | drop b =>
        rw [step] at hs
        split at hs <;> cases hs
        show (if a = b then none else w.obj a) = _
        rw [if_neg, hv]
        rintro rfl
        exact hop.1 rfl
      | move b c l =>
        rw [step] at hs
        split at hs <;> cases hs
        next e1 e2 =>
        show (if a = b then some l else if a = c then _ else w.obj a) = _
        rw [if_neg, if_neg, hv]
        · rintro rfl
          rw [hv] at e2; cases e2
        · rintro rfl
          exact hop.2 c l rfl
      | register id b =>
        rw [step] at hs
        split at hs
        · cases hs
        · split at hs <;> cases hs
          exact hv
    | throws => rw [hs] at h; cases h
    | terminate => rw [hs] at h; cases h
    | ub => rw [hs] at h; cases h

theorem stays_lives : ∀ (ops : List (Op V)) (w w' : World V), Stays ops → run w ops = .ok w' →
    ∀ id a, (id, a) ∈ registered ops → ∃ v, w'.obj a = some v := by
  intro ops
  induction ops with
  | nil => intro _ _ _ _ _ _ h; cases h
  | cons op ops ih =>
    intro w w' hst h id a hm
    rw [run] at h
    cases hs : step w op with
    | ok w1 =>
      rw [hs] at h
      cases op with
      | make b x => exact ih w1 w' hst h id a hm
      | drop b => exact ih w1 w' hst h id a hm
      | move b c l => exact ih w1 w' hst h id a hm
      | register id' b =>
        rcases List.mem_cons.mp hm with e | hm
        · cases e
          rw [step] at hs
          split at hs
          · cases hs
          · next v hv =>
            refine ⟨v, keep_object ops w1 w' v ?_ hst.1 h⟩
            split at hs <;> cases hs
            exact hv
        · exact ih w1 w' hst.2 h id a hm
    | throws => rw [hs] at h; cases h
    | terminate => rw [hs] at h; cases h
    | ub => rw [hs] at h; cases h

/-- **C130** (partial: no object that is registered is ended or moved from later). Every lookup, and the text of every error, is
defined; a registered id of the first 128 registrations is found. Missing: programs that end or move a registered domain, see
`C130_dangling`, `C130_no_cure` and `C130_move`. -/
theorem C130_alive_partial (ops : List (Op V)) (w : World V) (h : run World.initial ops = .ok w) (hs : Stays ops)
    (alloc : Nat → Except Err MutView) (message : V → BitVec 32 → List Byte) (e : ErrorValue) :
    (∃ r, lookup w e.domain = .ok r ∧ (r = none ↔ ∀ a, (e.domain, a) ∉ (registered ops).take 128)) ∧
    ∃ t, toString alloc message w e = .ok t ∧ ∀ v, lookup w e.domain = .ok (some v) → t = message v e.code := by
  suffices k : ∃ r, lookup w e.domain = .ok r ∧ (r = none ↔ ∀ a, (e.domain, a) ∉ (registered ops).take 128) by
    refine ⟨k, ?_⟩
    obtain ⟨r, hr, _⟩ := k
    rw [toString, hr]
    cases r with
    | some v => exact ⟨_, rfl, fun v' h' => by cases h'; rfl⟩
    | none =>
      rw [Outcome.bind_ok]
      dsimp only
      split
      · exact ⟨_, rfl, fun v' h' => by cases h'⟩
      · exact ⟨_, rfl, fun v' h' => by cases h'⟩
  rw [C130_lookup ops w h]
  cases hf : firstFor ((registered ops).take 128) e.domain with
  | none =>
    refine ⟨none, rfl, iff_of_true rfl ?_⟩
    intro a hm
    have : ∀ (rs : List (BitVec 64 × Nat)), firstFor rs e.domain = none → (e.domain, a) ∉ rs := by
      intro rs
      induction rs with
      | nil => intro _ h; cases h
      | cons r rs ih =>
        intro hn hm
        rw [firstFor] at hn
        split at hn
        · cases hn
        · next hne =>
          rcases List.mem_cons.mp hm with e' | hm
          · exact hne (by rw [← e'])
          · exact ih hn hm
    exact this _ hf hm
  | some a =>
    have hm := firstFor_in hf
    obtain ⟨v, hv⟩ := stays_lives ops _ w hs h _ a (List.mem_of_mem_take hm)
    refine ⟨some v, by dsimp only; rw [hv], iff_of_false (by simp) fun hn => hn a hm⟩

/-- **C130, negation**: making a domain, registering it and ending it is allowed and leaves a registry that leads to no object: every
later lookup of the id, and every text of an error of it, is undefined. -/
theorem C130_dangling (a : Nat) (v : V) (id : BitVec 64) :
    ∃ w : World V, run World.initial [.make a v, .register id a, .drop a] = .ok w ∧ lookup w id = .ub ∧
      ∀ alloc message code tag, toString alloc message w ⟨code, id, tag⟩ = .ub := by
  obtain ⟨m', h1, h2, h3⟩ := register_spec (D := Nat) entries_registry room_registry id a
  have e : run (World.initial : World V) [.make a v, .register id a, .drop a] =
      .ok ⟨m', fun b => if b = a then none else if b = a then some v else none⟩ := by
    simp [run, step, World.initial, World.set, h1, Outcome.bind_ok]
  refine ⟨_, e, ?_⟩
  have hl : lookup (⟨m', fun b => if b = a then none else if b = a then some v else none⟩ : World V) id = .ub := by
    rw [C130_lookup _ _ e]
    simp [registered, firstFor]
  refine ⟨hl, fun alloc message code tag => ?_⟩
  rw [toString, hl]
  rfl

theorem firstFor_append {rs : List (BitVec 64 × Nat)} {id : BitVec 64} {a : Nat} (h : firstFor rs id = some a) (xs : List (BitVec 64 × Nat)) :
    firstFor (rs ++ xs) id = some a := by
  induction rs with
  | nil => cases h
  | cons r rs ih =>
    rw [firstFor] at h
    rw [List.cons_append, firstFor]
    split at h
    · next e => rw [if_pos e]; exact h
    · next e => rw [if_neg e]; exact ih h

theorem stay_empty {a : Nat} : ∀ (ops : List (Op V)) (w w' : World V), w.obj a = none →
    (∀ op ∈ ops, (∀ v, op ≠ Op.make a v) ∧ ∀ b l, op ≠ Op.move b a l) → run w ops = .ok w' → w'.obj a = none := by
  intro ops
  induction ops with
  | nil => intro w w' h1 _ h2; cases h2; exact h1
  | cons op ops ih =>
    intro w w' h1 hn h2
    rw [run] at h2
    have hop := hn op (List.mem_cons_self ..)
    cases hs : step w op with
    | ok w2 =>
      rw [hs] at h2
      refine ih w2 w' ?_ (fun op hop => hn op (List.mem_cons_of_mem _ hop)) h2
      cases op with
      | make b x =>
        rw [step] at hs
        split at hs <;> cases hs
        show (if a = b then some x else w.obj a) = _
        rw [if_neg, h1]
        rintro rfl
        exact hop.1 x rfl
      | drop b =>
        rw [step] at hs
        split at hs <;> cases hs
        show (if a = b then none else w.obj a) = _
        split
        · rfl
        · exact h1
      | move b c l =>
        rw [step] at hs
        split at hs <;> cases hs
        next e1 e2 =>
        show (if a = b then some l else if a = c then _ else w.obj a) = _
        rw [if_neg, if_neg, h1]
        · rintro rfl
          exact hop.2 b l rfl
        · rintro rfl
          rw [h1] at e1; cases e1
      | register id b =>
        rw [step] at hs
        split at hs
        · cases hs
        · split at hs <;> cases hs
          exact h1
    | throws => rw [hs] at h2; cases h2
    | terminate => rw [hs] at h2; cases h2
    | ub => rw [hs] at h2; cases h2

/-- **C130**, nothing cures it: once an id leads to an address where no object lives, no later registration of any id, and no other
object made or ended, changes that, unless an object is put at that same address. -/
theorem C130_no_cure (before after : List (Op V)) (w w' : World V) (h : run World.initial before = .ok w) (id : BitVec 64)
    (a : Nat) (hf : firstFor ((registered before).take 128) id = some a) (hd : w.obj a = none) (hr : run w after = .ok w')
    (hn : ∀ op ∈ after, (∀ v, op ≠ Op.make a v) ∧ ∀ b l, op ≠ Op.move b a l) : lookup w' id = .ub := by
  have hk := run_keeps after (run_keeps before keeps_initial h) hr
  rw [List.nil_append] at hk
  have hobj : w'.obj a = none := stay_empty after w w' hd hn hr
  have hf' : firstFor ((registered before ++ registered after).take 128) id = some a := by
    rw [List.take_append]
    exact firstFor_append hf _
  rw [lookup, find_keeps hk, hf']
  show (match w'.obj a with | some v => Outcome.ok (some v) | none => .ub) = _
  rw [hobj]

/-- **C130**, worse than nothing: an object put at that address, registered under no id, answers for the id of the one that ended. -/
theorem C130_reuse (a : Nat) (v other : V) (id : BitVec 64) :
    ∃ w : World V, run World.initial [.make a v, .register id a, .drop a, .make a other] = .ok w ∧ lookup w id = .ok (some other) := by
  obtain ⟨m', h1, h2, h3⟩ := register_spec (D := Nat) entries_registry room_registry id a
  have e : ∃ w, run (World.initial : World V) [.make a v, .register id a, .drop a, .make a other] = .ok w := by
    simp [run, step, World.initial, World.set, h1, Outcome.bind_ok]
  obtain ⟨w, hw⟩ := e
  refine ⟨w, hw, ?_⟩
  rw [C130_told _ w hw (by intro _ _ _ h; simp at h)]
  simp [registered, firstFor, livesAt]

/-- **C130**, a domain that is moved is not found where it went: the id still leads to what is left of it, and registering the new
object under the id changes nothing. -/
theorem C130_move (a b : Nat) (hab : a ≠ b) (v left : V) (id : BitVec 64) :
    ∃ w : World V, run World.initial [.make a v, .register id a, .move a b left, .register id b] = .ok w ∧
      w.obj b = some v ∧ lookup w id = .ok (some left) := by
  obtain ⟨m', h1, h2, h3⟩ := register_spec (D := Nat) entries_registry room_registry id a
  obtain ⟨m2, g1, g2, g3⟩ := register_spec h2 h3 id b
  have e : run (World.initial : World V) [.make a v, .register id a, .move a b left, .register id b] =
      .ok ⟨m2, fun c => if c = a then some left else if c = b then some v else if c = a then some v else none⟩ := by
    simp [run, step, World.initial, World.set, h1, g1, Outcome.bind_ok, Ne.symm hab]
  refine ⟨_, e, by simp [Ne.symm hab], ?_⟩
  rw [C130_lookup _ _ e]
  simp [registered, firstFor]

/-- Two domains, one of them ended and never registered. -/
example : Stays [.make 1 'a', .make 2 'b', .register 5#64 1, .drop 2, .make 3 'c', .register 6#64 3] ∧
    ∃ w, run World.initial [.make 1 'a', .make 2 'b', .register 5#64 1, .drop 2, .make 3 'c', .register 6#64 3] = .ok w := by
  constructor
  · simp [Stays]
  · obtain ⟨m', h1, h2, h3⟩ := register_spec (D := Nat) entries_registry room_registry 5#64 1
    obtain ⟨m2, g1, g2, g3⟩ := register_spec h2 h3 6#64 3
    simp [run, step, World.initial, World.set, h1, g1, Outcome.bind_ok]

/-- `C130_no_cure`: another domain made and registered under the id of one that ended. -/
example : ∃ w w' : World Char, run World.initial [.make 1 'a', .register 5#64 1, .drop 1] = .ok w ∧ w.obj 1 = none ∧
    firstFor ((registered [(.make 1 'a' : Op Char), .register 5#64 1, .drop 1]).take 128) 5#64 = some 1 ∧
    run w [.make 2 'b', .register 5#64 2] = .ok w' := by
  obtain ⟨m', h1, h2, h3⟩ := register_spec (D := Nat) entries_registry room_registry 5#64 1
  obtain ⟨m2, g1, g2, g3⟩ := register_spec h2 h3 5#64 2
  refine ⟨⟨m', fun b => if b = 1 then none else if b = 1 then some 'a' else none⟩,
    ⟨m2, fun b => if b = 2 then some 'b' else if b = 1 then none else if b = 1 then some 'a' else none⟩, ?_, rfl, ?_, ?_⟩
  · simp [run, step, World.initial, World.set, h1, Outcome.bind_ok]
  · decide
  · simp [run, step, World.set, g1, Outcome.bind_ok]

/-- **C130**, a domain that nobody registered among the first 128: the text is the name of the domain, `": "` and the tag. The name has at most
eight characters, none of them NUL and all but the first ASCII; the whole is shorter than 2^16. -/
theorem C130_unknown_partial (alloc : Nat → Except Err MutView) (ha : Str.AllocOk alloc) (message : V → BitVec 32 → List Byte) (ops : List (Op V))
    (w : World V) (h : run World.initial ops = .ok w) (name : List Byte) (hs : Atom.Storable name) (code : BitVec 32) (tag : List Byte)
    (hlen : name.length + 2 + tag.length < 2 ^ 16) (v : MutView) (hv : alloc (name.length + 2 + tag.length) = .ok v) :
    ∃ id, Atom.tryParse name = .ok id ∧ (firstFor ((registered ops).take 128) id = none →
      toString alloc message w ⟨code, id, tag⟩ = .ok (name ++ [0x3A#8, 0x20#8] ++ tag)) := by
  obtain ⟨id, -, h1, -, -, -, h2, -⟩ := Atom.C40_atoms_partial name name hs hs
  refine ⟨id, h1, fun hm => ?_⟩
  have hfl : [name, [0x3A#8, 0x20#8], tag].flatten = name ++ [0x3A#8, 0x20#8] ++ tag := by simp
  have hfn : [name, [0x3A#8, 0x20#8], tag].flatten.length = name.length + 2 + tag.length := by
    rw [hfl]; simp; omega
  rw [toString, C130_lookup ops w h, hm]
  change Atom.cString (Atom.toBuffer id) = name at h2
  rw [Atom.cString] at h2
  simp only [Outcome.bind_ok]
  rw [h2]
  rcases Str.C29_concat_partial alloc ha [name, [0x3A#8, 0x20#8], tag] (by omega) with ⟨er, h3, -⟩ | ⟨str, h3, h4⟩
  · rw [hfn, hv] at h3; cases h3
  · rw [h3]
    simp only
    rw [h4, hfl]

/-- A program, a name and a tag to which it applies. -/
example : (∃ w : World Nat, run World.initial [.make 1 7] = .ok w) ∧ Atom.Storable [0x61#8, 0x62#8] ∧
    firstFor ((registered ([.make 1 7, .register 5 1] : List (Op Nat))).take 128) 6 = none :=
  ⟨⟨_, rfl⟩, by simp [Atom.Storable], by decide⟩

end Solace.DomainLife
