import Verif.Lemmas.OldMemory
import Verif.Props.C29_C31_Exact
import Verif.Props.C27_C32_Exact
import Verif.Props.C38_UuidParse
import Verif.Props.C58_Md5
import Verif.Props.C59_Sha1
import Verif.Props.C60_Sha256
import Verif.Model.PathMore
import Verif.Model.Version
import Verif.Model.ErrorDomain
import Verif.Model.SystemErrors
/-
C136: results show nothing of what memory held before.
-/
namespace Solace.OldMemory
open Strings

/-! ### Strings -/

theorem shown_make (a : Nat → Except Err MutView) (ha : Str.AllocOk a) (s : List Byte) :
    shown (Str.make a s) = match a s.length with
      | .error e => .error e
      | .ok v => if v.null then .error .dom else .ok s := by
  rw [Str.make]
  cases h : a s.length with
  | error e => rfl
  | ok v =>
    obtain ⟨hl, _⟩ := ha _ v h
    simp only [MutView.write]
    by_cases hn : v.null = true
    · rw [if_pos hn, if_pos hn]; rfl
    · rw [if_neg hn, if_neg hn, if_neg (by omega)]
      dsimp only
      rw [← hl, List.drop_length, List.append_nil, hl]
      show Except.ok (Str.view ⟨s, s.length⟩) = _
      rw [Str.view_whole s]

/-- **C136** for a copy of a string (full). -/
theorem C136_make (s : List Byte) : Hidden fun a => shown (Str.make a s) :=
  hidden_of _ s.length (fun e => .error e) (fun b => if b then .error .dom else .ok s)
    (fun a ha e h => by rw [shown_make a ha, h])
    (fun a ha v h => by rw [shown_make a ha, h])

/-- **C136** for replacing a character (full). -/
theorem C136_replace_char (s : List Byte) (what with' : Byte) : Hidden fun a => shown (Str.makeReplaceChar a s what with') :=
  hidden_of _ s.length (fun e => .error e)
    (fun b => if b then .error .dom else .ok (s.map fun c => if what.toNat < 128 ∧ c = what then with' else c))
    (fun a ha e h => by
      show shown _ = _
      rw [(Str.C31_replace_char_exact a ha s what with').1 e h]; rfl)
    (fun a ha v h => by
      show shown _ = _
      obtain ⟨h1, h2⟩ := (Str.C31_replace_char_exact a ha s what with').2 v h
      cases hn : v.null with
      | true => rw [h1 hn]; rfl
      | false =>
        obtain ⟨str, e, hv⟩ := h2 hn
        rw [e]
        show Except.ok str.view = _
        rw [hv]; rfl)

/-- **C136** for concatenation, exactly: nothing is shown if and only if some of the first arguments together have the length of
all of them modulo 65536. -/
theorem C136_concat_iff (args : List (List Byte)) : (Hidden fun a => shown (Str.makeConcat a args)) ↔
    ∃ k, (args.take k).flatten.length = args.flatten.length % 2 ^ 16 := by
  rw [← storedUntil_full]
  refine tail_iff _ _ _ (fun e => .error e) (fun x => .ok x) (fun p q h => by injection h) (storedUntil_le _ _) ?_ ?_
  · intro a ha e h
    show shown _ = _
    rw [(Str.C29_concat_exact a ha args).1 e h]; rfl
  · intro a ha v h
    show shown _ = _
    obtain ⟨str, e, hv⟩ := (Str.C29_concat_exact a ha args).2 v h
    rw [e]
    show Except.ok str.view = _
    rw [hv]

/-- **C136** for concatenation (partial: fewer than 65536 characters). -/
theorem C136_concat_partial (args : List (List Byte)) (h : args.flatten.length < 2 ^ 16) :
    Hidden fun a => shown (Str.makeConcat a args) :=
  (C136_concat_iff args).mpr ⟨args.length, by rw [List.take_length, Nat.mod_eq_of_lt h]⟩

/-- **C136, negation**: one character and then 65535 and one more show a byte of old memory. -/
theorem C136_concat_leak (x : Byte) (s : List Byte) (y : List Byte) (hs : s.length = 2 ^ 16 - 1) (hy : y.length = 2) (c : Byte) :
    shown (Str.makeConcat (filled c) [[x], s, y]) = .ok [x, c] := by
  have hlen : [[x], s, y].flatten.length = 2 ^ 16 + 2 := by
    simp only [List.flatten_cons, List.flatten_nil, List.length_append, List.length_nil, List.length_singleton, hs, hy]
  obtain ⟨str, e, hv⟩ := (Str.C29_concat_exact (filled c) (filled_ok c) [[x], s, y]).2 _ rfl
  rw [hlen] at hv
  have h2 : (2 ^ 16 + 2) % 2 ^ 16 = 2 := by decide
  rw [h2] at hv
  have hst : storedUntil 2 [[x], s, y] = [x] := by
    rw [storedUntil, if_pos (by simp), storedUntil, if_neg (by rw [hs, List.length_singleton]; decide), List.append_nil]
  rw [hst] at hv
  rw [e]
  show Except.ok str.view = _
  rw [hv]
  rfl

/-- **C136** for joining a list, exactly: nothing is shown if and only if there is something to join or the separator is empty. -/
theorem C136_join_iff (by' : List Byte) (list : List (List Byte)) (hb : by'.length < 2 ^ 16) (hn : list.length < 2 ^ 64) :
    (Hidden fun a => shown (Str.makeJoin a by' list)) ↔ list ≠ [] ∨ by' = [] := by
  by_cases hl : list = []
  · subst hl
    by_cases h0 : by' = []
    · subst h0
      refine ⟨fun _ => .inr rfl, fun _ => ?_⟩
      have hj : Str.joinLength [] [] = 0 := by
        rw [Str.joinLength]
        simp [wrap16_def, wrap64_def]
      refine hidden_of _ 0 (fun e => .error e) (fun _ => .ok []) ?_ ?_
      · intro a ha e h
        show shown _ = _
        rw [Str.makeJoin, hj, h]; rfl
      · intro a ha v h
        show shown _ = _
        rw [Str.makeJoin, hj, h]
        dsimp only
        rw [Str.writeJoin]
        show Except.ok (Str.view _) = _
        rw [Str.view, slice_eq]
        simp
    · refine ⟨fun h => ?_, fun h => (h.elim (fun h => absurd rfl h) (fun h => absurd h h0))⟩
      exfalso
      have e := h (filled 0#8) (filled 1#8) (filled_ok _) (filled_ok _) (filled_same _ _)
      obtain ⟨s, e1, v1, _, hne⟩ := Str.C30_empty_list (filled 0#8) (filled_ok _) by' h0 hb _ rfl
      obtain ⟨t, e2, v2, _, _⟩ := Str.C30_empty_list (filled 1#8) (filled_ok _) by' h0 hb _ rfl
      dsimp only at e
      rw [e1, e2] at e
      have e' : s.view = t.view := by injection e
      rw [v1, v2] at e'
      dsimp only at e'
      match hk : 2 ^ 16 - by'.length with
      | 0 => omega
      | k + 1 =>
        rw [hk, List.replicate_succ, List.replicate_succ, List.cons.injEq] at e'
        exact absurd e'.1 (by decide)
  · refine ⟨fun _ => .inl hl, fun _ => ?_⟩
    refine hidden_of _ ((by'.intercalate list).length % 2 ^ 16) (fun e => .error e)
      (fun _ => if (by'.intercalate list).length < 2 ^ 16 then .ok (by'.intercalate list) else .error .overflow) ?_ ?_
    · intro a ha e h
      show shown _ = _
      rw [(Str.C30_join_exact a ha by' list hl hn).1 e h]; rfl
    · intro a ha v h
      show shown _ = _
      obtain ⟨h1, h2⟩ := (Str.C30_join_exact a ha by' list hl hn).2 v h
      by_cases hlt : (by'.intercalate list).length < 2 ^ 16
      · obtain ⟨str, e, hv⟩ := h2 hlt
        rw [e, if_pos hlt]
        show Except.ok str.view = _
        rw [hv]
      · rw [h1 (by omega), if_neg hlt]; rfl

/-- **C136, negation**: joining nothing by a separator shows all the memory allocated. -/
theorem C136_join_leak (by' : List Byte) (h0 : by' ≠ []) (hb : by'.length < 2 ^ 16) (a : Nat → Except Err MutView)
    (ha : Str.AllocOk a) (v : MutView) (hv : a (2 ^ 16 - by'.length) = .ok v) :
    shown (Str.makeJoin a by' []) = .ok v.bytes := by
  obtain ⟨s, e, h1, _, _⟩ := Str.C30_empty_list a ha by' h0 hb v hv
  rw [e]
  show Except.ok s.view = _
  rw [h1]

/-- **C136** for joining arguments, exactly: what is stored, if it is not an error, fills the memory asked for. -/
theorem C136_join_args_iff (by' : List Byte) (args : List (Bool × List Byte)) :
    (Hidden fun a => shown (Str.makeJoinArgs a by' args)) ↔
      ∀ x, storedAll ((by'.intercalate (args.map (·.2))).length % 2 ^ 16) (Str.joinPieces by' args) = some x →
        x.length = (by'.intercalate (args.map (·.2))).length % 2 ^ 16 := by
  generalize hn : (by'.intercalate (args.map (·.2))).length % 2 ^ 16 = n
  cases hx : storedAll n (Str.joinPieces by' args) with
  | none =>
    refine ⟨fun _ x h => absurd h (by simp), fun _ => ?_⟩
    refine hidden_of _ n (fun e => .error e) (fun _ => .error .overflow) ?_ ?_
    · intro a ha e h
      show shown _ = _
      rw [(Str.C73_join_exact a ha by' args n hn.symm).1 e h]; rfl
    · intro a ha v h
      show shown _ = _
      rw [((Str.C73_join_exact a ha by' args n hn.symm).2 v h).1 hx]; rfl
  | some x =>
    have := tail_iff (fun a => shown (Str.makeJoinArgs a by' args)) n x (fun e => .error e) (fun x => .ok x)
      (fun p q h => by injection h) (storedAll_le _ _ _ hx)
      (fun a ha e h => by rw [(Str.C73_join_exact a ha by' args n hn.symm).1 e h]; rfl)
      (fun a ha v h => by
        obtain ⟨str, e, hv⟩ := ((Str.C73_join_exact a ha by' args n hn.symm).2 v h).2 x hx
        rw [e]
        show Except.ok str.view = _
        rw [hv])
    rw [this]
    exact ⟨fun h y hy => by rw [Option.some.injEq] at hy; rw [← hy, h], fun h => h x rfl⟩

/-- **C136, negation**: three strings of one character joined by a separator of 32769 characters show two bytes of old memory. -/
theorem C136_join_args_leak (by' : List Byte) (hb : by'.length = 32769) (x y z c : Byte) :
    shown (Str.makeJoinArgs (filled c) by' [(true, [x]), (true, [y]), (true, [z])]) = .ok [x, y, z, c, c] := by
  have hn : 5 = (by'.intercalate ([(true, [x]), (true, [y]), (true, [z])].map (·.2))).length % 2 ^ 16 := by
    simp [List.intercalate, List.intersperse, hb]
  have hst : storedAll 5 (Str.joinPieces by' [(true, [x]), (true, [y]), (true, [z])]) = some [x, y, z] := by
    simp [Str.joinPieces, storedAll, hb]
  obtain ⟨str, e, hv⟩ := ((Str.C73_join_exact (filled c) (filled_ok c) by' _ 5 hn).2 _ rfl).2 _ hst
  rw [e]
  show Except.ok str.view = _
  rw [hv]
  rfl

/-- What a caller sees of a replacement. -/
def shownReplace (r : Option (Outcome (Except Err Str))) : Option (Outcome (Except Err (List Byte))) :=
  r.map fun o => o >>= fun r => .ok (shown r)

/-- **C136** for replacing a text, exactly (non-empty pattern): the pieces stored fill the memory asked for, or it is an error, or
the length overflows. -/
theorem C136_replace_iff (s what by' : List Byte) (hw : what ≠ []) (hs : s.length < 2 ^ 16) (ps : List (List Byte))
    (hp : IsSplit what s ps) (fuel : Nat) (hf : s.length < fuel) :
    (Hidden fun a => shownReplace (Str.makeReplace a fuel s what by')) ↔
      (s.length + by'.length * (ps.length - 1) < 2 ^ 31 →
        ∀ x, storedAll ((by'.intercalate ps).length % 2 ^ 16) (Str.replacePieces by' ps) = some x →
          x.length = (by'.intercalate ps).length % 2 ^ 16) := by
  have ex := fun a ha => Str.C31_replace_exact a ha s what by' hw hs ps hp fuel hf _ rfl
  revert ex
  generalize (by'.intercalate ps).length % 2 ^ 16 = n
  intro ex
  by_cases hov : s.length + by'.length * (ps.length - 1) < 2 ^ 31
  · cases hx : storedAll n (Str.replacePieces by' ps) with
    | none =>
      refine ⟨fun _ _ x h => absurd h (by simp), fun _ => ?_⟩
      refine hidden_of _ n (fun e => some .throws) (fun _ => some (.ok (.error .overflow))) ?_ ?_
      · intro a ha e h
        show shownReplace _ = _
        rw [((ex a ha).2 hov).1 e h]; rfl
      · intro a ha v h
        show shownReplace _ = _
        rw [(((ex a ha).2 hov).2 v h).1 hx]; rfl
    | some x =>
      have := tail_iff (fun a => shownReplace (Str.makeReplace a fuel s what by')) n x (fun e => some .throws)
        (fun x => some (.ok (.ok x)))
        (fun p q h => by injection h with h; injection h with h; injection h) (storedAll_le _ _ _ hx)
        (fun a ha e h => by rw [((ex a ha).2 hov).1 e h]; rfl)
        (fun a ha v h => by
          obtain ⟨str, e, hv⟩ := (((ex a ha).2 hov).2 v h).2 x hx
          rw [e]
          show some (Outcome.ok (Except.ok str.view)) = _
          rw [hv])
      rw [this]
      exact ⟨fun h _ y hy => by rw [Option.some.injEq] at hy; rw [← hy, h], fun h => h hov x rfl⟩
  · refine ⟨fun _ h => absurd h hov, fun _ a b ha hb _ => ?_⟩
    dsimp only
    rw [(ex a ha).1 (by omega), (ex b hb).1 (by omega)]

/-- **C136, negation**: replacing two characters by 32769 characters each shows two bytes of old memory and nothing else. -/
theorem C136_replace_leak (by' : List Byte) (hb : by'.length = 32769) (w c : Byte) (fuel : Nat) (hf : 2 < fuel) :
    shownReplace (Str.makeReplace (filled c) fuel [w, w] [w] by') = some (.ok (.ok [c, c])) := by
  have hsp : IsSplit [w] [w, w] [[], [], []] := by
    refine ⟨[w], rfl, fun i _ => Nat.zero_le _, [], rfl, fun i _ => Nat.zero_le _, rfl, fun i h => ?_⟩
    have := h
    simp [OccursAt] at this
  have hn : 2 = (by'.intercalate [[], [], []]).length % 2 ^ 16 := by
    simp [List.intercalate, List.intersperse, hb]
  have hst : storedAll 2 (Str.replacePieces by' [[], [], []]) = some [] := by
    simp [Str.replacePieces, storedAll, hb]
  obtain ⟨str, e, hv⟩ := (((Str.C31_replace_exact (filled c) (filled_ok c) [w, w] [w] by' (by simp) (by simp) _ hsp fuel hf 2 hn).2
    (by simp [hb])).2 _ rfl).2 _ hst
  rw [e]
  show some (Outcome.ok (Except.ok str.view)) = _
  rw [hv]
  rfl

/-! ### Builders and versions -/

/-- **C136** for builders: whatever is appended, the text shown is the same for any two buffers of the same size. -/
theorem C136_builder (buf buf' : List Byte) (hl : buf.length = buf'.length) (hb : buf.length < 2 ^ 64)
    (items : List StringBuilder.Item) (hv : ∀ i ∈ items, i.Valid) :
    StringBuilder.view (StringBuilder.run (.ofBuffer buf) items) = StringBuilder.view (StringBuilder.run (.ofBuffer buf') items) ∧
    (StringBuilder.build (StringBuilder.run (.ofBuffer buf) items)).view =
      (StringBuilder.build (StringBuilder.run (.ofBuffer buf') items)).view := by
  obtain ⟨out, h1, h2, _, h3, _⟩ := StringBuilder.C32_any_size buf items hb hv
  obtain ⟨out', h1', h2', _, h3', _⟩ := StringBuilder.C32_any_size buf' items (hl ▸ hb) hv
  have e : out = out' := StringBuilder.accumulates_unique h1 (hl ▸ h1')
  rw [h2, h2', h3, h3', e]
  exact ⟨rfl, rfl⟩

/-- **C136** for the text of a version (full; the numbers are `uint32`, the labels strings). -/
theorem C136_version_text (v : Version) (h1 : v.major < 2 ^ 32) (h2 : v.minor < 2 ^ 32) (h3 : v.patch < 2 ^ 32)
    (hb : v.bufferSize < 2 ^ 64) : Hidden fun a => (v.toString a).view := by
  have hv : ∀ i ∈ v.items, i.Valid := by
    have big : ∀ n, n < 2 ^ 32 → n < 2 ^ 64 := fun n h => by omega
    intro i hi
    simp only [Version.items, List.mem_append, List.mem_cons, List.not_mem_nil, or_false] at hi
    rcases hi with (hi | hi) | hi
    · rcases hi with rfl | rfl | rfl | rfl | rfl
      · exact big _ h1
      · trivial
      · exact big _ h2
      · trivial
      · exact big _ h3
    · split at hi
      · cases hi
      · simp only [List.mem_cons, List.not_mem_nil, or_false] at hi
        rcases hi with rfl | rfl <;> trivial
    · split at hi
      · cases hi
      · simp only [List.mem_cons, List.not_mem_nil, or_false] at hi
        rcases hi with rfl | rfl <;> trivial
  intro a b ha hb' hs
  show (Version.toString a v).view = (Version.toString b v).view
  rw [Version.toString, Version.toString]
  rcases alike_cases (hs v.bufferSize) with ⟨e, e1, e2⟩ | ⟨u, w, e1, e2, _, hl⟩
  · rw [e1, e2]
  · rw [e1, e2]
    exact (C136_builder u.bytes w.bytes hl (by rw [(ha _ _ e1).1]; exact hb) v.items hv).2

theorem labels_hidden (s : List Byte) : Hidden fun a => Version.labels a s := by
  intro a b ha hb hs
  show Version.labels a s = Version.labels b s
  have key : ∀ x, (∃ e, Str.make a x = .error e ∧ Str.make b x = .error e) ∨
      ∃ p q, Str.make a x = .ok p ∧ Str.make b x = .ok q ∧ p.view = q.view := by
    intro x
    have := C136_make x a b ha hb hs
    dsimp only at this
    cases h1 : Str.make a x <;> cases h2 : Str.make b x <;> rw [h1, h2] at this
    · injection this with this
      exact .inl ⟨_, rfl, by rw [this]⟩
    · cases this
    · cases this
    · injection this with this
      exact .inr ⟨_, _, rfl, rfl, this⟩
  rw [Version.labels, Version.labels]
  by_cases h0 : s = []
  · rw [if_pos h0, if_pos h0]
  · rw [if_neg h0, if_neg h0]
    dsimp only
    rcases key (StringView.trimChar ((StringView.splitChar s 0x2B#8).1.headD []) 0x2D#8) with ⟨e, e1, e2⟩ | ⟨p, q, e1, e2, hpq⟩
    · rw [e1, e2]
    · rw [e1, e2]
      dsimp only
      rw [hpq]
      by_cases h1 : (StringView.splitChar s 0x2B#8).1.length = 1
      · rw [if_pos h1, if_pos h1]
      · rw [if_neg h1, if_neg h1]
        rcases key ((StringView.splitChar s 0x2B#8).1.getD 1 []) with ⟨e, e1, e2⟩ | ⟨p', q', e1, e2, hpq'⟩
        · rw [e1, e2]
        · rw [e1, e2]
          dsimp only
          rw [hpq']

/-- **C136** for reading a version (full). -/
theorem C136_version_parse (null : Bool) (str after : List Byte) : Hidden fun a => Version.parse a null str after := by
  intro a b ha hb hs
  show Version.parse a null str after = Version.parse b null str after
  have h : ∀ s, Version.labels a s = Version.labels b s := fun s => labels_hidden s a b ha hb hs
  rw [Version.parse, Version.parse]
  simp only [h]

/-! ### Paths -/

section
variable {a b : Nat → Except Err MutView} (H : ∀ s, Path.text (Str.make a s) = Path.text (Str.make b s))
include H

theorem onPiece_same (vec : Nat → Except Err Unit) : Path.onPiece a vec = Path.onPiece b vec := by
  funext x c i count
  simp only [Path.onPiece, Path.Parse.add, H]

theorem copyTo_same (cap : Nat) : Path.copyTo a cap = Path.copyTo b cap := by
  funext acc c
  simp only [Path.copyTo, H]

theorem normalizeLoop_same (cap : Nat) : ∀ (cs acc : List (List Byte)),
    Path.normalizeLoop a cap acc cs = Path.normalizeLoop b cap acc cs
  | [], _ => by rw [Path.normalizeLoop, Path.normalizeLoop]
  | c :: cs, acc => by
    rw [Path.normalizeLoop, Path.normalizeLoop, normalizeLoop_same cap cs, normalizeLoop_same cap cs,
      normalizeLoop_same cap cs, copyTo_same H]

theorem copyArray_same : ∀ cs : List (List Byte), Path.copyArray a cs = Path.copyArray b cs
  | [] => rfl
  | c :: cs => by rw [Path.copyArray, Path.copyArray, H, copyArray_same cs]

theorem joinLoop_same (cap : Nat) : ∀ (cs acc : List (List Byte)), Path.joinLoop a cap acc cs = Path.joinLoop b cap acc cs
  | [], _ => rfl
  | c :: cs, acc => by
    rw [Path.joinLoop, Path.joinLoop, H]
    cases Path.text (Str.make b c) with
    | error e => rfl
    | ok s => exact joinLoop_same cap cs _

theorem joinPieces_same (cap : Nat) : ∀ (as : List Path.Piece) (acc : List (List Byte)),
    Path.joinPieces a cap acc as = Path.joinPieces b cap acc as
  | [], _ => rfl
  | p :: as, acc => by
    cases p <;> simp only [Path.joinPieces, joinLoop_same H, joinPieces_same cap as]

end

theorem text_same {a b : Nat → Except Err MutView} (ha : Str.AllocOk a) (hb : Str.AllocOk b) (hs : SameShape a b) (s : List Byte) :
    Path.text (Str.make a s) = Path.text (Str.make b s) := C136_make s a b ha hb hs

/-- **C136** for paths (full): parsing, normalising, parents, subpaths and all ways to make paths. -/
theorem C136_paths (vec : Nat → Except Err Unit) :
    (∀ fuel s d, Hidden fun a => Path.parse a vec fuel s d) ∧ (∀ p, Hidden fun a => Path.normalize a vec p) ∧
    (∀ p, Hidden fun a => Path.getParent a vec p) ∧ (∀ p f t, Hidden fun a => Path.subpath a vec p f t) ∧
    (∀ s, Hidden fun a => Path.single a vec s) ∧ (Hidden fun a => Path.root a vec) ∧
    (∀ args, Hidden fun a => Path.make a vec args) ∧ (∀ fuel args, Hidden fun a => Path.makeMoved a vec fuel args) := by
  refine ⟨fun fuel s d a b ha hb hs => ?_, fun p a b ha hb hs => ?_, fun p a b ha hb hs => ?_, fun p f t a b ha hb hs => ?_,
    fun s a b ha hb hs => ?_, fun a b ha hb hs => ?_, fun args a b ha hb hs => ?_, fun fuel args a b ha hb hs => ?_⟩ <;>
    have H := text_same ha hb hs <;> dsimp only
  · rw [Path.parse, Path.parse, onPiece_same H]
  · simp only [Path.normalize, normalizeLoop_same H]
  · simp only [Path.getParent, copyArray_same H, copyTo_same H]
  · simp only [Path.subpath, copyTo_same H]
  · simp only [Path.single, H]
  · simp only [Path.root, Path.single, H]
  · simp only [Path.make, joinLoop_same H]
  · simp only [Path.makeMoved, joinPieces_same H]

theorem path_toString_hidden {p : Path} {d : List Byte} (h : Hidden fun a => shown (Str.makeJoin a d p.comps)) :
    Hidden fun a => p.toString a d := by
  intro a b ha hb hs
  have h1 := text_same ha hb hs d
  have h2 : Path.text (Str.makeJoin a d p.comps) = Path.text (Str.makeJoin b d p.comps) := h a b ha hb hs
  show Path.toString a p d = Path.toString b p d
  rw [Path.toString, Path.toString, h1, h2]

/-- **C136** for the text of a path, exactly: it shows nothing if and only if the path has components, or is one whose array is not
empty (`isAbsolute` then ends the program), or the delimiter is empty. -/
theorem C136_path_text_iff (p : Path) (d : List Byte) (hd : d.length < 2 ^ 16) (hn : p.comps.length < 2 ^ 64) :
    (Hidden fun a => p.toString a d) ↔ p.comps ≠ [] ∨ p.noBuffer = false ∨ d = [] := by
  by_cases hc : p.comps = []
  · cases hb : p.noBuffer with
    | false =>
      refine ⟨fun _ => .inr (.inl rfl), fun _ a b _ _ _ => ?_⟩
      show Path.toString a p d = Path.toString b p d
      have : p.isAbsolute = .terminate := by
        rw [Path.isAbsolute, hb, Path.component, hc]; rfl
      rw [Path.toString, Path.toString, this]; rfl
    | true =>
      have hab : p.isAbsolute = .ok false := by rw [Path.isAbsolute, hb]; rfl
      constructor
      · intro h
        refine .inr (.inr ?_)
        have hj : Hidden fun a => shown (Str.makeJoin a d p.comps) := by
          rw [hc]
          by_cases h0 : d = []
          · exact (C136_join_iff d [] hd (by simp)).mpr (.inr h0)
          · exfalso
            have e := h (filled 0#8) (filled 1#8) (filled_ok _) (filled_ok _) (filled_same _ _)
            have l0 := C136_join_leak d h0 hd (filled 0#8) (filled_ok _) _ rfl
            have l1 := C136_join_leak d h0 hd (filled 1#8) (filled_ok _) _ rfl
            have l0' : Path.text (Str.makeJoin (filled 0#8) d []) = _ := l0
            have l1' : Path.text (Str.makeJoin (filled 1#8) d []) = _ := l1
            dsimp only at e
            rw [Path.toString, Path.toString, hab, hc, l0', l1'] at e
            simp only [Outcome.bind_ok, Bool.false_and, Bool.false_eq_true, if_false, Outcome.pure_def, Outcome.ok.injEq] at e
            match hk : 2 ^ 16 - d.length with
            | 0 => omega
            | k + 1 =>
              rw [hk, List.replicate_succ, List.replicate_succ, List.cons.injEq] at e
              exact absurd e.1 (by decide)
        rw [hc] at hj
        exact ((C136_join_iff d [] hd (by simp)).mp hj).resolve_left (fun h => h rfl)
      · rintro (h | h | h)
        · exact absurd hc h
        · cases h
        · exact path_toString_hidden ((C136_join_iff d _ hd hn).mpr (.inr h))
  · exact ⟨fun _ => .inl hc, fun _ => path_toString_hidden ((C136_join_iff d _ hd hn).mpr (.inl hc))⟩

/-- **C136, negation**: the text of the empty path is the memory allocated for it. -/
theorem C136_path_text_leak (c : Byte) : Path.none.toString (filled c) [0x2F#8] = .ok (List.replicate (2 ^ 16 - 1) c) := by
  have h : Path.text (Str.makeJoin (filled c) [0x2F#8] []) = .ok (List.replicate (2 ^ 16 - 1) c) :=
    C136_join_leak [0x2F#8] (by simp) (by simp) (filled c) (filled_ok c) _ rfl
  have hab : Path.none.isAbsolute = .ok false := rfl
  have hc : Path.none.comps = [] := rfl
  rw [Path.toString, hab, hc, h]
  simp only [Outcome.bind_ok, Bool.false_and, Bool.false_eq_true, if_false, Outcome.pure_def]

/-! ### UUIDs -/

/-- **C136** for the text of a UUID (full): neither the memory of the string nor the local buffer is shown. -/
theorem C136_uuid_text (u s t : List Byte) (hu : u.length = 16) (hs : s.length = 36) (ht : t.length = 36) (a b : Nat → Except Err MutView)
    (ha : Str.AllocOk a) (hb : Str.AllocOk b) (hab : SameShape a b) :
    (Uuid.toString a s u).view = (Uuid.toString b t u).view := by
  rw [Uuid.toString, Uuid.toString, Uuid.toStringInto_eq u s hu (by omega) (by rw [hs]; decide),
    Uuid.toStringInto_eq u t hu (by omega) (by rw [ht]; decide)]
  have := C136_make (Uuid.text u) a b ha hb hab
  dsimp only at this
  cases h1 : Str.make a (Uuid.text u) <;> cases h2 : Str.make b (Uuid.text u) <;> rw [h1, h2] at this
  · cases this
  · cases this
  · injection this

theorem tokens_count {p bs : List Byte} (h : Uuid.Tokens p bs) : p.length = p.count 0x2D#8 + 2 * bs.length := by
  induction h with
  | nil => rfl
  | dash _ ih => rw [List.length_cons, List.count_cons_self, ih]; omega
  | @pair c d x y s bs hx hy _ ih =>
    have hc : c ≠ 0x2D#8 := Uuid.digit_not_dash c (by rw [Hex.IsDigit, hx]; simp)
    have hd : d ≠ 0x2D#8 := Uuid.digit_not_dash d (by rw [Hex.IsDigit, hy]; simp)
    rw [List.count_cons_of_ne hc, List.count_cons_of_ne hd]
    simp only [List.length_cons]
    omega

theorem drop_filled (n k : Nat) (x : List Byte)
    (h : x ++ (List.replicate n (0#8 : Byte)).drop k = x ++ (List.replicate n (1#8 : Byte)).drop k) : n ≤ k := by
  have e := List.append_cancel_left h
  simp only [List.drop_replicate] at e
  match hn : n - k with
  | 0 => omega
  | m + 1 =>
    rw [hn, List.replicate_succ, List.replicate_succ, List.cons.injEq] at e
    exact absurd e.1 (by decide)

/-- **C136** for reading a UUID, exactly: nothing of the local array is shown if and only if the text is refused, or has four
dashes (or five, when the last digit is paired with the byte after the text). -/
theorem C136_uuid_parse_iff (str after : List Byte) :
    (∀ s t : List Byte, s.length = 16 → t.length = 16 → Uuid.parse s str after = Uuid.parse t str after) ↔
      ∀ s u : List Byte, s.length = 16 → Uuid.parse s str after = .ok (.ok u) → str.count 0x2D#8 = 4 ∨ str.count 0x2D#8 = 5 := by
  by_cases hl : str.length = 36
  · have l0 : (List.replicate 16 (0#8 : Byte)).length = 16 := List.length_replicate ..
    have l1 : (List.replicate 16 (1#8 : Byte)).length = 16 := List.length_replicate ..
    obtain ⟨p, bs, rest, e, ht, hst⟩ := Uuid.tokens_total _ str (Nat.le_refl _)
    have hcount := tokens_count ht
    have hlen : p.length + rest.length = 36 := by rw [← hl, e, List.length_append]
    have hcs : str.count 0x2D#8 = p.count 0x2D#8 + rest.count 0x2D#8 := by rw [e, List.count_append]
    -- what is left after the pairs and dashes does not depend on the array
    have hp : ∀ s, Uuid.parse s str after = (do
        match ← (if bs.length ≤ 16 then Uuid.parseLoop rest.length (rest ++ after) bs else .ub) with
        | .error e => pure (.error e)
        | .ok done => pure (.ok (done ++ s.drop done.length))) := by
      intro s
      have h := Uuid.parseLoop_tokens ht rest.length (rest ++ after) [] (by simp)
      rw [hlen, ← List.append_assoc, ← e, List.length_nil, Nat.zero_add, List.nil_append] at h
      rw [Uuid.parse, if_neg (by rw [hl]; simp [Uuid.stringSize]), show Uuid.stringSize = 36 from rfl, h]
      rfl
    -- the bytes read
    have hdone : ∀ done, (if bs.length ≤ 16 then Uuid.parseLoop rest.length (rest ++ after) bs else .ub) = .ok (.ok done) →
        done.length ≤ 16 ∧ (done.length = 16 ↔ str.count 0x2D#8 = 4 ∨ str.count 0x2D#8 = 5) := by
      intro done h
      by_cases h16 : bs.length ≤ 16
      · rw [if_pos h16] at h
        rcases hst with rfl | ⟨c, t, rfl, hc, rfl | ⟨d, t', rfl, hcd⟩⟩
        · rw [List.length_nil, Uuid.parseLoop] at h
          have h : bs = done := by injection h with h; injection h
          subst h
          rw [hcs, List.count_nil]
          rw [List.length_nil] at hlen
          exact ⟨h16, by omega⟩
        · rw [List.length_singleton, List.singleton_append, Uuid.parseLoop.eq_def] at h
          simp only at h
          rw [if_neg hc] at h
          cases after with
          | nil => cases h
          | cons d t =>
            simp only at h
            split at h
            · split at h
              · rename_i v _ h16'
                rw [Uuid.parseLoop.eq_def] at h
                have h : bs ++ [v] = done := by injection h with h; injection h
                subst h
                have h16' : bs.length < 16 := h16'
                rw [hcs, List.count_cons_of_ne hc, List.count_nil, List.length_append, List.length_singleton]
                rw [List.length_singleton] at hlen
                exact ⟨by omega, by omega⟩
              · cases h
            · rename_i hx; injection h with h; injection h
            · cases h
            · cases h
            · cases h
        · exfalso
          rw [List.cons_append, List.cons_append, List.length_cons, Uuid.parseLoop_pair _ _ _ hc] at h
          by_cases hcs : c.toNat < 128 ∧ d.toNat < 128
          · rw [Uuid.decode_bad c d hcd hcs.1 hcs.2] at h
            injection h with h; injection h
          · rw [Uuid.decode_ub c d (by omega)] at h
            cases h
      · rw [if_neg h16] at h; cases h
    cases hr : (if bs.length ≤ 16 then Uuid.parseLoop rest.length (rest ++ after) bs else .ub) with
    | ok r =>
      cases r with
      | error e' =>
        have hp' : ∀ s, Uuid.parse s str after = .ok (.error e') := fun s => by rw [hp s, hr]; rfl
        refine ⟨fun _ s u _ h => ?_, fun _ s t _ _ => by rw [hp' s, hp' t]⟩
        rw [hp' s] at h
        injection h with h; cases h
      | ok done =>
        have hp' : ∀ s, Uuid.parse s str after = .ok (.ok (done ++ s.drop done.length)) := fun s => by rw [hp s, hr]; rfl
        obtain ⟨hle, hiff⟩ := hdone done hr
        constructor
        · intro h s u hs hu
          have h01 := h _ _ l0 l1
          rw [hp', hp'] at h01
          have h01 : done ++ (List.replicate 16 (0#8 : Byte)).drop done.length = done ++ (List.replicate 16 (1#8 : Byte)).drop done.length := by
            injection h01 with h; injection h
          have := drop_filled _ _ _ h01
          exact hiff.mp (by omega)
        · intro h s t hs ht'
          have hd := hiff.mpr (h s _ hs (hp' s))
          rw [hp' s, hp' t, List.drop_eq_nil_of_le (by omega), List.drop_eq_nil_of_le (by omega)]
    | throws =>
      have hp' : ∀ s, Uuid.parse s str after = .throws := fun s => by rw [hp s, hr]; rfl
      exact ⟨fun _ s u _ h => by (rw [hp' s] at h; cases h), fun _ s t _ _ => by rw [hp' s, hp' t]⟩
    | terminate =>
      have hp' : ∀ s, Uuid.parse s str after = .terminate := fun s => by rw [hp s, hr]; rfl
      exact ⟨fun _ s u _ h => by (rw [hp' s] at h; cases h), fun _ s t _ _ => by rw [hp' s, hp' t]⟩
    | ub =>
      have hp' : ∀ s, Uuid.parse s str after = .ub := fun s => by rw [hp s, hr]; rfl
      exact ⟨fun _ s u _ h => by (rw [hp' s] at h; cases h), fun _ s t _ _ => by rw [hp' s, hp' t]⟩
  · have hp' : ∀ s, Uuid.parse s str after = .ok (.error .nodata) := fun s => by
      rw [Uuid.parse, if_pos (show str.length ≠ Uuid.stringSize from hl)]
    refine ⟨fun _ s u _ h => ?_, fun _ s t _ _ => by rw [hp' s, hp' t]⟩
    rw [hp' s] at h
    injection h with h; cases h

/-- **C136, negation**: a text of 36 dashes is accepted as a UUID, and it is the previous content of the stack. -/
theorem C136_uuid_parse_leak (s after : List Byte) : Uuid.parse s (List.replicate 36 0x2D#8) after = .ok (.ok s) := by
  have h : Uuid.Tokens (List.replicate 36 0x2D#8) [] := by
    have : ∀ n, Uuid.Tokens (List.replicate n 0x2D#8) [] := fun n => by
      induction n with
      | zero => exact .nil
      | succ n ih => exact .dash ih
    exact this 36
  have hl := Uuid.parseLoop_tokens h 0 after [] (by simp)
  rw [Uuid.parse, if_neg (by simp [Uuid.stringSize])]
  rw [List.length_replicate, if_pos (by simp), Nat.add_zero] at hl
  rw [show Uuid.stringSize = 36 from rfl, hl, Uuid.parseLoop]
  rfl

/-! ### Hashes -/

/-- **C136** for MD5, SHA-1 and SHA-256 (full): no digest depends on the uninitialised parts of the objects or local arrays, nor on
the byte order of the host. -/
theorem C136_hashes (h h' : Hash.Host) (pieces : List (List Byte)) :
    Hash.Md5.hash h pieces = Hash.Md5.hash h' pieces ∧ Hash.Sha1.hash h pieces = Hash.Sha1.hash h' pieces ∧ Hash.Sha2.hash h pieces = Hash.Sha2.hash h' pieces :=
  ⟨by rw [Hash.Md5.C58_any_pieces, Hash.Md5.C58_any_pieces], by rw [Hash.Sha1.C59_any_pieces, Hash.Sha1.C59_any_pieces],
    by rw [Hash.Sha2.C60_any_pieces, Hash.Sha2.C60_any_pieces]⟩

/-! ### Errors -/

/-- **C136** for the text of an error (partial: the tag leaves room for the name of the domain). -/
theorem C136_error_text_partial {D : Type} (message : D → BitVec 32 → List Byte) (m : Dict (BitVec 64) D) (e : ErrorValue)
    (ht : ((Atom.toBuffer e.domain).takeWhile (· ≠ 0#8)).length + 2 + e.tag.length < 2 ^ 16) :
    Hidden fun a => ErrorValue.toString a message m e := by
  intro a b ha hb hs
  have key : ∀ N : List Byte, N.length + 2 + e.tag.length < 2 ^ 16 → [N, [0x3A#8, 0x20#8], e.tag].flatten.length < 2 ^ 16 := by
    intro N h
    simp only [List.flatten_cons, List.flatten_nil, List.length_append, List.length_nil, List.length_cons]
    omega
  have := C136_concat_partial [(Atom.toBuffer e.domain).takeWhile (· ≠ 0#8), [0x3A#8, 0x20#8], e.tag]
    (key _ ht) a b ha hb hs
  dsimp only at this ⊢
  rw [ErrorValue.toString, ErrorValue.toString]
  cases ErrorDomains.find m e.domain with
  | throws => rfl
  | terminate => rfl
  | ub => rfl
  | ok o =>
    cases o with
    | some d => rfl
    | none =>
      dsimp only
      cases h1 : Str.makeConcat a [(Atom.toBuffer e.domain).takeWhile (· ≠ 0#8), [0x3A#8, 0x20#8], e.tag] <;>
        cases h2 : Str.makeConcat b [(Atom.toBuffer e.domain).takeWhile (· ≠ 0#8), [0x3A#8, 0x20#8], e.tag] <;>
        rw [h1, h2] at this
      · cases this
      · cases this
      · injection this with this; dsimp only; rw [this]

/-- **C136, negation**: the text of an error whose domain is unknown and whose tag has 65535 characters is the name of the domain
followed by one byte of old memory. -/
theorem C136_error_text_leak {D : Type} (message : D → BitVec 32 → List Byte) (m : Dict (BitVec 64) D) (e : ErrorValue)
    (hf : ErrorDomains.find m e.domain = .ok none) (ht : e.tag.length = 2 ^ 16 - 1) (c : Byte) :
    ErrorValue.toString (filled c) message m e = .ok ((Atom.toBuffer e.domain).takeWhile (· ≠ 0#8) ++ [c]) := by
  have key : ∀ N : List Byte, N.length ≤ 9 →
      shown (Str.makeConcat (filled c) [N, [0x3A#8, 0x20#8], e.tag]) = .ok (N ++ [c]) := by
    intro N hN
    have hlen : [N, [0x3A#8, 0x20#8], e.tag].flatten.length % 2 ^ 16 = N.length + 1 := by
      simp only [List.flatten_cons, List.flatten_nil, List.length_append, List.length_nil, List.length_cons, ht]
      omega
    obtain ⟨str, e1, hv⟩ := (Str.C29_concat_exact (filled c) (filled_ok c) [N, [0x3A#8, 0x20#8], e.tag]).2 _ rfl
    rw [hlen] at hv
    have hst : storedUntil (N.length + 1) [N, [0x3A#8, 0x20#8], e.tag] = N := by
      rw [storedUntil, if_pos (by omega), storedUntil, if_neg (by simp), List.append_nil]
    rw [hst, List.drop_replicate, Nat.add_sub_cancel_left] at hv
    rw [e1]
    show Except.ok str.view = _
    rw [hv]
    rfl
  have hN : ((Atom.toBuffer e.domain).takeWhile (· ≠ 0#8)).length ≤ 9 := by
    refine Nat.le_trans (List.takeWhile_sublist _).length_le ?_
    simp [Atom.toBuffer]
  have := key _ hN
  rw [ErrorValue.toString, hf]
  dsimp only
  cases h : Str.makeConcat (filled c) [(Atom.toBuffer e.domain).takeWhile (· ≠ 0#8), [0x3A#8, 0x20#8], e.tag] with
  | error x => rw [h] at this; cases this
  | ok str =>
    rw [h] at this
    injection this with this
    dsimp only
    rw [this]

/-- **C136** for system error messages (full). -/
theorem C136_system_message (strerror : BitVec 32 → Option (List Byte)) (code : BitVec 32) :
    Hidden fun a => (SystemErrors.message a strerror code) >>= fun s => .ok s.view := by
  intro a b ha hb hs
  dsimp only
  rw [SystemErrors.message, SystemErrors.message]
  cases (Make.ofCString (strerror code)).bind Make.SV.chars with
  | throws => rfl
  | terminate => rfl
  | ub => rfl
  | ok text =>
    have := C136_make text a b ha hb hs
    dsimp only [Outcome.bind] at this ⊢
    cases h1 : Str.make a text <;> cases h2 : Str.make b text <;> rw [h1, h2] at this
    · cases this
    · cases this
    · injection this with this
      dsimp only
      simp only [Outcome.noexcept_ok, Outcome.bind_ok, this]

/-- The hypotheses of the theorems are met, and managers that differ in content exist. -/
example : SameShape (filled 3#8) (filled 4#8) ∧ filled 3#8 1 ≠ filled 4#8 1 := ⟨filled_same _ _, by simp [filled]⟩
example : [[1#8], [2#8, 3#8]].flatten.length < 2 ^ 16 := by decide
example : (List.replicate (2 ^ 16 - 1) 7#8).length = 2 ^ 16 - 1 ∧ (List.replicate 32769 7#8).length = 32769 :=
  ⟨List.length_replicate .., List.length_replicate ..⟩
example : (⟨1, 2, 3, [], []⟩ : Version).bufferSize < 2 ^ 64 := by decide +kernel
example : shown (Str.makeConcat (filled 9#8) [[1#8], [2#8, 3#8]]) = .ok [1#8, 2#8, 3#8] := by decide +kernel
/-- A text that shows the last byte of the array (six dashes), and one that does not (four). -/
example : Uuid.parse (List.replicate 16 7#8) (List.replicate 6 0x2D#8 ++ List.replicate 30 0x31#8) [] =
      .ok (.ok (List.replicate 15 0x11#8 ++ [7#8])) ∧
    Uuid.parse (List.replicate 16 7#8) (List.replicate 4 0x2D#8 ++ List.replicate 32 0x31#8) [] =
      .ok (.ok (List.replicate 16 0x11#8)) := by decide +kernel

end Solace.OldMemory
