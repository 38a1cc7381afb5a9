import Verif.Model.Path
import Verif.Props.C29_C31_String
/- Helper lemmas for paths. -/
namespace Solace.Path
open Strings StringView Str

/-- Memory never runs out: every request for string memory gives a non-null view, every vector of components can be
made. -/
structure Plenty (alloc : Nat → Except Err MutView) (vec : Nat → Except Err Unit) : Prop where
  ok : AllocOk alloc
  str : ∀ n, ∃ v, alloc n = .ok v ∧ v.null = false
  vec : ∀ n, vec n = .ok ()

variable {alloc : Nat → Except Err MutView} {vec : Nat → Except Err Unit}

theorem text_make (ha : AllocOk alloc) (c : List Byte) : (∃ e, text (Str.make alloc c) = .error e) ∨ text (Str.make alloc c) = .ok c := by
  rcases C29_make alloc ha c with ⟨e, h⟩ | ⟨s, h, hs⟩
  · exact .inl ⟨e, by rw [h]; rfl⟩
  · refine .inr ?_
    rw [h, ← hs]; rfl

theorem text_make_plenty (h : Plenty alloc vec) (c : List Byte) : text (Str.make alloc c) = .ok c := by
  rcases text_make h.ok c with ⟨e, he⟩ | h'
  · exfalso
    obtain ⟨v, hv, hn⟩ := h.str c.length
    have hl := (h.ok _ v hv).1
    rw [Str.make, hv] at he
    simp only [MutView.write, hn, Bool.false_eq_true, if_false] at he
    rw [if_neg (by omega)] at he
    cases he
  · exact h'

theorem text_join (h : Plenty alloc vec) (d : List Byte) (cs : List (List Byte)) (hne : cs ≠ []) (hn : cs.length < 2 ^ 64) :
    ((d.intercalate cs).length < 2 ^ 16 → text (makeJoin alloc d cs) = .ok (d.intercalate cs)) ∧
    (2 ^ 16 ≤ (d.intercalate cs).length → ∃ e, text (makeJoin alloc d cs) = .error e) := by
  constructor
  · intro hs
    obtain ⟨v, hv, _⟩ := h.str (d.intercalate cs).length
    obtain ⟨s, h1, h2⟩ := C30_join_succeeds alloc h.ok d cs hne hn hs v hv
    rw [h1, ← h2]; rfl
  · intro hs
    rcases C30_join_partial alloc h.ok d cs hne hn with ⟨e, he⟩ | ⟨s, h1, h2⟩
    · exact ⟨e, by rw [he]; rfl⟩
    · exfalso
      have hle := view_length_le s
      rw [h2] at hle
      have : s.size < 2 ^ 16 := by
        rw [makeJoin] at h1
        split at h1
        · cases h1
        · split at h1
          · cases h1
          · cases h1
            exact wrap16_lt _
      omega

/-! ### Absoluteness and text -/

theorem isAbsolute_cons (c : List Byte) (cs : List (List Byte)) : isAbsolute ⟨false, c :: cs⟩ = .ok (c == []) := rfl

theorem isAbsolute_none (cs : List (List Byte)) : isAbsolute ⟨true, cs⟩ = .ok false := rfl

theorem isAbsolute_hollow : isAbsolute ⟨false, []⟩ = .terminate := rfl

/-- The text of a path as it is meant: the delimiter for the root, otherwise the components separated by it. -/
def meant (d : List Byte) (cs : List (List Byte)) : List Byte := if cs = [[]] then d else d.intercalate cs

theorem toString_eq (h : Plenty alloc vec) (d : List Byte) (cs : List (List Byte)) (hne : cs ≠ []) (hn : cs.length < 2 ^ 64)
    (hd : d.length < 2 ^ 16) :
    toString alloc ⟨false, cs⟩ d = .ok (if (meant d cs).length < 2 ^ 16 then meant d cs else []) := by
  match cs, hne with
  | c :: cs, hne =>
    rw [toString, isAbsolute_cons, Outcome.bind_ok]
    by_cases hr : c :: cs = [[]]
    · cases hr
      have hb : (([] : List Byte) == [] && [([] : List Byte)].length == 1) = true := rfl
      simp only [hb, meant, if_true, hd, text_make_plenty h]
      rfl
    · have hc : ((c == []) && (c :: cs).length == 1) = false := by
        rw [Bool.and_eq_false_iff]
        by_cases hc : c = []
        · right
          subst hc
          have : cs ≠ [] := fun h => hr (by rw [h])
          have := List.length_pos_iff.mpr this
          rw [List.length_cons, beq_eq_false_iff_ne]
          omega
        · left; simpa using hc
      simp only [hc, Bool.false_eq_true, if_false, meant, hr]
      obtain ⟨h1, h2⟩ := text_join h d (c :: cs) hne hn
      by_cases hs : (d.intercalate (c :: cs)).length < 2 ^ 16
      · simp only [h1 hs, if_pos hs]; rfl
      · obtain ⟨e, he⟩ := h2 (by omega)
        simp only [he, if_neg hs]; rfl

/-! ### Parsing -/

/-- Without an empty piece at the end. -/
def trail (ps : List (List Byte)) : List (List Byte) := if ps.getLast? = some [] then ps.dropLast else ps

theorem trail_cons (p : List Byte) (ps : List (List Byte)) (h : ps ≠ []) : trail (p :: ps) = p :: trail ps := by
  rw [trail, trail, List.getLast?_cons, List.dropLast_cons_of_ne_nil h]
  obtain ⟨q, hq⟩ : ∃ q, ps.getLast? = some q := by
    cases hg : ps.getLast? with
    | none => exact absurd (List.getLast?_eq_none_iff.mp hg) h
    | some q => exact ⟨q, rfl⟩
  rw [hq, Option.getD_some]
  split <;> rfl

abbrev stepOn (alloc : Nat → Except Err MutView) (vec : Nat → Except Err Unit) (a : Parse) (c : List Byte × Nat × Nat) : Parse :=
  onPiece alloc vec a c.1 c.2.1 c.2.2

theorem fold_err (cs : List (List Byte × Nat × Nat)) (a : Parse) (ha : a.err.isSome) :
    cs.foldl (stepOn alloc vec) a = a := by
  induction cs with
  | nil => rfl
  | cons c cs ih =>
    have h : stepOn alloc vec a c = a := by simp only [stepOn, onPiece, if_pos ha]
    rw [List.foldl_cons, h]; exact ih

theorem onPiece_cap (ha : AllocOk alloc) (n i : Nat) (hn : n ≠ 0) (cs : List (List Byte)) (p : List Byte) (hi : i < n)
    (hc : cs.length ≤ i) :
    let a := onPiece alloc vec ⟨.none, n, cs⟩ p i n
    (a.err.isSome ∧ ∃ e, text (Str.make alloc p) = .error e) ∨
      a = ⟨.none, n, if i + 1 = n ∧ p = [] then cs else cs ++ [p]⟩ := by
  simp only [onPiece, Option.isSome_none, Bool.false_eq_true, if_false, Parse.prepare, hn, false_and, Parse.add]
  by_cases hl : i + 1 = n ∧ p = []
  · right; rw [if_pos hl, if_pos hl]
  · rw [if_neg hl, if_neg hl]
    rcases text_make ha p with ⟨e, he⟩ | he
    · left; rw [he]; exact ⟨rfl, e, rfl⟩
    · right; rw [he]
      simp only [Parse.push]
      rw [if_neg (by omega)]

theorem fold_pieces (ha : AllocOk alloc) (n : Nat) (hn : n ≠ 0) (ps : List (List Byte)) :
    ∀ (i : Nat) (cs : List (List Byte)), ps ≠ [] → i + ps.length = n → cs.length ≤ i →
    (((number i n ps).foldl (stepOn alloc vec) ⟨.none, n, cs⟩).err.isSome ∧ ∃ c e, text (Str.make alloc c) = .error e) ∨
      (number i n ps).foldl (stepOn alloc vec) ⟨.none, n, cs⟩ = ⟨.none, n, cs ++ trail ps⟩ := by
  induction ps with
  | nil => intro i cs h; exact absurd rfl h
  | cons p ps ih =>
    intro i cs _ hlen hc
    rw [List.length_cons] at hlen
    rw [number, List.foldl_cons]
    rcases onPiece_cap (vec := vec) ha n i hn cs p (by omega) hc with ⟨h1, e, h2⟩ | h
    · left
      rw [fold_err _ _ h1]
      exact ⟨h1, p, e, h2⟩
    · have hs : stepOn alloc vec ⟨.none, n, cs⟩ (p, i, n) = ⟨.none, n, if i + 1 = n ∧ p = [] then cs else cs ++ [p]⟩ := h
      rw [hs]
      match ps with
      | [] =>
        right
        have hi : i + 1 = n := by simpa using hlen
        simp only [number, List.foldl_nil, trail, List.getLast?_singleton, hi, true_and, Option.some.injEq, List.dropLast_singleton]
        split <;> simp
      | q :: ps =>
        have hi : ¬(i + 1 = n ∧ p = []) := by
          intro h; rw [List.length_cons] at hlen; omega
        rw [if_neg hi]
        rcases ih (i + 1) (cs ++ [p]) (by simp) (by omega) (by simp; omega) with h | h
        · exact .inl h
        · right
          rw [h, trail_cons p _ (by simp), List.append_assoc]; rfl

theorem parse_eq_fold (s d : List Byte) (hd : d ≠ []) (hs : s.length < 2 ^ 16) (fuel : Nat) (hf : s.length < fuel) :
    parse alloc vec fuel s d =
      some ((number 0 (wrap16 (scan d [] s).length) (scan d [] s)).foldl (stepOn alloc vec) ⟨.none, 0, []⟩).finish := by
  rw [parse, split3_eq s d hd hs fuel hf]

/-- The components for the pieces of a text. -/
def kept (ps : List (List Byte)) : List (List Byte) := if trail ps = [] then [[]] else trail ps

theorem finish_ok (n : Nat) (hn : n ≠ 0) (ps : List (List Byte)) : Parse.finish ⟨.none, n, trail ps⟩ = .ok ⟨false, kept ps⟩ := by
  have hb : (n == 0) = false := by simpa using hn
  rw [kept]
  by_cases h : trail ps = []
  · simp only [Parse.finish, h, if_true, Parse.push, List.length_nil, Nat.le_zero, hn, if_false, ofVector, hb, List.nil_append]
  · simp only [Parse.finish, h, if_false, ofVector, hb]

theorem finish_err (a : Parse) (h : a.err.isSome) : ∃ e, a.finish = .error e := by
  obtain ⟨e, he⟩ := Option.isSome_iff_exists.mp h
  exact ⟨e, by simp only [Parse.finish, he]⟩

/-- What `parse` returns: an error of the memory manager or the pieces, without one empty piece at the end. -/
theorem parse_spec (ha : AllocOk alloc) (s d : List Byte) (hd : d ≠ []) (hs : s.length < 2 ^ 16) (fuel : Nat) (hf : s.length < fuel)
    (hp : (scan d [] s).length < 2 ^ 16) :
    ((∃ e, parse alloc vec fuel s d = some (.error e)) ∧ ¬Plenty alloc vec) ∨
      parse alloc vec fuel s d = some (.ok ⟨false, kept (scan d [] s)⟩) := by
  rw [parse_eq_fold s d hd hs fuel hf, wrap16_of_lt hp]
  generalize hps : scan d [] s = ps at hp
  have hne : ps ≠ [] := by rw [← hps]; exact scan_ne_nil d [] s hd
  have hn : ps.length ≠ 0 := fun h => hne (List.length_eq_zero_iff.mp h)
  have herr : ∀ (a : Parse), a.err.isSome → ∃ e, some a.finish = some (.error e) := by
    intro a h
    obtain ⟨e, he⟩ := finish_err a h
    exact ⟨e, by rw [he]⟩
  cases hv : vec ps.length with
  | error e =>
    left
    refine ⟨herr _ ?_, fun hpl => ?_⟩
    · match ps, hne with
      | p :: ps, _ =>
        rw [number, List.foldl_cons]
        have h1 : (stepOn alloc vec ⟨.none, 0, []⟩ (p, 0, (p :: ps).length)).err.isSome := by
          simp only [stepOn, onPiece, Option.isSome_none, Bool.false_eq_true, if_false, Parse.prepare, hn, ne_eq, not_false_eq_true,
            and_self, if_true, hv, Parse.add]
          split
          · rfl
          · split
            · simp only [Parse.push]; split <;> rfl
            · rfl
        rw [fold_err _ _ h1]
        exact h1
    · have := hpl.vec ps.length
      rw [hv] at this
      cases this
  | ok u =>
    have hstart : (number 0 ps.length ps).foldl (stepOn alloc vec) ⟨.none, 0, []⟩ =
        (number 0 ps.length ps).foldl (stepOn alloc vec) ⟨.none, ps.length, []⟩ := by
      match ps, hne with
      | p :: ps, _ =>
        rw [number, List.foldl_cons, List.foldl_cons]
        congr 1
        simp only [stepOn, onPiece, Option.isSome_none, Bool.false_eq_true, if_false, Parse.prepare, hn, ne_eq, not_false_eq_true,
            and_self, if_true, hv, false_and]
    rw [hstart]
    rcases fold_pieces (vec := vec) ha ps.length hn ps 0 [] hne (by omega) (by simp) with ⟨h1, c, e, h2⟩ | h
    · left
      refine ⟨herr _ h1, fun hpl => ?_⟩
      rw [text_make_plenty hpl] at h2
      cases h2
    · right
      rw [h, List.nil_append, finish_ok _ hn]

theorem parse_plenty (h : Plenty alloc vec) (s d : List Byte) (hd : d ≠ []) (hs : s.length < 2 ^ 16) (fuel : Nat)
    (hf : s.length < fuel) (hp : (scan d [] s).length < 2 ^ 16) :
    parse alloc vec fuel s d = some (.ok ⟨false, kept (scan d [] s)⟩) :=
  (parse_spec h.ok s d hd hs fuel hf hp).resolve_left fun h' => h'.2 h

/-! ### Which texts have 65536 pieces -/

theorem intercalate_empties (c : Byte) (n : Nat) : List.intercalate [c] (List.replicate (n + 1) []) = List.replicate n c := by
  induction n with
  | zero => rfl
  | succ n ih =>
    rw [List.replicate_succ, List.replicate_succ, List.intercalate, List.intersperse_cons_cons, List.flatten_cons, List.flatten_cons,
      ← List.replicate_succ, ← List.intercalate, ih]
    rfl

theorem sum_zero (ps : List (List Byte)) (h : (ps.map List.length).sum = 0) : ps = List.replicate ps.length [] := by
  induction ps with
  | nil => rfl
  | cons p ps ih =>
    rw [List.map_cons, List.sum_cons] at h
    have hp : p = [] := List.length_eq_zero_iff.mp (by omega)
    rw [List.length_cons, List.replicate_succ, ← ih (by omega), hp]

theorem pieces_lt (s d : List Byte) (hd : d ≠ []) (hs : s.length < 2 ^ 16) (hx : ∀ c, d = [c] → s ≠ List.replicate 65535 c) :
    (scan d [] s).length < 2 ^ 16 := by
  have hle := scan_length_le d [] s hd
  have hj := isSplit_join (scan_spec d s hd)
  have hl := intercalate_length d (scan d [] s)
  rw [hj] at hl
  generalize scan d [] s = ps at *
  have hpos := List.length_pos_iff.mpr hd
  by_cases h : ps.length < 2 ^ 16
  · exact h
  · exfalso
    obtain ⟨m, hm, hn⟩ : ∃ m, m = 65535 ∧ ps.length = m + 1 := ⟨65535, rfl, by omega⟩
    have h1 : d.length = 1 := by
      rw [hn, Nat.add_sub_cancel] at hl
      have : d.length * m < 2 ^ 16 := by omega
      rw [hm] at this
      omega
    obtain ⟨c, rfl⟩ := List.length_eq_one_iff.mp h1
    have hz : (ps.map List.length).sum = 0 := by rw [List.length_singleton] at hl; omega
    have he : s = List.replicate m c := by
      rw [← hj, sum_zero ps hz, hn]
      exact intercalate_empties c m
    exact hx c rfl (by rw [← hm]; exact he)

theorem scan_delims (c : Byte) (n : Nat) : scan [c] [] (List.replicate n c) = List.replicate (n + 1) [] := by
  induction n with
  | zero => rw [List.replicate_zero, scan_nil _ _ (by simp)]; rfl
  | succ n ih =>
    rw [List.replicate_succ, scan_match (d := [c]) (rest := c :: List.replicate n c) (by simp) ⟨_, rfl⟩, List.length_singleton, List.drop_succ_cons, List.drop_zero, ih]
    rfl

/-! ### Equality -/

theorem zip_all_iff (a b : List (List Byte)) :
    (decide (a.length = b.length) && (a.zip b).all fun c => StringView.equals c.1 c.2) = true ↔ a = b := by
  induction a generalizing b with
  | nil => cases b <;> simp
  | cons x a ih =>
    cases b with
    | nil => simp
    | cons y b =>
      have := ih b
      simp only [Bool.and_eq_true, decide_eq_true_eq, List.length_cons, List.zip_cons_cons, List.all_cons, equals_iff,
        List.cons.injEq, Nat.add_right_cancel_iff] at this ⊢
      rw [← this]
      constructor
      · rintro ⟨h1, h2, h3⟩; exact ⟨h2, h1, h3⟩
      · rintro ⟨h2, h1, h3⟩; exact ⟨h1, h2, h3⟩

/-- Two paths are equal when they have the same components. -/
theorem equals_iff_comps (p q : Path) : Path.equals p q = true ↔ p.comps = q.comps := zip_all_iff _ _

/-! ### Copying components -/

theorem copyTo_plenty (h : Plenty alloc vec) (cap : Nat) (acc : List (List Byte)) (c : List Byte) (hc : acc.length < cap) :
    copyTo alloc cap acc c = acc ++ [c] := by
  rw [copyTo, text_make_plenty h]
  simp only
  rw [if_neg (by omega)]

theorem copyTo_cases (ha : AllocOk alloc) (cap : Nat) (acc : List (List Byte)) (c : List Byte) :
    copyTo alloc cap acc c = acc ∨ copyTo alloc cap acc c = acc ++ [c] := by
  rw [copyTo]
  rcases text_make ha c with ⟨e, he⟩ | he
  · rw [he]; exact .inl rfl
  · rw [he]; simp only; split
    · exact .inl rfl
    · exact .inr rfl

theorem copyAll_plenty (h : Plenty alloc vec) (cap : Nat) (cs : List (List Byte)) :
    ∀ acc : List (List Byte), acc.length + cs.length ≤ cap → cs.foldl (copyTo alloc cap) acc = acc ++ cs := by
  induction cs with
  | nil => intro acc _; rw [List.foldl_nil, List.append_nil]
  | cons c cs ih =>
    intro acc hl
    rw [List.length_cons] at hl
    rw [List.foldl_cons, copyTo_plenty h cap acc c (by omega), ih _ (by simp; omega), List.append_assoc]
    rfl

theorem joinLoop_plenty (h : Plenty alloc vec) (cap : Nat) (cs : List (List Byte)) :
    ∀ acc : List (List Byte), acc.length + cs.length ≤ cap → joinLoop alloc cap acc cs = .ok (acc ++ cs) := by
  induction cs with
  | nil => intro acc _; rw [joinLoop, List.append_nil]
  | cons c cs ih =>
    intro acc hl
    rw [List.length_cons] at hl
    rw [joinLoop, text_make_plenty h]
    simp only
    rw [if_neg (by omega), ih _ (by simp; omega), List.append_assoc]
    rfl

theorem make_plenty (h : Plenty alloc vec) (args : List Arg) :
    Path.make alloc vec args = .ok (.ofVector (args.flatMap Arg.comps).length (args.flatMap Arg.comps)) := by
  have hc : (args.map fun a => a.comps.length).sum = (args.flatMap Arg.comps).length := by
    rw [List.length_flatMap]
  rw [Path.make]
  simp only [hc, h.vec]
  rw [joinLoop_plenty h _ _ [] (by simp)]
  rfl

end Solace.Path
