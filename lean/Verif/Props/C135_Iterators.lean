import Verif.Lemmas.Iterators
/-
C135: iterator variables are positions. For each class of iterators of the library: any program that declares, copies, moves, assigns,
advances, compares and dereferences any number of them for one container sees what it would see if the variables held positions in the
sequence of items. A variable that was moved from may hold anything; a position at the end is neither advanced nor dereferenced.
-/
namespace Solace.Iterators
open Spec

/-! ### The classes -/

/-- **C135**, encoding to hexadecimal: the items are the pairs of digits of the bytes. -/
theorem C135_encode (src : List Byte) : LikePositions (hexEncode src) (src.map fun b => Hex.text [b]) := by
  have : (src.map fun b => Hex.text [b]) = src.map Base16.hexPair :=
    List.map_congr_left fun b _ => by rw [Base16.hexPair_eq]; rfl
  rw [this]
  exact likePositions (hexEncode_lawful src)

/-- **C135**, decoding from hexadecimal, for texts on which the iterator is defined (C11): the items are the bytes of the longest run of
pairs of digits. -/
theorem C135_decode (text : List Byte) (h : ¬Base16.FirstBadIsWide text) :
    ∃ p bytes rest, text = p ++ rest ∧ Hex.parse p = some bytes ∧
      (∀ a b r, rest = a :: b :: r → ¬(Hex.IsDigit a ∧ Hex.IsDigit b)) ∧ LikePositions (hexDecode text) bytes := by
  obtain ⟨p, bytes, rest, rfl, hp, hr⟩ := Base16.split_text text
  have hfb := Base16.firstBad_iff p bytes rest hp hr
  refine ⟨p, bytes, rest, rfl, hp, ?_, ?_⟩
  · rintro a b r rfl
    rcases hr with e | ⟨x, e⟩ | ⟨x, y, r', e, hn⟩
    · cases e
    · cases e
    · cases e; exact hn
  · refine likePositions (hexDecode_lawful p bytes rest hp ?_)
    rcases hr with e | ⟨x, e⟩ | ⟨x, y, r', e, hn⟩
    · exact .inl e
    · exact .inr (.inl ⟨x, e⟩)
    · exact .inr (.inr ⟨x, y, r', e, hn, fun hw => h (hfb.mpr ⟨x, y, r', e, hw⟩)⟩)

/-- **C135**, variable spans: the items are the chunks. -/
theorem C135_span (constant host : Bool) (n : Nat) (enc : VariableSpan.Enc) (chunks : List (List Byte)) (after : List Byte)
    (hcount : chunks.length < 2 ^ 16) (hc : ∀ c ∈ chunks, c.length < 256 ^ n)
    (hdata : (VariableSpan.encode host n enc chunks ++ after).length < 2 ^ 64) :
    LikePositions (span constant host n enc chunks.length (VariableSpan.encode host n enc chunks ++ after)) chunks :=
  likePositions (span_lawful constant host n enc chunks after hcount hc hdata)

/-- **C135**, dictionaries, for every history of puts: the items are the entries that fitted, in the order of the puts. -/
theorem C135_dictionary {K V : Type} (szK szV kb vb : Nat) (hK : 0 < szK) (hV : 0 < szV) (hkb : kb < 2 ^ 64) (hvb : vb < 2 ^ 64)
    (ps : List (Dict.Put K V)) :
    LikePositions (dictionary szK szV (Dict.runPuts szK szV (Dict.ofBytes szK szV kb vb) ps).1)
      ((ps.take (min (kb / szK) (vb / szV))).map fun p => (p.key, p.value)) := by
  have h0 : Dict.Entries szK szV (Dict.ofBytes szK szV kb vb : Dict K V) [] :=
    ⟨Dict.holds_ofBytes szK kb hK hkb, Dict.holds_ofBytes szV vb hV hvb⟩
  have hr : Dict.room szK szV (Dict.ofBytes szK szV kb vb : Dict K V) = min (kb / szK) (vb / szV) := rfl
  obtain ⟨h1, -⟩ := Dict.runPuts_spec ps h0
  rw [hr, List.length_nil, Nat.sub_zero, List.nil_append] at h1
  exact likePositions (dictionary_lawful h1)

/-- **C135**, the environment, while it is not changed: the items are the variables the entries are taken for (C65). -/
theorem C135_env (fuel : Nat) (w : EnvIter.World) (h : Env.Fits w.entries) (hf : w.entries.length < fuel) :
    LikePositions (env fuel w) (w.entries.map EnvIter.var) :=
  likePositions (env_lawful fuel w h hf)

/-- **C135**, paths: the items are the components. -/
theorem C135_path (p : Path) (h : p.comps.length < 2 ^ 64) : LikePositions (path p) p.comps := likePositions (path_lawful p h)

/-- **C135**, filtered ranges: the items are the first element, whatever it is (C68), and the matching ones after it. -/
theorem C135_range {α : Type} (fuel : Nat) (xs : List α) (pred : α → Bool) (hf : xs.length ≤ fuel) :
    LikePositions (range fuel xs pred)
      (match (generalizing := false) xs with
        | [] => []
        | x :: rest => x :: rest.filter pred) := by
  have := likePositions (range_lawful fuel xs pred hf)
  rw [RangeView.expected, List.drop_zero] at this
  exact this

/-! ### What follows for programs -/

/-- `n` rounds of a loop with variable 0 up to variable 1. -/
def rounds : Nat → List Op
  | 0 => [.ne 0 1]
  | n + 1 => .ne 0 1 :: .deref 0 :: .next 0 :: rounds n

/-- What such a loop is to see: each item, and then the end. -/
def roundsSee {X : Type} : List X → List (Obs X)
  | [] => [.answer false]
  | x :: xs => .answer true :: .item x :: .nothing :: roundsSee xs

theorem spec_rounds {X : Type} (xs : List X) (eq mv tmp : Bool) : ∀ (ys : List X) (p : Places),
    xs.drop (xs.length - ys.length) = ys → ys.length ≤ xs.length → p 0 = some (some (xs.length - ys.length)) →
    p 1 = some (some xs.length) → Spec.run xs eq mv tmp p (rounds ys.length) = some (roundsSee ys) := by
  intro ys
  induction ys with
  | nil =>
    intro p _ _ h0 h1
    rw [List.length_nil, Nat.sub_zero] at h0
    simp [rounds, roundsSee, Spec.run, Spec.step, Places.pos, h0, h1]
  | cons y ys ih =>
    intro p hd hl h0 h1
    rw [List.length_cons] at hd hl h0
    have hi : xs.length - (ys.length + 1) < xs.length := by omega
    have hg : xs[xs.length - (ys.length + 1)]? = some y := by
      have := congrArg List.head? hd
      rwa [List.head?_drop, List.head?_cons] at this
    have hn : xs.length - (ys.length + 1) + 1 = xs.length - ys.length := by omega
    have hd' : xs.drop (xs.length - ys.length) = ys := by
      have := congrArg List.tail hd
      rwa [List.tail_drop, List.tail_cons, hn] at this
    have hne : xs.length - (ys.length + 1) ≠ xs.length := by omega
    have := ih (p.set 0 (some (xs.length - ys.length))) hd' (by omega) (by simp [Places.set]) (by simp [Places.set, h1])
    simp only [List.length_cons, rounds, roundsSee, Spec.run, Spec.step, Places.pos, h0, h1, Option.join_some, Option.bind_some,
      Option.map_some, hg, if_pos hi, hn, this, decide_eq_true hne]

/-- **C135**, the loop: with any class, `for (auto i = begin(), e = end(); i != e; ++i) f(*i);` sees the items in order. -/
theorem C135_loop {S X : Type} (k : Kind S X) (xs : List X) (h : LikePositions k xs) :
    run k (fun _ => none) (.newBegin 0 :: .newEnd 1 :: rounds xs.length) = .ok (.nothing :: .nothing :: roundsSee xs) := by
  refine h _ _ ?_
  have := spec_rounds xs k.eq.isSome k.moveAssign.isSome k.setTo.isSome xs ((start.set 0 (some 0)).set 1 (some xs.length))
    (by simp) (Nat.le_refl _) (by simp [Places.set]) (by simp [Places.set])
  simp only [Spec.run, Spec.step, Option.bind_some, this, Option.map_some]

/-- **C135**, going again: a copy made before the loop still stands at the beginning, so a second loop sees the same. -/
theorem C135_again {S X : Type} (k : Kind S X) (xs : List X) (h : LikePositions k xs) :
    run k (fun _ => none) (.newBegin 2 :: .copy 0 2 :: .newEnd 1 :: rounds xs.length ++ .copy 0 2 :: rounds xs.length) =
      .ok (.nothing :: .nothing :: .nothing :: roundsSee xs ++ .nothing :: roundsSee xs) := by
  refine h _ _ ?_
  have key : ∀ (ys : List X) (p : Places) (ops : List Op) (os : List (Obs X)),
      xs.drop (xs.length - ys.length) = ys → ys.length ≤ xs.length → p 0 = some (some (xs.length - ys.length)) →
      p 1 = some (some xs.length) →
      (∀ p' : Places, p' 1 = p 1 → p' 2 = p 2 → Spec.run xs k.eq.isSome k.moveAssign.isSome k.setTo.isSome p' ops = some os) →
      Spec.run xs k.eq.isSome k.moveAssign.isSome k.setTo.isSome p (rounds ys.length ++ ops) = some (roundsSee ys ++ os) := by
    intro ys
    induction ys with
    | nil =>
      intro p ops os _ _ h0 h1 hk
      rw [List.length_nil, Nat.sub_zero] at h0
      simp [rounds, roundsSee, Spec.run, Spec.step, Places.pos, h0, h1, hk p rfl rfl]
    | cons y ys ih =>
      intro p ops os hd hl h0 h1 hk
      rw [List.length_cons] at hd hl h0
      have hi : xs.length - (ys.length + 1) < xs.length := by omega
      have hg : xs[xs.length - (ys.length + 1)]? = some y := by
        have := congrArg List.head? hd
        rwa [List.head?_drop, List.head?_cons] at this
      have hn : xs.length - (ys.length + 1) + 1 = xs.length - ys.length := by omega
      have hd' : xs.drop (xs.length - ys.length) = ys := by
        have := congrArg List.tail hd
        rwa [List.tail_drop, List.tail_cons, hn] at this
      have hne : xs.length - (ys.length + 1) ≠ xs.length := by omega
      have := ih (p.set 0 (some (xs.length - ys.length))) ops os hd' (by omega) (by simp [Places.set]) (by simp [Places.set, h1])
        (fun p' e1 e2 => hk p' (by rw [e1]; simp [Places.set]) (by rw [e2]; simp [Places.set]))
      simp only [List.length_cons, rounds, roundsSee, Spec.run, Spec.step, Places.pos, h0, h1, Option.join_some, Option.bind_some,
        Option.map_some, hg, if_pos hi, hn, this, decide_eq_true hne, List.cons_append]
  have := key xs (((start.set 2 (some 0)).set 0 (some 0)).set 1 (some xs.length)) (.copy 0 2 :: rounds xs.length)
    (.nothing :: roundsSee xs) (by simp) (Nat.le_refl _) (by simp [Places.set]) (by simp [Places.set]) (by
      intro p' e1 e2
      have e2' : p' 2 = some (some 0) := by rw [e2]; simp [Places.set]
      have := spec_rounds xs k.eq.isSome k.moveAssign.isSome k.setTo.isSome xs (p'.set 0 (some 0)) (by simp) (Nat.le_refl _)
        (by simp [Places.set]) (by simp [Places.set, e1])
      simp only [Spec.run, Spec.step, Places.pos, e2', Option.join_some, Option.map_some, Option.bind_some, this])
  have h2 : (start.set 2 (some 0)) 2 = some (some 0) := rfl
  simp only [List.cons_append] at this ⊢
  simp only [Spec.run, Spec.step, Option.bind_some, Places.pos, h2, Option.join_some, Option.map_some, this]

/-! ### What does not hold -/

/-- An iterator that was moved from may still compare equal to the one it was moved to, and yet not be dereferenced: the view inside is
gone, the index is not. -/
theorem C135_moved_from_equal :
    let w : Vars Path.Iter := fun _ => none
    run (path ⟨false, [[0x61#8]]⟩) w [.newBegin 0, .move 1 0, .eq 0 1, .deref 1] =
      .ok [.nothing, .nothing, .answer true, .item [0x61#8]] ∧
    run (path ⟨false, [[0x61#8]]⟩) w [.newBegin 0, .move 1 0, .eq 0 1, .deref 0] = .throws := by
  decide +kernel

/-- Iterators of different containers compare equal: of paths (by the index), of spans (by the number of items left). -/
theorem C135_foreign_equal :
    (∃ p q : Path, p.comps ≠ q.comps ∧ p.begin'.eq q.begin' = true) ∧
    (∃ (a b : VariableSpan.Iter) (f : VariableSpan.Iter → VariableSpan.Iter → Bool),
      (span true false 1 .little 1 [1#8, 7#8]).eq = some f ∧ (span true false 1 .little 1 [1#8, 7#8]).begin' = .ok a ∧
      (span true false 1 .little 1 [1#8, 8#8]).begin' = .ok b ∧ f a b = true ∧
      a.deref false 1 .little ≠ b.deref false 1 .little) := by
  refine ⟨⟨⟨false, [[0x61#8]]⟩, ⟨false, [[0x62#8]]⟩, by decide +kernel, by decide +kernel⟩, ?_⟩
  exact ⟨⟨1, [1#8, 7#8]⟩, ⟨1, [1#8, 8#8]⟩, fun a b => a.nElements == b.nElements, rfl, rfl, rfl, rfl, by decide +kernel⟩

/-- Move assignment of the iterators of dictionaries, the environment and paths exchanges the two. -/
theorem C135_exchanged {K V : Type} (szK szV fuel : Nat) (d : Dict K V) (w : EnvIter.World) (p : Path) :
    (∃ f, (dictionary szK szV d).moveAssign = some f ∧ ∀ a b, f a b = (b, a)) ∧
    (∃ f, (env fuel w).moveAssign = some f ∧ ∀ a b, f a b = (b, a)) ∧
    (∃ f, (path p).moveAssign = some f ∧ ∀ a b, f a b = (b, a)) :=
  ⟨⟨_, rfl, fun _ _ => rfl⟩, ⟨_, rfl, fun _ _ => rfl⟩, ⟨_, rfl, fun _ _ => rfl⟩⟩

/-! ### Instances -/

-- two variables over "a", "b": one is copied, the copy stays behind, and then catches up
example :
    let p : Path := ⟨false, [[0x61#8], [0x62#8]]⟩
    let ops : List Op := [.newBegin 0, .copy 1 0, .next 0, .deref 0, .deref 1, .ne 0 1, .next 1, .eq 0 1, .setEnd 1, .ne 0 1,
      .moveAssign 0 1, .newEnd 2, .eq 0 2]
    let os : List (Obs (List Byte)) := [.nothing, .nothing, .nothing, .item [0x62#8], .item [0x61#8], .answer true, .nothing,
      .answer true, .nothing, .answer true, .nothing, .nothing, .answer true]
    p.comps.length < 2 ^ 64 ∧ Spec.run p.comps true true true start ops = some os ∧ run (path p) (fun _ => none) ops = .ok os := by
  decide +kernel

-- "4bzz": one byte; the iterator behind it is the end
example :
    let text : List Byte := [0x34#8, 0x62#8, 0x7A#8, 0x7A#8]
    Hex.parse [0x34#8, 0x62#8] = some [0x4B#8] ∧
    run (hexDecode text) (fun _ => none) [.newBegin 0, .copy 1 0, .newEnd 2, .next 0, .eq 0 2, .deref 1] =
      .ok [.nothing, .nothing, .nothing, .nothing, .answer true, .item 0x4B#8] ∧ ¬Base16.FirstBadIsWide text := by
  refine ⟨by decide +kernel, by decide +kernel, ?_⟩
  have := Base16.firstBad_iff [0x34#8, 0x62#8] [0x4B#8] [0x7A#8, 0x7A#8] (by decide +kernel)
    (.inr (.inr ⟨_, _, _, rfl, by decide +kernel⟩))
  rw [List.cons_append, List.cons_append, List.nil_append] at this
  show ¬Base16.FirstBadIsWide [0x34#8, 0x62#8, 0x7A#8, 0x7A#8]
  rw [this]
  rintro ⟨a, b, r, e, h⟩
  cases e
  revert h
  decide

-- chunks of two and of no bytes
example :
    let chunks : List (List Byte) := [[7#8, 8#8], []]
    chunks.length < 2 ^ 16 ∧ (∀ c ∈ chunks, c.length < 256 ^ 2) ∧
    (VariableSpan.encode false 2 .big chunks ++ [9#8]).length < 2 ^ 64 ∧
    run (span true false 2 .big 2 (VariableSpan.encode false 2 .big chunks ++ [9#8])) (fun _ => none)
      [.newBegin 0, .newEnd 1, .copy 2 0, .next 0, .deref 0, .deref 2, .next 0, .eq 0 1, .setBegin 0, .eq 0 2] =
      .ok [.nothing, .nothing, .nothing, .nothing, .item [], .item [7#8, 8#8], .nothing, .answer true, .nothing, .answer true] := by
  decide +kernel

-- elements above 2 among 1, 3, 2, 4, and the first one
example : run (range 9 [1, 3, 2, 4] (fun x => decide (2 < x))) (fun _ => none)
    [.newBegin 0, .newEnd 1, .deref 0, .next 0, .deref 0, .next 0, .deref 0, .ne 0 1, .next 0, .ne 0 1] =
    .ok [.nothing, .nothing, .item 1, .nothing, .item 3, .nothing, .item 4, .answer true, .nothing, .answer false] := by
  decide +kernel

-- room for two entries: the third put is refused and not met
example : run (dictionary 1 2 (Dict.runPuts 1 2 (Dict.ofBytes 1 2 5 4 : Dict Nat Nat) [⟨1, 10⟩, ⟨2, 20⟩, ⟨3, 30⟩]).1) (fun _ => none)
    [.newBegin 0, .newEnd 1, .next 0, .deref 0, .next 0, .eq 0 1] =
    .ok [.nothing, .nothing, .nothing, .item (2, 20), .nothing, .answer true] := by
  decide +kernel

-- an environment of two entries
example :
    let w : EnvIter.World := ⟨[[0x41#8, 0x3D#8, 0x31#8], [0x42#8, 0x3D#8]], 1⟩
    Env.Fits w.entries ∧ w.entries.length < 3 ∧
    run (env 3 w) (fun _ => none) [.newBegin 0, .newEnd 1, .copy 2 0, .next 2, .deref 0, .next 2, .eq 1 2, .ne 0 2] =
      .ok [.nothing, .nothing, .nothing, .nothing, .item ⟨[0x41#8], [0x31#8]⟩, .nothing, .answer true, .answer true] := by
  refine ⟨⟨by decide, by decide⟩, by decide, ?_⟩
  decide +kernel

end Solace.Iterators
