import Verif.Props.C51_Exact
import Verif.Props.C52_PathContains
import Verif.Props.C53_C54_PathParts
/-
C109: joining, cutting, comparing and normalising paths agree with each other.
-/
namespace Solace.Path
open Strings StringView Str

variable {alloc : Nat → Except Err MutView} {vec : Nat → Except Err Unit}

/-- A path as the library makes it: it has no buffer exactly when it has no components. (Only `normalize` makes others, C51.) -/
def Sound (p : Path) : Prop := p.noBuffer = true ↔ p.comps = []

theorem Sound.eq {p q : Path} (hp : Sound p) (hq : Sound q) (h : p.comps = q.comps) : p = q := by
  obtain ⟨b, cs⟩ := p
  obtain ⟨b', cs'⟩ := q
  obtain rfl : cs = cs' := h
  have : b = b' := by rw [Bool.eq_iff_iff]; exact hp.trans hq.symm
  rw [this]

theorem ofVector_sound (cs : List (List Byte)) : Sound (ofVector cs.length cs) := by
  simp [Sound, ofVector]

/-! ### Joining -/

/-- **C109**: joining is associative, and joining three paths is joining them one by one (memory available). -/
theorem C109_join_assoc (h : Plenty alloc vec) (p q r : Path) :
    ∃ pq qr x, Path.make alloc vec [.path p, .path q] = .ok pq ∧ Path.make alloc vec [.path q, .path r] = .ok qr ∧
      Path.make alloc vec [.path pq, .path r] = .ok x ∧ Path.make alloc vec [.path p, .path qr] = .ok x ∧
      Path.make alloc vec [.path p, .path q, .path r] = .ok x := by
  refine ⟨_, _, _, make_plenty h _, make_plenty h _, make_plenty h _, ?_, ?_⟩
  · rw [make_plenty h]
    simp [Arg.comps, ofVector]
  · rw [make_plenty h]
    simp [Arg.comps, ofVector]

/-- **C109**: the path without components is neutral (memory available). -/
theorem C109_join_none (h : Plenty alloc vec) (p : Path) (hp : Sound p) :
    Path.make alloc vec [.path p, .path Path.none] = .ok p ∧ Path.make alloc vec [.path Path.none, .path p] = .ok p := by
  constructor
  · rw [make_plenty h]
    refine congrArg Except.ok (Sound.eq (ofVector_sound _) hp ?_)
    simp [Arg.comps, ofVector, Path.none]
  · rw [make_plenty h]
    refine congrArg Except.ok (Sound.eq (ofVector_sound _) hp ?_)
    simp [Arg.comps, ofVector, Path.none]

/-- **C109**: joining can be undone on either side: with the same left (right) part, equal results have equal right (left)
parts (whatever the memory does). -/
theorem C109_join_cancel (ha : AllocOk alloc) (p q r x y : Path) (hx : equals x y = true) :
    (Path.make alloc vec [.path p, .path q] = .ok x → Path.make alloc vec [.path p, .path r] = .ok y → equals q r = true) ∧
    (Path.make alloc vec [.path q, .path p] = .ok x → Path.make alloc vec [.path r, .path p] = .ok y → equals q r = true) := by
  rw [equals_iff_comps] at hx
  have key : ∀ (args : List Arg) (z : Path), Path.make alloc vec args = .ok z → z.comps = args.flatMap Arg.comps := by
    intro args z hz
    rcases C53_make (vec := vec) ha args with ⟨e, he⟩ | ⟨w, hw, hc⟩
    · rw [hz] at he; cases he
    · rw [hz] at hw
      injection hw with hw
      rw [hw, hc]
  refine ⟨fun h1 h2 => ?_, fun h1 h2 => ?_⟩
  all_goals
    have e1 := key _ _ h1
    have e2 := key _ _ h2
    rw [hx, e2] at e1
    simp only [List.flatMap_cons, List.flatMap_nil, List.append_nil, Arg.comps] at e1
    rw [equals_iff_comps]
  · exact (List.append_cancel_left e1).symm
  · exact (List.append_cancel_right e1).symm

theorem chars_append_left (cs ds : List (List Byte)) (hc : cs ≠ []) (hd : ds ≠ []) :
    chars cs ≤ chars (cs ++ ds) ∧ chars ds ≤ chars (cs ++ ds) := by
  have h1 := List.length_pos_iff.mpr hc
  have h2 := List.length_pos_iff.mpr hd
  have hne : cs ++ ds ≠ [[]] := by
    intro e
    have := congrArg List.length e
    simp at this
    omega
  have e : chars (cs ++ ds) = cs.length + ds.length - 1 + ((cs.map List.length).sum + (ds.map List.length).sum) := by
    rw [chars, if_neg hne, List.length_append, List.map_append, List.sum_append]
  have u : ∀ l : List (List Byte), chars l ≤ max 1 (l.length - 1 + (l.map List.length).sum) := by
    intro l
    rw [chars]
    split <;> omega
  have := u cs
  have := u ds
  omega

/-- **C109**: a joined path starts with its left part, ends with its right part, contains both and is absolute exactly when its
left part is (texts shorter than 65536). -/
theorem C109_join_parts (h : Plenty alloc vec) (cs ds : List (List Byte)) (hc : cs ≠ []) (hd : ds ≠ [])
    (ht : (meant [0x2F#8] (cs ++ ds)).length < 2 ^ 16) (hn : (cs ++ ds).length < 2 ^ 64) :
    ∃ x, Path.make alloc vec [.path ⟨false, cs⟩, .path ⟨false, ds⟩] = .ok x ∧
      startsWith x ⟨false, cs⟩ = .ok true ∧ endsWith x ⟨false, ds⟩ = .ok true ∧
      contains x ⟨false, cs⟩ = .ok true ∧ contains x ⟨false, ds⟩ = .ok true ∧
      isAbsolute x = isAbsolute ⟨false, cs⟩ := by
  have hx : cs ++ ds ≠ [] := by simp [hc]
  have h1 := List.length_pos_iff.mpr hc
  have h2 := List.length_pos_iff.mpr hd
  have hroot : cs ++ ds ≠ [[]] := by
    intro e
    have := congrArg List.length e
    simp at this
    omega
  have hl := chars_append_left cs ds hc hd
  rw [← chars_meant, ← chars_meant, ← chars_meant] at hl
  rw [List.length_append] at hn
  refine ⟨⟨false, cs ++ ds⟩, ?_, ?_, ?_, ?_, ?_, ?_⟩
  · rw [make_plenty h]
    simp only [List.flatMap_cons, List.flatMap_nil, List.append_nil, Arg.comps]
    rw [ofVector_eq _ hx]
  · obtain ⟨b, e, hb⟩ := C52_startsWith_partial (cs ++ ds) cs ht (by omega) (fun hh => hroot hh.1)
    rw [e, hb.mpr (.inl (List.prefix_append cs ds))]
  · obtain ⟨b, e, hb⟩ := C52_endsWith_partial (cs ++ ds) ds ht (by omega) (by simp; omega) (by omega) (fun hh => hroot hh.1)
    rw [e, hb.mpr (.inl (List.suffix_append cs ds))]
  · obtain ⟨b, e, hb⟩ := C52_contains_partial ⟨false, cs ++ ds⟩ ⟨false, cs⟩ hc
    rw [e, hb.mpr (List.prefix_append cs ds).isInfix]
  · obtain ⟨b, e, hb⟩ := C52_contains_partial ⟨false, cs ++ ds⟩ ⟨false, ds⟩ hd
    rw [e, hb.mpr (List.suffix_append cs ds).isInfix]
  · cases cs with
    | nil => exact absurd rfl hc
    | cons c cs => rfl

theorem intercalate_append (d : List Byte) (cs ds : List (List Byte)) (hc : cs ≠ []) (hd : ds ≠ []) :
    d.intercalate (cs ++ ds) = d.intercalate cs ++ d ++ d.intercalate ds := by
  have step : ∀ (c : List Byte) (l : List (List Byte)), l ≠ [] → d.intercalate (c :: l) = c ++ d ++ d.intercalate l := by
    intro c l hl
    cases l with
    | nil => exact absurd rfl hl
    | cons x l => simp [List.intercalate, List.intersperse]
  induction cs with
  | nil => exact absurd rfl hc
  | cons c cs ih =>
    rw [List.cons_append, step c (cs ++ ds) (by simp [hd])]
    cases cs with
    | nil => simp [List.intercalate]
    | cons x cs => rw [ih (by simp), step c (x :: cs) (by simp)]; simp

/-- **C109**: the text of a joined path is the texts of the parts with the delimiter between them; the root adds nothing but the
delimiter on the left, and a second delimiter on the right (texts shorter than 65536, memory available). -/
theorem C109_join_text (h : Plenty alloc vec) (d : List Byte) (hd16 : d.length < 2 ^ 16) (cs ds : List (List Byte)) (hc : cs ≠ [])
    (hd : ds ≠ []) (ht : (meant d (cs ++ ds)).length < 2 ^ 16) (hn : (cs ++ ds).length < 2 ^ 64) :
    ∃ x a b t, Path.make alloc vec [.path ⟨false, cs⟩, .path ⟨false, ds⟩] = .ok x ∧
      toString alloc ⟨false, cs⟩ d = .ok a ∧ toString alloc ⟨false, ds⟩ d = .ok b ∧ toString alloc x d = .ok t ∧
      (cs ≠ [[]] → ds ≠ [[]] → t = a ++ d ++ b) ∧ (cs = [[]] → ds ≠ [[]] → t = d ++ b) ∧ (cs ≠ [[]] → ds = [[]] → t = a ++ d) ∧
      (cs = [[]] → ds = [[]] → t = d) := by
  have hx : cs ++ ds ≠ [] := by simp [hc]
  have h1 := List.length_pos_iff.mpr hc
  have h2 := List.length_pos_iff.mpr hd
  have hroot : cs ++ ds ≠ [[]] := by
    intro e
    have := congrArg List.length e
    simp at this
    omega
  have hi := intercalate_append d cs ds hc hd
  have e0 : meant d (cs ++ ds) = d.intercalate (cs ++ ds) := by rw [meant, if_neg hroot]
  have er : d.intercalate [([] : List Byte)] = [] := by simp [List.intercalate]
  have hlen : (d.intercalate cs).length + d.length + (d.intercalate ds).length < 2 ^ 16 := by
    rw [e0, hi] at ht
    simpa [Nat.add_assoc] using ht
  have hm : ∀ l : List (List Byte), (d.intercalate l).length < 2 ^ 16 → (meant d l).length < 2 ^ 16 := by
    intro l hl
    rw [meant]
    split
    · exact hd16
    · exact hl
  rw [List.length_append] at hn
  refine ⟨⟨false, cs ++ ds⟩, meant d cs, meant d ds, meant d (cs ++ ds), ?_, ?_, ?_, ?_, ?_, ?_, ?_, ?_⟩
  · rw [make_plenty h]
    simp only [List.flatMap_cons, List.flatMap_nil, List.append_nil, Arg.comps]
    rw [ofVector_eq _ hx]
  · rw [toString_eq h d cs hc (by omega) hd16, if_pos (hm cs (by omega))]
  · rw [toString_eq h d ds hd (by omega) hd16, if_pos (hm ds (by omega))]
  · rw [toString_eq h d (cs ++ ds) hx (by rw [List.length_append]; omega) hd16, if_pos ht]
  · intro n1 n2
    rw [e0, hi, meant, if_neg n1, meant, if_neg n2]
  · intro n1 n2
    rw [e0, hi, n1, er, List.nil_append, meant, if_neg n2]
  · intro n1 n2
    rw [e0, hi, n2, er, List.append_nil, meant, if_neg n1]
  · intro n1 n2
    rw [e0, hi, n1, n2, er]
    simp

/-! ### Cutting -/

theorem subpath_eq (h : Plenty alloc vec) (p : Path) (a b : Nat) :
    ∃ q, subpath alloc vec p a b = .ok q ∧ q.comps = (p.comps.drop a).take (b - a) ∧ Sound q := by
  let f := min a p.comps.length
  let t := max f (min b p.comps.length)
  have hft : f ≤ t := Nat.le_max_left _ _
  have htn : t ≤ p.comps.length := by simp only [t, f]; omega
  obtain ⟨q, hq, hc⟩ := subpath_comps h p f t hft htn
  have hs : subpath alloc vec p a b = subpath alloc vec p f t := by
    have e1 : min f p.comps.length = min a p.comps.length := by simp only [f]; omega
    have e2 : max (min a p.comps.length) (min t p.comps.length) = max (min a p.comps.length) (min b p.comps.length) := by
      simp only [t, f]; omega
    rw [subpath, subpath]
    simp only [e1, e2]
  refine ⟨q, hs.trans hq, ?_, ?_⟩
  · rw [hc]
    by_cases ha : a ≤ p.comps.length
    · have ef : f = a := by simp only [f]; omega
      rw [ef]
      by_cases hb : b ≤ p.comps.length
      · have : t - a = b - a := by simp only [t, f]; omega
        rw [this]
      · have : t - a = p.comps.length - a := by simp only [t, f]; omega
        rw [this, List.take_of_length_le (by simp), List.take_of_length_le (by simp; omega)]
    · have ef : f = p.comps.length := by simp only [f]; omega
      rw [ef, List.drop_of_length_le (Nat.le_refl _), List.drop_of_length_le (by omega)]
      simp
  · have hb : q.noBuffer = (t - f == 0) := by
      rw [subpath] at hq
      have e1 : min f p.comps.length = f := by omega
      have e2 : max f (min t p.comps.length) = t := by omega
      simp only [e1, e2, h.vec] at hq
      injection hq with hq
      rw [← hq]; rfl
    rw [Sound, hb, hc, beq_iff_eq]
    constructor
    · intro h0; rw [h0, List.take_zero]
    · intro h0
      have := congrArg List.length h0
      rw [List.length_take, List.length_drop, List.length_nil] at this
      omega

/-- **C109**: a sub-path of a sub-path is a sub-path; the whole range gives the path; what is cut out is contained (memory
available). -/
theorem C109_subpath (h : Plenty alloc vec) (p : Path) (hp : Sound p) (a b c d : Nat) :
    ∃ q, subpath alloc vec p a b = .ok q ∧
      subpath alloc vec q c d = subpath alloc vec p (a + c) (min (a + d) b) ∧
      subpath alloc vec p 0 p.comps.length = .ok p ∧
      (q.comps ≠ [] → contains p q = .ok true) := by
  obtain ⟨q, hq, hc, _⟩ := subpath_eq h p a b
  refine ⟨q, hq, ?_, ?_, ?_⟩
  · obtain ⟨x, hx, hxc, hxs⟩ := subpath_eq h q c d
    obtain ⟨y, hy, hyc, hys⟩ := subpath_eq h p (a + c) (min (a + d) b)
    rw [hx, hy]
    refine congrArg Outcome.ok (hxs.eq hys ?_)
    rw [hxc, hyc, hc, List.drop_take, List.take_take, List.drop_drop]
    congr 1
    omega
  · obtain ⟨x, hx, hxc, hxs⟩ := subpath_eq h p 0 p.comps.length
    rw [hx]
    refine congrArg Outcome.ok (hxs.eq hp ?_)
    rw [hxc, List.drop_zero, Nat.sub_zero, List.take_length]
  · intro hne
    obtain ⟨r, e, hr⟩ := C52_contains_partial p q hne
    rw [e, hr.mpr ?_]
    rw [hc]
    exact (List.take_prefix _ _).isInfix.trans (List.drop_suffix _ _).isInfix

/-! ### Relations -/

/-- **C109**: `equals` is an equivalence; `contains` is a partial order up to it (paths with components). -/
theorem C109_relations (p q r : Path) (hp : p.comps ≠ []) (hq : q.comps ≠ []) (hr : r.comps ≠ []) :
    equals p p = true ∧ equals p q = equals q p ∧ (equals p q = true → equals q r = true → equals p r = true) ∧
    contains p p = .ok true ∧
    (contains p q = .ok true → contains q r = .ok true → contains p r = .ok true) ∧
    (contains p q = .ok true → contains q p = .ok true → equals p q = true) ∧
    (equals p q = true → contains p r = contains q r ∧ contains r p = contains r q) := by
  have hc : ∀ x y : Path, y.comps ≠ [] → (contains x y = .ok true ↔ y.comps <:+: x.comps) := by
    intro x y hy
    obtain ⟨b, e, hb⟩ := C52_contains_partial x y hy
    rw [e, ← hb]
    exact ⟨fun h => by injection h, fun h => by rw [h]⟩
  have ext : ∀ x y x' y' : Path, y.comps ≠ [] → x.comps = x'.comps → y.comps = y'.comps → contains x y = contains x' y' := by
    intro x y x' y' hy h1 h2
    obtain ⟨b, e, hb⟩ := C52_contains_partial x y hy
    obtain ⟨b', e', hb'⟩ := C52_contains_partial x' y' (by rw [← h2]; exact hy)
    rw [h1, h2] at hb
    have : b = b' := by rw [Bool.eq_iff_iff, hb, hb']
    rw [e, e', this]
  refine ⟨(equals_iff_comps p p).mpr rfl, ?_, ?_, (hc p p hp).mpr List.infix_rfl, ?_, ?_, ?_⟩
  · rw [Bool.eq_iff_iff, equals_iff_comps, equals_iff_comps]
    exact eq_comm
  · rw [equals_iff_comps, equals_iff_comps, equals_iff_comps]
    exact Eq.trans
  · rw [hc p q hq, hc q r hr, hc p r hr]
    exact fun h1 h2 => h2.trans h1
  · rw [hc p q hq, hc q p hp, equals_iff_comps]
    intro h1 h2
    exact h2.sublist.eq_of_length_le h1.sublist.length_le
  · rw [equals_iff_comps]
    intro e
    exact ⟨ext p r q r hr e rfl, ext r p r q hp rfl e⟩

/-! ### Normalising -/

/-- The loop of `normalize` when there is room for everything. -/
def norm : List (List Byte) → List (List Byte) → List (List Byte)
  | acc, [] => acc
  | acc, c :: cs =>
    if c = selfRef then norm acc cs
    else if c = parentRef ∧ acc ≠ [] then norm acc.dropLast cs
    else norm (acc ++ [c]) cs

theorem normalizeLoop_norm (h : Plenty alloc vec) (cap : Nat) (cs : List (List Byte)) : ∀ acc, acc.length + cs.length ≤ cap →
    normalizeLoop alloc cap acc cs = norm acc cs := by
  induction cs with
  | nil => intro acc _; rfl
  | cons c cs ih =>
    intro acc hl
    rw [List.length_cons] at hl
    rw [norm]
    by_cases h1 : c = selfRef
    · rw [if_pos h1, h1, normalizeLoop_self]; exact ih acc (by omega)
    · rw [if_neg h1]
      by_cases h2 : c = parentRef ∧ acc ≠ []
      · rw [if_pos h2, h2.1, normalizeLoop_parent _ _ _ h2.2]
        exact ih _ (by rw [List.length_dropLast]; omega)
      · rw [if_neg h2, normalizeLoop_push _ _ _ _ h1 (fun e => Classical.byContradiction fun hn => h2 ⟨e, hn⟩),
          copyTo_plenty h cap acc c (by omega)]
        exact ih _ (by simp; omega)

theorem normalize_comps (h : Plenty alloc vec) (p : Path) : (normalize alloc vec p).comps = norm [] p.comps := by
  rw [normalize, h.vec]
  exact normalizeLoop_norm h _ _ _ (by simp)

theorem norm_append (cs ds : List (List Byte)) : ∀ acc, norm acc (cs ++ ds) = norm (norm acc cs) ds := by
  induction cs with
  | nil => intro acc; rfl
  | cons c cs ih =>
    intro acc
    rw [List.cons_append, norm, norm]
    split
    · exact ih _
    · split <;> exact ih _

theorem norm_length (cs : List (List Byte)) : ∀ acc, (norm acc cs).length ≤ acc.length + cs.length := by
  induction cs with
  | nil => intro acc; exact Nat.le_refl _
  | cons c cs ih =>
    intro acc
    rw [norm, List.length_cons]
    split
    · have := ih acc; omega
    · split
      · have := ih acc.dropLast; rw [List.length_dropLast] at this; omega
      · have := ih (acc ++ [c]); rw [List.length_append, List.length_singleton] at this; omega

theorem join_comps (h : Plenty alloc vec) (p q : Path) :
    ∃ x, Path.make alloc vec [.path p, .path q] = .ok x ∧ x.comps = p.comps ++ q.comps := by
  refine ⟨_, make_plenty h _, ?_⟩
  simp [ofVector, Arg.comps]

/-- **C109**: normalising the left part first makes no difference (memory available). -/
theorem C109_normalize_left (h : Plenty alloc vec) (p q : Path) :
    ∃ x y, Path.make alloc vec [.path p, .path q] = .ok x ∧
      Path.make alloc vec [.path (normalize alloc vec p), .path q] = .ok y ∧
      equals (normalize alloc vec x) (normalize alloc vec y) = true := by
  obtain ⟨x, hx, hxc⟩ := join_comps h p q
  obtain ⟨y, hy, hyc⟩ := join_comps h (normalize alloc vec p) q
  refine ⟨x, y, hx, hy, ?_⟩
  have hid := (C51_idempotent h p).1
  rw [normalize_comps h, normalize_comps h] at hid
  rw [equals_iff_comps, normalize_comps h, normalize_comps h, hxc, hyc, norm_append, norm_append, normalize_comps h, hid]

/-- Where the walk ends above a stack `acc`, at most one step of it taken away. -/
def base (acc : List (List Byte)) (ups : Nat) : List (List Byte) :=
  if ups = 0 then acc else if acc = [] then [parentRef] else acc.dropLast

theorem norm_walk (acc cs : List (List Byte)) : ∀ ups place, ups ≤ 1 → StaysBelow (1 - ups + place.length) cs →
    norm (base acc ups ++ place) cs = base acc (normalWalk ups place cs).1 ++ (normalWalk ups place cs).2 ∧
      (normalWalk ups place cs).1 ≤ 1 := by
  induction cs with
  | nil => intro ups place hu _; exact ⟨rfl, hu⟩
  | cons c cs ih =>
    intro ups place hu hs
    rw [norm, normalWalk]
    by_cases h1 : c = selfRef
    · rw [if_pos h1, if_pos h1]
      subst h1
      exact ih ups place hu (hs.tail (by simp [ordinary_self]))
    · rw [if_neg h1, if_neg h1]
      by_cases h2 : c = parentRef
      · subst h2
        have hpos : 1 ≤ 1 - ups + place.length := by
          have := hs 1
          simpa [ordinary_parent] using this
        rw [if_pos rfl]
        by_cases h3 : place = []
        · subst h3
          have hu0 : ups = 0 := by simp at hpos; omega
          subst hu0
          rw [if_pos rfl, List.append_nil]
          have hb : (if parentRef = parentRef ∧ base acc 0 ≠ [] then norm (base acc 0).dropLast cs
              else norm (base acc 0 ++ [parentRef]) cs) = norm (base acc 1 ++ []) cs := by
            rw [List.append_nil]
            simp only [base, if_true, true_and, Nat.one_ne_zero, if_false]
            by_cases ha : acc = []
            · simp [ha]
            · simp [ha]
          rw [hb]
          refine ih 1 [] (Nat.le_refl _) (hs.tail ?_)
          simp [ordinary_parent]
        · have := List.length_pos_iff.mpr h3
          rw [if_neg h3, if_pos ⟨rfl, by simp [h3]⟩, List.dropLast_append_of_ne_nil h3]
          refine ih ups place.dropLast hu (hs.tail ?_)
          simp [ordinary_parent]
          omega
      · have c4 : ordinary c = true := by simp [ordinary, h1, h2]
        rw [if_neg (fun hh => h2 hh.1), if_neg h2, List.append_assoc]
        refine ih ups (place ++ [c]) hu (hs.tail ?_)
        simp [c4]
        omega

theorem walk_ordinary (cs : List (List Byte)) : ∀ ups place, (∀ c ∈ place, ordinary c = true) →
    ∀ c ∈ (normalWalk ups place cs).2, ordinary c = true := by
  induction cs with
  | nil => intro ups place hp; exact hp
  | cons c cs ih =>
    intro ups place hp
    rw [normalWalk]
    by_cases h1 : c = selfRef
    · rw [if_pos h1]; exact ih ups place hp
    · rw [if_neg h1]
      by_cases h2 : c = parentRef
      · rw [if_pos h2]
        by_cases h3 : place = []
        · rw [if_pos h3]; exact ih _ [] (fun x hx => by cases hx)
        · rw [if_neg h3]; exact ih _ _ (fun x hx => hp x (mem_dropLast hx))
      · rw [if_neg h2]
        refine ih _ _ fun x hx => ?_
        rcases List.mem_append.mp hx with hx | hx
        · exact hp x hx
        · rw [List.mem_singleton] at hx
          rw [hx]
          simp [ordinary, h1, h2]

theorem norm_ordinary (place : List (List Byte)) : ∀ acc, (∀ c ∈ place, ordinary c = true) → norm acc place = acc ++ place := by
  induction place with
  | nil => intro acc _; simp [norm]
  | cons c cs ih =>
    intro acc h
    have hc := h c (by simp)
    simp only [ordinary, decide_eq_true_eq] at hc
    rw [norm, if_neg hc.1, if_neg (fun hh => hc.2 hh.1), ih _ (fun x hx => h x (List.mem_cons_of_mem _ hx)), List.append_assoc]
    rfl

theorem norm_right (acc cs : List (List Byte)) (hs : StaysBelow 1 cs) : norm acc cs = norm acc (norm [] cs) := by
  obtain ⟨e1, hu⟩ := norm_walk acc cs 0 [] (Nat.zero_le _) hs
  obtain ⟨e2, _⟩ := norm_walk [] cs 0 [] (Nat.zero_le _) hs
  have b0 : ∀ l, base l 0 = l := fun l => by simp [base]
  rw [b0, List.append_nil] at e1 e2
  have ho := walk_ordinary cs 0 [] (fun x hx => by cases hx)
  rw [e1, e2]
  generalize (normalWalk 0 [] cs).2 = place at *
  generalize (normalWalk 0 [] cs).1 = ups at *
  rcases (by omega : ups = 0 ∨ ups = 1) with rfl | rfl
  · rw [b0, b0, List.nil_append, norm_ordinary place acc ho]
  · have e3 : base [] 1 = [parentRef] := by simp [base]
    rw [e3, List.singleton_append, norm, if_neg (by decide)]
    by_cases ha : acc = []
    · subst ha
      rw [if_neg (by simp), norm_ordinary place _ ho]
      rfl
    · rw [if_pos ⟨rfl, ha⟩, norm_ordinary place _ ho]
      simp [base, ha]

theorem norm_deep (x : List Byte) (n : Nat) (cs : List (List Byte)) : ∀ ups place, (normalWalk ups place cs).1 ≤ n →
    norm (List.replicate (n - ups) x ++ place) cs =
      List.replicate (n - (normalWalk ups place cs).1) x ++ (normalWalk ups place cs).2 := by
  induction cs with
  | nil => intro ups place _; rfl
  | cons c cs ih =>
    intro ups place hn
    rw [normalWalk] at hn ⊢
    rw [norm]
    by_cases h1 : c = selfRef
    · simp only [if_pos h1] at hn ⊢; exact ih _ _ hn
    · simp only [if_neg h1] at hn ⊢
      by_cases h2 : c = parentRef
      · simp only [if_pos h2] at hn ⊢
        by_cases h3 : place = []
        · subst h3
          simp only [if_true] at hn ⊢
          have := normalWalk_ups cs (ups + 1) []
          have hne : List.replicate (n - ups) x ≠ [] := by
            intro e
            have := congrArg List.length e
            simp at this
            omega
          rw [List.append_nil, if_pos ⟨h2, hne⟩, ← ih (ups + 1) [] hn, List.append_nil, List.dropLast_replicate]
          congr 2
        · simp only [if_neg h3] at hn ⊢
          rw [if_pos ⟨h2, by simp [h3]⟩, List.dropLast_append_of_ne_nil h3]
          exact ih _ _ hn
      · simp only [if_neg h2] at hn ⊢
        rw [if_neg (fun hh => h2 hh.1), List.append_assoc]
        exact ih _ _ hn

theorem walk_ups_le (cs : List (List Byte)) : ∀ ups place, (normalWalk ups place cs).1 ≤ ups + cs.length := by
  induction cs with
  | nil => intro ups place; exact Nat.le_refl _
  | cons c cs ih =>
    intro ups place
    rw [normalWalk, List.length_cons]
    split
    · have := ih ups place; omega
    · split
      · split
        · have := ih (ups + 1) []; omega
        · have := ih ups place.dropLast; omega
      · have := ih ups (place ++ [c]); omega

theorem walk_resolve (cs : List (List Byte)) : ∀ ups place, (normalWalk ups place cs).2 = resolve place cs := by
  induction cs with
  | nil => intro ups place; rfl
  | cons c cs ih =>
    intro ups place
    rw [normalWalk, resolve]
    by_cases h1 : c = selfRef
    · rw [if_pos h1, if_pos h1]; exact ih _ _
    · rw [if_neg h1, if_neg h1]
      by_cases h2 : c = parentRef
      · rw [if_pos h2, if_pos h2]
        by_cases h3 : place = []
        · rw [if_pos h3, h3]; exact ih _ _
        · rw [if_neg h3]; exact ih _ _
      · rw [if_neg h2, if_neg h2]; exact ih _ _

theorem norm_lost (cs : List (List Byte)) : ∀ acc place, acc = place ∨ acc = parentRef :: place →
    norm acc cs = resolve place cs ∨ norm acc cs = parentRef :: resolve place cs := by
  induction cs with
  | nil => intro acc place ha; exact ha
  | cons c cs ih =>
    intro acc place ha
    rw [norm, resolve]
    by_cases h1 : c = selfRef
    · rw [if_pos h1, if_pos h1]; exact ih _ _ ha
    · rw [if_neg h1, if_neg h1]
      by_cases h2 : c = parentRef
      · rw [if_pos h2]
        by_cases h3 : place = []
        · subst h3
          rcases ha with rfl | rfl
          · rw [if_neg (by simp), h2]
            exact ih _ [] (.inr rfl)
          · rw [if_pos ⟨h2, by simp⟩]
            exact ih _ [] (.inl rfl)
        · have hne : acc ≠ [] := by rcases ha with rfl | rfl <;> simp [h3]
          rw [if_pos ⟨h2, hne⟩]
          refine ih _ _ ?_
          rcases ha with rfl | rfl
          · exact .inl rfl
          · exact .inr (List.dropLast_cons_of_ne_nil h3)
      · rw [if_neg h2, if_neg (fun hh => h2 hh.1)]
        refine ih _ _ ?_
        rcases ha with rfl | rfl
        · exact .inl rfl
        · exact .inr rfl

/-- **C109**: normalising the right part first makes no difference, whatever the left part, exactly when the right part never
leads more than one step above its start (memory available). -/
theorem C109_normalize_right_iff (h : Plenty alloc vec) (q : Path) :
    (∀ p, ∃ x y, Path.make alloc vec [.path p, .path q] = .ok x ∧
      Path.make alloc vec [.path p, .path (normalize alloc vec q)] = .ok y ∧
      equals (normalize alloc vec x) (normalize alloc vec y) = true) ↔ StaysBelow 1 q.comps := by
  have key : ∀ p, (∃ x y, Path.make alloc vec [.path p, .path q] = .ok x ∧
      Path.make alloc vec [.path p, .path (normalize alloc vec q)] = .ok y ∧
      equals (normalize alloc vec x) (normalize alloc vec y) = true) ↔
      norm (norm [] p.comps) q.comps = norm (norm [] p.comps) (norm [] q.comps) := by
    intro p
    obtain ⟨x, hx, hxc⟩ := join_comps h p q
    obtain ⟨y, hy, hyc⟩ := join_comps h p (normalize alloc vec q)
    have e : equals (normalize alloc vec x) (normalize alloc vec y) = true ↔
        norm (norm [] p.comps) q.comps = norm (norm [] p.comps) (norm [] q.comps) := by
      rw [equals_iff_comps, normalize_comps h, normalize_comps h, hxc, hyc, norm_append, norm_append, normalize_comps h]
    constructor
    · rintro ⟨x', y', h1, h2, h3⟩
      rw [hx] at h1
      rw [hy] at h2
      injection h1 with h1
      injection h2 with h2
      subst h1 h2
      exact e.mp h3
    · intro h3
      exact ⟨x, y, hx, hy, e.mpr h3⟩
  constructor
  · intro ha
    refine staysBelow_of_walk q.comps 0 [] (Nat.zero_le _) ?_
    refine Classical.byContradiction fun hn => ?_
    let n := q.comps.length + 1
    have hp := (key ⟨false, List.replicate n [0x61#8]⟩).mp (ha _)
    have hord : ∀ c ∈ List.replicate n [0x61#8], ordinary c = true := by
      intro c hc
      rw [List.eq_of_mem_replicate hc]
      decide
    simp only at hp
    rw [norm_ordinary _ [] hord, List.nil_append] at hp
    have hup := walk_ups_le q.comps 0 []
    have hd := norm_deep [0x61#8] n q.comps 0 [] (by simp only [n]; omega)
    rw [Nat.sub_zero, List.append_nil] at hd
    rw [hd, walk_resolve] at hp
    have hro : ∀ c ∈ resolve [] q.comps, ordinary c = true := by
      rw [← walk_resolve q.comps 0 []]
      exact walk_ordinary q.comps 0 [] (fun x hx => by cases hx)
    have hn1 : n ≠ 0 := by simp only [n]; omega
    have hlen := congrArg List.length hp
    rcases norm_lost q.comps [] [] (.inl rfl) with e | e
    · rw [e, norm_ordinary _ _ hro] at hlen
      simp only [List.length_append, List.length_replicate] at hlen
      omega
    · rw [e, norm, if_neg (by decide), if_pos ⟨rfl, by simp [hn1]⟩, norm_ordinary _ _ hro] at hlen
      simp only [List.length_append, List.length_replicate, List.length_dropLast] at hlen
      omega
  · intro hs p
    exact (key p).mpr (norm_right _ _ hs)

/-! ### Examples -/

example : Sound ⟨false, [[0x61#8]]⟩ ∧ Sound Path.none ∧ ¬Sound ⟨false, []⟩ := by simp [Sound, Path.none]

-- "a/b" joined with "../c": normalised "a/c"; "../.." is lost when normalised first
example : norm [] [[0x61#8], [0x62#8], parentRef, [0x63#8]] = [[0x61#8], [0x63#8]] ∧
    norm [] [[0x61#8], [0x62#8], parentRef, parentRef] = [] ∧ norm [] [parentRef, parentRef] = [] ∧
    norm [] ([[0x61#8], [0x62#8]] ++ norm [] [parentRef, parentRef]) = [[0x61#8], [0x62#8]] := by decide +kernel

example : Path.make mem7 (fun _ => .ok ()) [.path ⟨false, [[]]⟩, .path ⟨false, [[0x61#8]]⟩] = .ok ⟨false, [[], [0x61#8]]⟩ ∧
    toString mem7 ⟨false, [[], [0x61#8]]⟩ [0x2F#8] = .ok [0x2F#8, 0x61#8] := by decide +kernel

-- The hypotheses of the theorems are met by a memory manager that always has memory, and paths "/a" and "b".
example := C109_join_parts plenty7 [[], [0x61#8]] [[0x62#8]] (by simp) (by simp) (by decide) (by decide)
example := C109_join_text plenty7 [0x2F#8] (by decide) [[], [0x61#8]] [[0x62#8]] (by simp) (by simp) (by decide) (by decide)
example := C109_subpath plenty7 ⟨false, [[0x61#8], [0x62#8], [0x63#8]]⟩ (by simp [Sound]) 1 3 0 1
example := C109_join_none plenty7 ⟨false, [[0x61#8]]⟩ (by simp [Sound])

-- ".." twice above the start: normalising the right part first does make a difference
example : ¬StaysBelow 1 [parentRef, parentRef] := fun h => absurd (h 2) (by decide)

example : StaysBelow 1 [parentRef, [0x61#8]] := by
  intro k
  match k with
  | 0 | 1 => decide
  | k + 2 => rw [List.take_of_length_le (by simp)]; decide

end Solace.Path
