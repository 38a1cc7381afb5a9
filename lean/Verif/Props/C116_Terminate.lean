import Verif.Props.C53_C54_PathParts
import Verif.Props.C77_C78_Streams
import Verif.Props.C101_ViewObject
import Verif.Props.C65_Exact
import Verif.Props.C66_ErrorDomain
import Verif.Props.C89_ResultCompare
import Verif.Props.C90_PathMore
import Verif.Props.C92_UuidMore
import Verif.Props.C95_SystemErrors
/-
C116: which calls of functions declared `noexcept` end the program. An exception that reaches the end of such a function calls
`std::terminate`. For each function with a way to an exception: exactly when.
-/
namespace Solace.Ends

/-- **C116**, `StringView::compareTo`: ends the program exactly for a string that is not empty compared with an empty one. -/
theorem C116_string_compare (s x : List Byte) (hs : s.length < 2 ^ 16) (hx : x.length < 2 ^ 16) :
    (StringView.compareTo s x = .terminate ↔ s ≠ [] ∧ x = []) ∧
    (¬(s ≠ [] ∧ x = []) → ∃ r, StringView.compareTo s x = .ok r) := by
  obtain ⟨h1, h2, h3, h4⟩ := StringView.C22_exact s x hs hx
  have hok : ¬(s ≠ [] ∧ x = []) → ∃ r, StringView.compareTo s x = .ok r := by
    intro hn
    rcases Nat.lt_trichotomy s.length x.length with h | h | h
    · have hne : x ≠ [] := by rintro rfl; simp at h
      exact ⟨_, h3 _ h (List.getLast?_eq_some_getLast hne)⟩
    · obtain ⟨r, hr, -⟩ := h4 h
      exact ⟨r, hr⟩
    · have hsne : s ≠ [] := by rintro rfl; simp at h
      have hne : x ≠ [] := fun e => hn ⟨hsne, e⟩
      have hlt : x.length - 1 < s.length := by omega
      exact ⟨_, h2 _ h hne (List.getElem?_eq_getElem hlt)⟩
  refine ⟨⟨fun h => ?_, fun h => ?_⟩, hok⟩
  · refine Classical.byContradiction fun hn => ?_
    obtain ⟨r, hr⟩ := hok hn
    rw [hr] at h
    cases h
  · exact h1 (by rw [h.2]; exact List.length_pos_iff.mpr h.1) h.2

example : StringView.compareTo [0x61#8] [] = .terminate :=
  (C116_string_compare _ _ (by decide) (by decide)).1.mpr ⟨by decide, rfl⟩

theorem bind_terminate_iff {α β : Type} (o : Outcome α) (f : α → Outcome β) (hf : ∀ a, f a ≠ .terminate) :
    (o >>= f) = .terminate ↔ o = .terminate := by
  cases o with
  | ok a => rw [Outcome.bind_ok]; exact ⟨fun h => absurd h (hf a), fun h => by cases h⟩
  | throws => exact ⟨fun h => (by cases h), fun h => by cases h⟩
  | terminate => exact ⟨fun _ => rfl, fun _ => rfl⟩
  | ub => exact ⟨fun h => (by cases h), fun h => by cases h⟩

/-- **C116**, `Path::compareTo`: ends the program exactly when, at the first place where the components do not compare as equal,
that of the left path is not empty and that of the right path is empty. -/
theorem C116_path_compare (p q : Path) (hp : ∀ c ∈ p.comps, c.length < 2 ^ 16) (hq : ∀ c ∈ q.comps, c.length < 2 ^ 16) :
    Path.compareTo p q = .terminate ↔
      ∃ (i : Nat) (a : List Byte), p.comps[i]? = some a ∧ a ≠ [] ∧ q.comps[i]? = some [] ∧
        ∀ (j : Nat) (x y : List Byte), j < i → p.comps[j]? = some x → q.comps[j]? = some y → StringView.compareTo x y = .ok 0 := by
  have hmem : ∀ (l : List (List Byte)), (∀ c ∈ l, c.length < 2 ^ 16) → ∀ (i : Nat) a, l[i]? = some a → a.length < 2 ^ 16 :=
    fun l hl i a h => hl a (List.mem_of_getElem? h)
  rw [Path.compareTo, bind_terminate_iff _ _ (fun d => by split <;> (intro h; cases h))]
  constructor
  · intro h
    rcases Path.compareLoop_exact p.comps q.comps with ⟨i, a, b, ha, hb, hj, -, he⟩ | ⟨-, he⟩
    · rw [h] at he
      obtain ⟨h1, h2⟩ := (C116_string_compare a b (hmem _ hp i a ha) (hmem _ hq i b hb)).1.mp he.symm
      exact ⟨i, a, ha, h1, by rw [hb, h2], hj⟩
    · rw [h] at he
      cases he
  · rintro ⟨i, a, ha, hne, hb, hj⟩
    have ht := (C116_string_compare a [] (hmem _ hp i a ha) (by decide)).1.mpr ⟨hne, rfl⟩
    rcases Path.compareLoop_exact p.comps q.comps with ⟨k, a', b', ha', hb', hj', hn, he⟩ | ⟨h0, -⟩
    · rcases Nat.lt_trichotomy i k with hlt | heq | hgt
      · have := hj' i a [] hlt ha hb
        rw [this] at ht
        cases ht
      · subst heq
        rw [ha] at ha'
        rw [hb] at hb'
        cases ha'
        cases hb'
        rw [he]
        exact ht
      · exact absurd (hj k a' b' hgt ha' hb') hn
    · have := h0 i a [] ha hb
      rw [this] at ht
      cases ht

example : Path.compareTo ⟨false, [[0x61#8], [0x62#8]]⟩ ⟨false, [[0x61#8], []]⟩ = .terminate :=
  (C116_path_compare _ _ (by decide) (by decide)).mpr
    ⟨1, [0x62#8], rfl, by decide, rfl, fun j x y hj hx hy => by
      cases j with
      | zero => cases hx; cases hy; rfl
      | succ j => omega⟩

/-- **C116**, `Path::isAbsolute` and with it `toString`, for every delimiter: exactly for a path with a buffer but no components
(which `normalize` can produce). `subpath`: exactly when there is no memory for its components. -/
theorem C116_path (alloc : Nat → Except Err MutView) (vec : Nat → Except Err Unit) (p : Path) (d : List Byte) (i j : Nat) :
    (Path.isAbsolute p = .terminate ↔ p.noBuffer = false ∧ p.comps = []) ∧
    (Path.toString alloc p d = .terminate ↔ p.noBuffer = false ∧ p.comps = []) ∧
    (Path.subpath alloc vec p i j = .terminate ↔
      ∃ e, vec (max (min i p.comps.length) (min j p.comps.length) - min i p.comps.length) = .error e) := by
  have h1 : Path.isAbsolute p = .terminate ↔ p.noBuffer = false ∧ p.comps = [] := by
    rcases Path.C90_relative p with ⟨b, hb, -⟩ | ⟨h1, h2, h3, -⟩
    · refine ⟨fun h => (by rw [h] at hb; cases hb), fun ⟨h1, h2⟩ => ?_⟩
      obtain ⟨nb, cs⟩ := p
      simp only at h1 h2
      subst h1 h2
      exact Path.isAbsolute_hollow
    · exact ⟨fun _ => ⟨h1, h2⟩, fun _ => h3⟩
  refine ⟨h1, ?_, ?_⟩
  · rw [Path.toString, bind_terminate_iff]
    · exact h1
    · intro b
      split <;> split <;> (intro h; cases h)
  · rw [Path.subpath]
    cases hv : vec (max (min i p.comps.length) (min j p.comps.length) - min i p.comps.length) with
    | error e => exact ⟨fun _ => ⟨e, rfl⟩, fun _ => rfl⟩
    | ok u => exact ⟨fun h => (by cases h), fun ⟨e, h⟩ => by cases h⟩

/-- **C116**, `ByteReader::get()` and `get(pos)`: exactly when the byte asked for is below the limit but not in the memory. So
never for a limit inside the memory. -/
theorem C116_reader (s : ByteReader) (pos : Nat) :
    (s.get = .terminate ↔ 1 ≤ s.remaining ∧ s.data.length ≤ s.position) ∧
    (s.getAt pos = .terminate ↔ pos < s.limit ∧ s.data.length ≤ pos) ∧
    (s.position ≤ s.limit → s.limit ≤ s.data.length → s.data.length < 2 ^ 64 → s.get ≠ .terminate ∧ s.getAt pos ≠ .terminate) := by
  have h1 : s.get = .terminate ↔ 1 ≤ s.remaining ∧ s.data.length ≤ s.position := by
    rcases ByteReader.get_cases s with ⟨h, hr⟩ | ⟨hr, hn, h⟩ | ⟨b, hr, hb, h⟩
    · rw [h]; exact ⟨fun h => (by cases h), fun h => by omega⟩
    · exact ⟨fun _ => ⟨hr, List.getElem?_eq_none_iff.mp hn⟩, fun _ => h⟩
    · rw [h]
      have := (List.getElem?_eq_some_iff.mp hb).1
      exact ⟨fun h => (by cases h), fun h => by omega⟩
  have h2 : s.getAt pos = .terminate ↔ pos < s.limit ∧ s.data.length ≤ pos := by
    rcases ByteReader.getAt_cases s pos with ⟨h, hr⟩ | ⟨hr, hn, h⟩ | ⟨b, hr, hb, h⟩
    · rw [h]; exact ⟨fun h => (by cases h), fun h => by omega⟩
    · exact ⟨fun _ => ⟨hr, List.getElem?_eq_none_iff.mp hn⟩, fun _ => h⟩
    · rw [h]
      have := (List.getElem?_eq_some_iff.mp hb).1
      exact ⟨fun h => (by cases h), fun h => by omega⟩
  refine ⟨h1, h2, fun a b c => ⟨fun h => ?_, fun h => ?_⟩⟩
  · have := h1.mp h
    rw [ByteReader.remaining, sub64_of_le a (by omega)] at this
    omega
  · have := h2.mp h
    omega

example : (⟨[1#8], 1, 2⟩ : ByteReader).get = .terminate :=
  (C116_reader ⟨[1#8], 1, 2⟩ 0).1.mpr ⟨by rw [ByteReader.remaining, sub64_of_le (by decide) (by decide)]; decide, by decide⟩

/-- **C116**, `slice` of constant and mutable views: exactly for a view of the null pointer that claims to have bytes, of which
some are asked for from the beginning. Such a view cannot be made, so never for views that exist. -/
theorem C116_slice (v : ViewObj.View) (f t : Nat) :
    (ViewObj.slice v f t = .terminate ↔ v.addr = 0 ∧ f = 0 ∧ 0 < min t v.size) ∧
    (ViewObj.sliceMut v f t = .terminate ↔ v.addr = 0 ∧ f = 0 ∧ 0 < min t v.size) := by
  have key : ∀ a n, (ViewObj.make a n).noexcept = .terminate ↔ a = 0 ∧ n ≠ 0 := by
    intro a n
    rw [ViewObj.make]
    by_cases h : a ≠ 0 ∨ n = 0
    · rw [if_pos h]
      refine ⟨fun h => (by cases h), fun h => by omega⟩
    · rw [if_neg h]
      exact ⟨fun _ => by omega, fun _ => rfl⟩
  refine ⟨?_, ?_⟩
  · rw [ViewObj.slice]
    rw [key]
    omega
  · rw [ViewObj.sliceMut]
    by_cases h : f = t
    · rw [if_pos h, key]
      omega
    · rw [if_neg h]
      simp only
      rw [key]
      omega

example : ViewObj.slice ⟨0, 4⟩ 0 2 = .terminate := (C116_slice ⟨0, 4⟩ 0 2).1.mpr ⟨rfl, rfl, by decide⟩

/-- **C116**, `operator*` of an `Optional`: exactly when it is empty. Comparing two results: exactly when the comparison of the two
values or of the two errors throws or ends the program itself. -/
theorem C116_optional_result {T V E : Type} (o : Option T) (eqV : V → V → Outcome Bool) (eqE : E → E → Outcome Bool)
    (a b : Res.Res V E) :
    (Opt.deref o = .terminate ↔ o = none) ∧
    (Res.eq eqV eqE a b = .terminate ↔
      (∃ x y, a = .ok x ∧ b = .ok y ∧ (eqV x y = .throws ∨ eqV x y = .terminate)) ∨
      (∃ x y, a = .err x ∧ b = .err y ∧ (eqE x y = .throws ∨ eqE x y = .terminate))) := by
  refine ⟨?_, ?_⟩
  · cases o with
    | none => exact ⟨fun _ => rfl, fun _ => rfl⟩
    | some x => exact ⟨fun h => (by cases h), fun h => by cases h⟩
  · cases a with
    | ok x =>
      cases b with
      | ok y =>
        have he : Res.eq eqV eqE (.ok x : Res.Res V E) (.ok y) = (eqV x y).noexcept := by
          simp only [Res.eq, Res.either, Res.both, Res.isOk, Res.isError, Res.unwrap, if_true, Outcome.bind_ok,
            Bool.and_self]
          cases eqV x y with
          | ok b => cases b <;> rfl
          | throws => rfl
          | terminate => rfl
          | ub => rfl
        rw [he]
        cases hc : eqV x y <;> simp [Outcome.noexcept, hc]
      | err y => simp [Res.eq, Res.either, Res.both, Res.isOk, Res.isError, Outcome.noexcept]
    | err x =>
      cases b with
      | ok y => simp [Res.eq, Res.either, Res.both, Res.isOk, Res.isError, Outcome.noexcept]
      | err y =>
        have he : Res.eq eqV eqE (.err x : Res.Res V E) (.err y) = (eqE x y).noexcept := by
          simp [Res.eq, Res.either, Res.both, Res.isOk, Res.isError, Res.getError]
        rw [he]
        cases hc : eqE x y <;> simp [Outcome.noexcept, hc]

example : Opt.deref (none : Option Nat) = .terminate := (C116_optional_result (V := Nat) (E := Nat) none
  (fun _ _ => .ok true) (fun _ _ => .ok true) (.ok 0) (.ok 0)).1.mpr rfl

theorem fillLoop_not_terminate {σ : Type} (draw : σ → σ × List Byte) (step fuel : Nat) : ∀ (i : Nat) (s : σ) (bytes : List Byte),
    Uuid.fillLoop draw step fuel i s bytes ≠ some .terminate := by
  induction fuel with
  | zero => intro i s bytes; rw [Uuid.fillLoop]; intro h; cases h
  | succ n ih =>
    intro i s bytes
    rw [Uuid.fillLoop.eq_def]
    simp only
    split
    · split
      · intro h; cases h
      · exact ih _ _ _
    · intro h; cases h

/-- **C116**, `makeRandomUUID`: exactly when the random device throws. -/
theorem C116_random_uuid (big : Bool) (a w fuel : Nat) (device : Option Nat) (stack : List Byte) :
    Uuid.makeRandom big a w fuel device stack = some .terminate ↔ device = none := by
  cases device with
  | none => exact ⟨fun _ => rfl, fun _ => rfl⟩
  | some seed =>
    refine ⟨fun h => ?_, fun h => by cases h⟩
    rw [Uuid.makeRandom, Uuid.fill] at h
    rw [Option.map_eq_some_iff] at h
    obtain ⟨o, ho, hb⟩ := h
    cases o with
    | ok r =>
      obtain ⟨i, s, bytes⟩ := r
      simp only [Outcome.bind, Uuid.fillRest] at hb
      split at hb
      · split at hb <;> cases hb
      · cases hb
    | throws => cases hb
    | terminate => exact absurd ho (fillLoop_not_terminate _ _ _ _ _ _)
    | ub => cases hb

/-- **C116**, never: registering and looking up error domains in every history; `Env::get` and the text of a system error for
every environment, name, answer of `strerror` and state of the memory. -/
theorem C116_never {D : Type} (rs : List (BitVec 64 × D)) (id : BitVec 64) (fuel : Nat) (env : Env.Environ) (name : List Byte)
    (hf : env.length < fuel) (alloc : Nat → Except Err MutView) (strerror : BitVec 32 → Option (List Byte)) (code : BitVec 32) :
    ErrorDomains.find (ErrorDomains.run ErrorDomains.registry rs).1 id ≠ .terminate ∧
    Outcome.terminate ∉ (ErrorDomains.run (ErrorDomains.registry : Dict (BitVec 64) D) rs).2 ∧
    Env.get fuel env name ≠ some .terminate ∧
    SystemErrors.message alloc strerror code ≠ .terminate := by
  obtain ⟨h1, h2⟩ := ErrorDomains.C66_every_history rs id
  refine ⟨(by rw [h1]; intro h; cases h), ?_, ?_, ?_⟩
  · rw [h2]
    simp
  · by_cases hl : env.length < 2 ^ 16
    · rw [((Env.C65_read_exact env name).2 hl fuel hf).2.1]
      intro h; cases h
    · rw [((Env.C65_read_exact env name).1 (by omega) fuel).2.1]
      intro h; cases h
  · rw [SystemErrors.message]
    have hn : ∀ (o : Outcome (List Byte)), o ≠ .throws → o ≠ .terminate →
        (o.bind fun text => match Str.make alloc text with
          | .ok s => .ok s
          | .error _ => (.ok ⟨SystemErrors.fallback, SystemErrors.fallback.length⟩ : Outcome Str)).noexcept ≠ .terminate := by
      intro o h1 h2
      cases o with
      | ok t =>
        simp only [Outcome.bind]
        split <;> (intro h; cases h)
      | throws => exact absurd rfl h1
      | terminate => exact absurd rfl h2
      | ub => intro h; cases h
    have hs : ∀ v : Make.SV, v.chars ≠ .throws ∧ v.chars ≠ .terminate := by
      intro v
      rw [Make.SV.chars]
      split
      · exact ⟨fun h => (by cases h), fun h => by cases h⟩
      · split
        · exact ⟨fun h => (by cases h), fun h => by cases h⟩
        · split
          · exact ⟨fun h => (by cases h), fun h => by cases h⟩
          · exact ⟨fun h => (by cases h), fun h => by cases h⟩
    have hl : ∀ m, Make.strlen m ≠ .throws ∧ Make.strlen m ≠ .terminate := by
      intro m
      induction m with
      | nil => exact ⟨fun h => (by cases h), fun h => by cases h⟩
      | cons c m ih =>
        rw [Make.strlen]
        split
        · exact ⟨fun h => (by cases h), fun h => by cases h⟩
        · cases hm : Make.strlen m with
          | ok n => exact ⟨fun h => (by cases h), fun h => by cases h⟩
          | throws => exact absurd hm ih.1
          | terminate => exact absurd hm ih.2
          | ub => exact ⟨fun h => (by cases h), fun h => by cases h⟩
    have hc : ∀ d, Make.ofCString d ≠ .throws ∧ Make.ofCString d ≠ .terminate := by
      intro d
      rw [Make.ofCString.eq_def]
      cases d with
      | none => exact ⟨fun h => (by cases h), fun h => by cases h⟩
      | some m =>
        simp only
        cases hm : Make.strlen m with
        | ok n => exact ⟨fun h => (by cases h), fun h => by cases h⟩
        | throws => exact absurd hm (hl m).1
        | terminate => exact absurd hm (hl m).2
        | ub => exact ⟨fun h => (by cases h), fun h => by cases h⟩
    apply hn
    · cases ho : Make.ofCString (strerror code) with
      | ok v => exact (hs v).1
      | throws => exact absurd ho (hc _).1
      | terminate => intro h; cases h
      | ub => intro h; cases h
    · cases ho : Make.ofCString (strerror code) with
      | ok v => exact (hs v).2
      | throws => intro h; cases h
      | terminate => exact absurd ho (hc _).2
      | ub => intro h; cases h

example : ∃ (env : Env.Environ) (fuel : Nat), env ≠ [] ∧ env.length < fuel := ⟨[[65#8, 61#8]], 2, by decide, by decide⟩

end Solace.Ends
