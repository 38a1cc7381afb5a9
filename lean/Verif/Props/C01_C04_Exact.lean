import Verif.Props.C01_C02_ByteReader
import Verif.Props.C03_C05_ByteWriter
/-
C01 to C04 for every history, without any condition on the calls: what holds always, and in exactly which states the
properties fail.
-/
namespace Solace.ByteReader

/-- What holds in every state that calls can reach: `position` may be anywhere. -/
def Reached (s : ByteReader) : Prop := s.limit ≤ s.data.length ∧ s.data.length < 2 ^ 64 ∧ s.position < 2 ^ 64

/-- What C01 says about one call, apart from the limit: the bytes are those stored at the position (or at the given offset),
inside of the buffer, and the position moves by their number. -/
def GoodBytes (big : Bool) (s : ByteReader) (op : Op) (r : ReadCall) : Prop :=
  ∀ v, r.ret = .ok v →
    match op with
    | .get => ∃ b, v = some b ∧ StoredAt s.data s.position [b] ∧ r.reader = { s with position := s.position + 1 }
    | .getAt p => ∃ b, v = some b ∧ StoredAt s.data p [b] ∧ r.reader = s
    | .read d => r.dest.length = d.length ∧ StoredAt s.data s.position r.dest ∧
        r.reader = { s with position := s.position + d.length }
    | .readLE d => r.dest.length = d.length ∧ StoredAt s.data s.position (if big then r.dest.reverse else r.dest) ∧
        r.reader = { s with position := s.position + d.length }
    | .readBE d => r.dest.length = d.length ∧ StoredAt s.data s.position (if big then r.dest else r.dest.reverse) ∧
        r.reader = { s with position := s.position + d.length }
    | .readAt o d => r.dest.length = d.length ∧ StoredAt s.data o r.dest ∧ r.reader = s
    | _ => True

/-- The call succeeded and returned a byte stored at or beyond the limit. -/
def ReturnsBeyond (s : ByteReader) (op : Op) (r : ReadCall) : Prop :=
  (∃ v, r.ret = .ok v) ∧
    match op with
    | .get => s.limit ≤ s.position
    | .getAt p => s.limit ≤ p
    | .read d | .readLE d | .readBE d => d ≠ [] ∧ s.limit < s.position + d.length
    | .readAt o d => d ≠ [] ∧ s.limit < o + d.length
    | _ => False

attribute [local irreducible] read readAt remaining get getAt

theorem step_reached {big s op r} (hs : Reached s) (h : step big s op = .ok r) :
    Reached r.reader ∧ r.reader.data = s.data := by
  have hs' := hs
  obtain ⟨h1, h2, h3⟩ := hs'
  have hread : ∀ d, Reached (s.read d).reader ∧ (s.read d).reader.data = s.data := by
    intro d
    rcases read_cases s d h2 h3 with ⟨h, _⟩ | ⟨hr, hd, h⟩ <;> rw [h]
    · exact ⟨hs, rfl⟩
    · refine ⟨⟨h1, h2, ?_⟩, rfl⟩
      rcases hd with hd | rfl
      · simp only; omega
      · exact h3
  cases op with
  | limit n =>
    simp only [step, setLimit, Outcome.ok.injEq] at h
    split at h <;> subst h
    · exact ⟨hs, rfl⟩
    · rename_i hc
      exact ⟨⟨Nat.le_of_not_lt hc, h2, h3⟩, rfl⟩
  | position n =>
    simp only [step, setPosition, Outcome.ok.injEq] at h
    split at h <;> subst h
    · exact ⟨hs, rfl⟩
    · exact ⟨⟨h1, h2, by simp only; omega⟩, rfl⟩
  | advance n =>
    simp only [step, advance, Outcome.ok.injEq] at h
    split at h <;> subst h
    · exact ⟨hs, rfl⟩
    · exact ⟨⟨h1, h2, wrap64_lt _⟩, rfl⟩
  | rewind =>
    simp only [step, rewind, Outcome.ok.injEq] at h
    subst h; exact ⟨⟨h1, h2, by simp only; omega⟩, rfl⟩
  | get =>
    rw [step] at h
    rcases get_cases s with ⟨hg, _⟩ | ⟨_, _, hg⟩ | ⟨b, _, _, hg⟩ <;> rw [hg] at h <;> cases h
    · exact ⟨hs, rfl⟩
    · exact ⟨⟨h1, h2, wrap64_lt _⟩, rfl⟩
  | getAt p =>
    rw [step] at h
    rcases getAt_cases s p with ⟨hg, _⟩ | ⟨_, _, hg⟩ | ⟨b, _, _, hg⟩ <;> rw [hg] at h <;> cases h
    · exact ⟨hs, rfl⟩
    · exact ⟨hs, rfl⟩
  | read d => cases h; exact hread d
  | readAt o d =>
    cases h
    rcases readAt_cases s o d with hc | ⟨hc, _⟩ <;> rw [hc] <;> exact ⟨hs, rfl⟩
  | readLE d => cases h; rw [readLE, thenSwap_reader]; exact hread d
  | readBE d => cases h; rw [readBE, thenSwap_reader]; exact hread d

theorem run_reached {big ops s s'} (hs : Reached s) (h : run big s ops = .ok s') : Reached s' ∧ s'.data = s.data := by
  induction ops generalizing s with
  | nil => cases h; exact ⟨hs, rfl⟩
  | cons op ops ih =>
    rw [run] at h
    cases hst : step big s op with
    | ok r =>
      rw [hst] at h
      have h1 := step_reached hs hst
      have h2 := ih h1.1 h
      exact ⟨h2.1, h2.2.trans h1.2⟩
    | throws => rw [hst] at h; cases h
    | terminate => rw [hst] at h; cases h
    | ub => rw [hst] at h; cases h

theorem read_bytes {s : ByteReader} (hs : Reached s) (d : List Byte) (v) (hok : (s.read d).ret = .ok v) :
    (s.read d).dest.length = d.length ∧ StoredAt s.data s.position (s.read d).dest ∧
      (s.read d).reader = { s with position := s.position + d.length } := by
  obtain ⟨h1, h2, h3⟩ := hs
  rcases read_cases s d h2 h3 with ⟨h, _⟩ | ⟨hr, hor, h⟩
  · rw [h] at hok; cases hok
  · rw [h]
    refine ⟨?_, storedAt_window _ _ _, rfl⟩
    rcases hor with h | rfl
    · simp; omega
    · simp

theorem storedAt_single {data : List Byte} {p : Nat} {b : Byte} (hb : data[p]? = some b) : StoredAt data p [b] := by
  intro i hi
  have : i = 0 := by simpa using hi
  subst this
  exact ⟨by simpa using hb, (List.getElem?_eq_some_iff.mp hb).1⟩

/-- **C01**, every history (full but for the limit): a successful reading call returns exactly the bytes stored in the
buffer at the position reported before the call and moves the position by exactly their number. -/
theorem C01_bytes_every_history (big : Bool) (data : List Byte) (hlen : data.length < 2 ^ 64) (ops : List Op)
    (s : ByteReader) (hrun : run big (ofView data) ops = .ok s) (op : Op) (r : ReadCall) (hstep : step big s op = .ok r) :
    s.data = data ∧ GoodBytes big s op r := by
  obtain ⟨hs, hd⟩ := run_reached (s := ofView data) ⟨Nat.le_refl _, hlen, by show 0 < 2 ^ 64; decide⟩ hrun
  refine ⟨hd, ?_⟩
  obtain ⟨h1, h2, h3⟩ := id hs
  intro v hv
  cases op with
  | limit n => trivial
  | position n => trivial
  | advance n => trivial
  | rewind => trivial
  | get =>
    rw [step] at hstep
    rcases get_cases s with ⟨hg, _⟩ | ⟨_, _, hg⟩ | ⟨b, _, hb, hg⟩ <;> rw [hg] at hstep <;> cases hstep
    · cases hv
    · cases hv
      have := (List.getElem?_eq_some_iff.mp hb).1
      exact ⟨b, rfl, storedAt_single hb, by rw [wrap64_of_lt (by omega)]⟩
  | getAt p =>
    rw [step] at hstep
    rcases getAt_cases s p with ⟨hg, _⟩ | ⟨_, _, hg⟩ | ⟨b, _, hb, hg⟩ <;> rw [hg] at hstep <;> cases hstep
    · cases hv
    · cases hv
      exact ⟨b, rfl, storedAt_single hb, rfl⟩
  | read d => cases hstep; exact read_bytes hs d v hv
  | readAt o d =>
    cases hstep
    rcases readAt_cases s o d with hc | ⟨hc, hor⟩ <;> rw [hc] at hv ⊢
    · cases hv
    · refine ⟨?_, storedAt_window _ _ _, rfl⟩
      rcases hor with rfl | ⟨_, hb⟩
      · simp
      · simp; omega
  | readLE d =>
    cases hstep
    rw [readLE, thenSwap_ret] at hv
    have := read_bytes hs d v hv
    simp only [readLE, thenSwap_reader]
    rw [thenSwap_dest _ _ v hv]
    cases big
    · simpa using this
    · simpa using this
  | readBE d =>
    cases hstep
    rw [readBE, thenSwap_ret] at hv
    have := read_bytes hs d v hv
    simp only [readBE, thenSwap_reader]
    rw [thenSwap_dest _ _ v hv]
    cases big
    · simpa using this
    · simpa using this

theorem remaining_of_past {s : ByteReader} (hs : Reached s) (h : s.limit < s.position) :
    s.remaining = s.limit + 2 ^ 64 - s.position := by
  rw [remaining]; exact sub64_of_lt h (by have := hs.2.2; omega)

/-- **C01, exactly when it fails**: after any history, some call returns a byte stored at or beyond the limit if and only if
the limit is below the position and the position is inside the buffer. -/
theorem C01_fails_iff (big : Bool) (data : List Byte) (hlen : data.length < 2 ^ 64) (ops : List Op)
    (s : ByteReader) (hrun : run big (ofView data) ops = .ok s) :
    (∃ op r, step big s op = .ok r ∧ ReturnsBeyond s op r) ↔ s.limit < s.position ∧ s.position < data.length := by
  obtain ⟨hs, hd⟩ := run_reached (s := ofView data) ⟨Nat.le_refl _, hlen, by show 0 < 2 ^ 64; decide⟩ hrun
  have hd : s.data = data := hd
  obtain ⟨h1, h2, h3⟩ := id hs
  rw [← hd]
  constructor
  · rintro ⟨op, r, hst, ⟨v, hv⟩, hb⟩
    have hread : ∀ d, d ≠ [] → (s.read d).ret = .ok v → s.limit < s.position + d.length →
        s.limit < s.position ∧ s.position < s.data.length := by
      intro d hd0 hok hl
      have : 0 < d.length := List.length_pos_iff.mpr hd0
      rcases read_cases s d h2 h3 with ⟨h, _⟩ | ⟨hr, hor, h⟩
      · rw [h] at hok; cases hok
      · rcases hor with hor | rfl
        · refine ⟨Classical.byContradiction fun hn => ?_, by omega⟩
          rw [remaining, sub64_of_le (by omega) (by omega)] at hr
          omega
        · exact absurd rfl hd0
    cases op with
    | limit n => exact hb.elim
    | position n => exact hb.elim
    | advance n => exact hb.elim
    | rewind => exact hb.elim
    | get =>
      rw [step] at hst
      rcases get_cases s with ⟨hg, _⟩ | ⟨_, _, hg⟩ | ⟨b, hr, hbb, hg⟩ <;> rw [hg] at hst <;> cases hst
      · cases hv
      · refine ⟨Classical.byContradiction fun hn => ?_, (List.getElem?_eq_some_iff.mp hbb).1⟩
        have hb : s.limit ≤ s.position := hb
        rw [remaining, sub64_of_le (by omega) (by omega)] at hr
        omega
    | getAt p =>
      rw [step] at hst
      have hb : s.limit ≤ p := hb
      rcases getAt_cases s p with ⟨hg, _⟩ | ⟨_, _, hg⟩ | ⟨b, hr, hbb, hg⟩ <;> rw [hg] at hst <;> cases hst
      · cases hv
      · omega
    | read d => cases hst; exact hread d hb.1 hv hb.2
    | readLE d => cases hst; rw [readLE, thenSwap_ret] at hv; exact hread d hb.1 hv hb.2
    | readBE d => cases hst; rw [readBE, thenSwap_ret] at hv; exact hread d hb.1 hv hb.2
    | readAt o d =>
      cases hst
      obtain ⟨hb1, hb2⟩ : d ≠ [] ∧ s.limit < o + d.length := hb
      rcases readAt_cases s o d with hc | ⟨hc, hor⟩ <;> rw [hc] at hv
      · cases hv
      · rcases hor with h | ⟨h, _⟩
        · exact absurd h hb1
        · omega
  · rintro ⟨ha, hb⟩
    have hrem := remaining_of_past hs ha
    obtain ⟨b, hbb⟩ : ∃ b, s.data[s.position]? = some b := ⟨_, List.getElem?_eq_getElem hb⟩
    rcases get_cases s with ⟨_, hg⟩ | ⟨_, hg, _⟩ | ⟨b, _, _, hg⟩
    · omega
    · rw [hbb] at hg; cases hg
    · exact ⟨.get, _, hg, ⟨_, rfl⟩, Nat.le_of_lt ha⟩

/-- **C02, exactly when a call aborts**: after any history that did not abort, some call ends the program if and only if the
limit is below the position and the position is not inside the buffer. -/
theorem C02_abort_iff (big : Bool) (data : List Byte) (hlen : data.length < 2 ^ 64) (ops : List Op)
    (s : ByteReader) (hrun : run big (ofView data) ops = .ok s) :
    (∃ op, ∀ r, step big s op ≠ .ok r) ↔ s.limit < s.position ∧ data.length ≤ s.position := by
  obtain ⟨hs, hd⟩ := run_reached (s := ofView data) ⟨Nat.le_refl _, hlen, by show 0 < 2 ^ 64; decide⟩ hrun
  have hd : s.data = data := hd
  obtain ⟨h1, h2, h3⟩ := id hs
  rw [← hd]
  constructor
  · rintro ⟨op, ho⟩
    cases op with
    | get =>
      rcases get_cases s with ⟨hg, _⟩ | ⟨hr, hn, hg⟩ | ⟨b, _, hb, hg⟩
      · exact absurd hg (ho _)
      · rw [List.getElem?_eq_none_iff] at hn
        refine ⟨Classical.byContradiction fun hl => ?_, hn⟩
        rw [remaining, sub64_of_le (by omega) (by omega)] at hr
        omega
      · exact absurd hg (ho _)
    | getAt p =>
      rcases getAt_cases s p with ⟨hg, _⟩ | ⟨hr, hn, hg⟩ | ⟨b, _, hb, hg⟩
      · exact absurd hg (ho _)
      · rw [List.getElem?_eq_none_iff] at hn; omega
      · exact absurd hg (ho _)
    | limit n => exact absurd rfl (ho _)
    | position n => exact absurd rfl (ho _)
    | advance n => exact absurd rfl (ho _)
    | rewind => exact absurd rfl (ho _)
    | read d => exact absurd rfl (ho _)
    | readAt o d => exact absurd rfl (ho _)
    | readLE d => exact absurd rfl (ho _)
    | readBE d => exact absurd rfl (ho _)
  · rintro ⟨ha, hb⟩
    have hrem := remaining_of_past hs ha
    refine ⟨.get, fun r hr => ?_⟩
    rw [step] at hr
    rcases get_cases s with ⟨_, hg⟩ | ⟨_, _, hg⟩ | ⟨b, _, hg, _⟩
    · omega
    · rw [hg] at hr; cases hr
    · have := (List.getElem?_eq_some_iff.mp hg).1; omega

example : run false (ofView [1, 2, 3, 4]) [.read [0, 0], .limit 1] = .ok ⟨[1, 2, 3, 4], 2, 1⟩ ∧
    run false (ofView [1, 2]) [.read [0, 0], .limit 1] = .ok ⟨[1, 2], 2, 1⟩ := by decide +kernel

end Solace.ByteReader

namespace Solace.ByteWriter

/-- What holds in every state that calls can reach: position and limit may be anywhere. -/
def Reached (s : ByteWriter) : Prop := s.data.length < 2 ^ 64 ∧ s.position < 2 ^ 64 ∧ s.limit < 2 ^ 64

attribute [local irreducible] write remaining overwrite

theorem write_reached {s : ByteWriter} (hs : Reached s) (src : List Byte) :
    Reached (s.write src).1 ∧ (s.write src).1.data.length = s.data.length := by
  obtain ⟨h1, h2, h3⟩ := id hs
  rcases write_cases s src ⟨h1, h2⟩ with ⟨_, hw⟩ | ⟨_, _, hw⟩ | ⟨_, hc, hr, hw⟩ | ⟨_, hc, hr, hw⟩ <;> rw [hw]
  · exact ⟨hs, rfl⟩
  · exact ⟨hs, rfl⟩
  · have e := overwrite_length s.data s.position src hc
    exact ⟨⟨by simp only; omega, h2, h3⟩, e⟩
  · have e := overwrite_length s.data s.position src hc
    exact ⟨⟨by simp only; omega, by simp only; omega, h3⟩, e⟩

theorem wstep_reached {big : Bool} {s : ByteWriter} (hs : Reached s) (op : Op) :
    Reached (step big s op).1 ∧ (step big s op).1.data.length = s.data.length := by
  obtain ⟨h1, h2, h3⟩ := id hs
  cases op with
  | limit n =>
    simp only [step, setLimit]
    split
    · exact ⟨hs, rfl⟩
    · rename_i hc
      exact ⟨⟨h1, h2, Nat.lt_of_le_of_lt (Nat.le_of_not_lt hc) h1⟩, rfl⟩
  | position n =>
    simp only [step, setPosition]
    split
    · exact ⟨hs, rfl⟩
    · exact ⟨⟨h1, by simp only; omega, h3⟩, rfl⟩
  | advance n =>
    simp only [step, advance]
    split
    · exact ⟨hs, rfl⟩
    · exact ⟨⟨h1, wrap64_lt _, h3⟩, rfl⟩
  | rewind => exact ⟨⟨h1, by show 0 < 2 ^ 64; decide, h3⟩, rfl⟩
  | clear => exact ⟨⟨h1, by show 0 < 2 ^ 64; decide, h1⟩, rfl⟩
  | flip => exact ⟨⟨h1, by show 0 < 2 ^ 64; decide, h2⟩, rfl⟩
  | write d => exact write_reached hs d
  | writeLE d => exact write_reached hs _
  | writeBE d => exact write_reached hs _

theorem wrun_reached {big : Bool} {s : ByteWriter} (hs : Reached s) (ops : List Op) :
    Reached (run big s ops) ∧ (run big s ops).data.length = s.data.length := by
  rw [run]
  induction ops generalizing s with
  | nil => exact ⟨hs, rfl⟩
  | cons op ops ih =>
    have h1 := wstep_reached (big := big) hs op
    have h2 := ih h1.1
    exact ⟨h2.1, h2.2.trans h1.2⟩

theorem ofBuffer_reached (data : List Byte) (h : data.length < 2 ^ 64) : Reached (ofBuffer data) :=
  ⟨h, by show 0 < 2 ^ 64; decide, h⟩

theorem overwrite_inside (data : List Byte) (off : Nat) (src : List Byte) (h : off + src.length ≤ data.length) (i : Nat)
    (hi : i < src.length) : (overwrite data off src)[off + i]? = src[i]? := by
  unfold overwrite
  have hl : (data.take off).length = off := by simp; omega
  rw [List.append_assoc, List.getElem?_append_right (by omega), hl, List.getElem?_append_left (by omega)]
  congr 1
  omega

/-- **C03 and C04**, what a writing call does after any history: nothing for empty data; an error and nothing else when the
data ends beyond the buffer; otherwise the data is copied, whatever the limit is, and then the call succeeds, and the
position moves, unless the position is not above the limit and the data ends beyond it. -/
theorem C03_write_every_history (big : Bool) (data : List Byte) (hlen : data.length < 2 ^ 64) (ops : List Op)
    (s : ByteWriter) (hrun : run big (ofBuffer data) ops = s) (src : List Byte) (hsrc : src ≠ []) :
    (data.length < s.position + src.length → step big s (.write src) = (s, .error .overflow)) ∧
    (s.position + src.length ≤ data.length →
      (∀ i, i < src.length → (step big s (.write src)).1.data[s.position + i]? = src[i]?) ∧
      (∀ i, i < s.position ∨ s.position + src.length ≤ i → (step big s (.write src)).1.data[i]? = s.data[i]?) ∧
      (step big s (.write src)).1.limit = s.limit ∧
      ((s.position ≤ s.limit ∧ s.limit < s.position + src.length) →
        (step big s (.write src)).2 = .error .overflow ∧ (step big s (.write src)).1.position = s.position) ∧
      (¬ (s.position ≤ s.limit ∧ s.limit < s.position + src.length) →
        (step big s (.write src)).2 = .ok () ∧ (step big s (.write src)).1.position = s.position + src.length)) := by
  obtain ⟨⟨h1, h2, h3⟩, hl⟩ := wrun_reached (big := big) (ofBuffer_reached data hlen) ops
  rw [hrun] at h1 h2 h3 hl
  have hl : s.data.length = data.length := hl
  have hrem : (s.position ≤ s.limit ∧ s.remaining = s.limit - s.position) ∨
      (s.limit < s.position ∧ s.remaining = s.limit + 2 ^ 64 - s.position) := by
    by_cases h : s.position ≤ s.limit
    · exact .inl ⟨h, by rw [remaining, sub64_of_le h h3]⟩
    · exact .inr ⟨by omega, by rw [remaining, sub64_of_lt (by omega) (by omega)]⟩
  show (_ → s.write src = _) ∧ (_ → (∀ i, _ → (s.write src).1.data[_]? = _) ∧ (∀ i, _ → (s.write src).1.data[i]? = _) ∧
    (s.write src).1.limit = _ ∧ (_ → (s.write src).2 = _ ∧ (s.write src).1.position = _) ∧
    (_ → (s.write src).2 = _ ∧ (s.write src).1.position = _))
  rcases write_cases s src ⟨h1, h2⟩ with ⟨h, _⟩ | ⟨_, hc, hw⟩ | ⟨_, hc, hr, hw⟩ | ⟨_, hc, hr, hw⟩
  · exact absurd h hsrc
  · exact ⟨fun _ => hw, fun h => by omega⟩
  · rw [hw]
    refine ⟨fun h => by omega, fun _ => ⟨fun i hi => overwrite_inside _ _ _ hc i hi,
      fun i hi => overwrite_getElem? _ _ _ hc i hi, rfl, fun _ => ⟨rfl, rfl⟩, fun hn => ?_⟩⟩
    exfalso
    rcases hrem with ⟨h, e⟩ | ⟨h, e⟩
    · exact hn ⟨h, by omega⟩
    · omega
  · rw [hw]
    refine ⟨fun h => by omega, fun _ => ⟨fun i hi => overwrite_inside _ _ _ hc i hi,
      fun i hi => overwrite_getElem? _ _ _ hc i hi, rfl, fun hn => ?_, fun _ => ⟨rfl, rfl⟩⟩⟩
    exfalso
    rcases hrem with ⟨h, e⟩ | ⟨h, e⟩ <;> omega

/-- **C03, exactly when it fails**: after any history, some call changes a byte at or beyond the limit if and only if both
the position and the limit are inside the buffer (and not at its end). -/
theorem C03_fails_iff (big : Bool) (data : List Byte) (hlen : data.length < 2 ^ 64) (ops : List Op)
    (s : ByteWriter) (hrun : run big (ofBuffer data) ops = s) :
    (∃ op i, s.limit ≤ i ∧ (step big s op).1.data[i]? ≠ s.data[i]?) ↔
      s.position < data.length ∧ s.limit < data.length := by
  have hreach := wrun_reached (big := big) (ofBuffer_reached data hlen) ops
  rw [hrun] at hreach
  obtain ⟨⟨h1, h2, h3⟩, hl⟩ := hreach
  have hl : s.data.length = data.length := hl
  constructor
  · rintro ⟨op, i, hi, hne⟩
    by_cases hp : op.payload big = []
    · exact absurd (by rw [step_data_of_no_payload big s op hp]) hne
    · rw [step_write big s op (.inl hp)] at hne
      have hpos : 0 < (op.payload big).length := List.length_pos_iff.mpr hp
      have key : s.position + (op.payload big).length ≤ s.data.length →
          (overwrite s.data s.position (op.payload big))[i]? ≠ s.data[i]? →
          s.position < data.length ∧ s.limit < data.length := by
        intro hc hn
        refine ⟨by omega, Classical.byContradiction fun hlt => hn ?_⟩
        exact overwrite_getElem? _ _ _ hc i (.inr (by omega))
      rcases write_cases s (op.payload big) ⟨h1, h2⟩ with ⟨_, hw⟩ | ⟨_, _, hw⟩ | ⟨_, hc, _, hw⟩ | ⟨_, hc, _, hw⟩ <;>
        rw [hw] at hne
      · exact absurd rfl hne
      · exact absurd rfl hne
      · exact key hc hne
      · exact key hc hne
  · rintro ⟨hp, hlim⟩
    -- write up to the end of the buffer, with a last byte that differs
    obtain ⟨b, hb⟩ : ∃ b, s.data[data.length - 1]? = some b := ⟨_, List.getElem?_eq_getElem (by omega)⟩
    let src := List.replicate (data.length - s.position) (b + 1#8)
    have hsl : src.length = data.length - s.position := List.length_replicate
    have hne : src ≠ [] := by intro h; rw [h] at hsl; simp at hsl; omega
    have hex := (C03_write_every_history big data hlen ops s hrun src hne).2 (by omega)
    refine ⟨.write src, data.length - 1, by omega, ?_⟩
    have e : data.length - 1 = s.position + (data.length - 1 - s.position) := by omega
    rw [hb, e, hex.1 _ (by omega), List.getElem?_replicate_of_lt (by omega)]
    intro h
    have h' := Option.some.inj h
    have : b + 1#8 ≠ b := by bv_omega
    exact this h'

/-- **C04, exactly when it fails**: after any history, some call reports an error and changes the buffer if and only if the
position is not above the limit and the limit is inside the buffer (and not at its end). -/
theorem C04_fails_iff (big : Bool) (data : List Byte) (hlen : data.length < 2 ^ 64) (ops : List Op)
    (s : ByteWriter) (hrun : run big (ofBuffer data) ops = s) :
    (∃ op e, (step big s op).2 = .error e ∧ (step big s op).1 ≠ s) ↔ s.position ≤ s.limit ∧ s.limit < data.length := by
  have hreach := wrun_reached (big := big) (ofBuffer_reached data hlen) ops
  rw [hrun] at hreach
  obtain ⟨⟨h1, h2, h3⟩, hl⟩ := hreach
  have hl : s.data.length = data.length := hl
  constructor
  · rintro ⟨op, e, he, hne⟩
    refine Classical.byContradiction fun hn => hne ?_
    by_cases hp : op.payload big = []
    · obtain ⟨k1, k2, _⟩ := C04_failed_keeps_position big s ⟨h1, h2⟩ op e he
      have hd := step_data_of_no_payload big s op hp
      generalize (step big s op).1 = r at k1 k2 hd
      obtain ⟨d, p, l⟩ := r
      simp only at k1 k2 hd
      rw [k1, k2, hd]
    · rw [step_write big s op (.inl hp)] at he ⊢
      rcases write_cases s (op.payload big) ⟨h1, h2⟩ with ⟨_, hw⟩ | ⟨_, _, hw⟩ | ⟨_, hc, hr, hw⟩ | ⟨_, hc, _, hw⟩ <;>
        rw [hw] at he ⊢
      exfalso
      by_cases h : s.position ≤ s.limit
      · rw [remaining, sub64_of_le h h3] at hr; omega
      · rw [remaining, sub64_of_lt (by omega) (by omega)] at hr; omega
      · cases he
  · rintro ⟨hp, hlim⟩
    obtain ⟨b, hb⟩ : ∃ b, s.data[data.length - 1]? = some b := ⟨_, List.getElem?_eq_getElem (by omega)⟩
    let src := List.replicate (data.length - s.position) (b + 1#8)
    have hsl : src.length = data.length - s.position := List.length_replicate
    have hne : src ≠ [] := by intro h; rw [h] at hsl; simp at hsl; omega
    have hex := (C03_write_every_history big data hlen ops s hrun src hne).2 (by omega)
    refine ⟨.write src, _, (hex.2.2.2.1 ⟨hp, by omega⟩).1, fun h => ?_⟩
    have hx := hex.1 (data.length - 1 - s.position) (by omega)
    rw [h, show s.position + (data.length - 1 - s.position) = data.length - 1 by omega, hb,
      List.getElem?_replicate_of_lt (by omega)] at hx
    have h' := Option.some.inj hx
    have : b ≠ b + 1#8 := by bv_omega
    exact this h'

/-- **C03**, a further way out of order: calls can leave the limit beyond the end of the buffer. -/
theorem C03_limit_beyond_buffer :
    ∃ (data : List Byte) (ops : List Op), data.length < (run false (ofBuffer data) ops).limit :=
  ⟨[0, 0], [.write [1, 1], .limit 1, .advance 5, .flip], by decide +kernel⟩

example : run false (ofBuffer [0, 0, 0, 0]) [.limit 2] = ⟨[0, 0, 0, 0], 0, 2⟩ := by decide +kernel

end Solace.ByteWriter
