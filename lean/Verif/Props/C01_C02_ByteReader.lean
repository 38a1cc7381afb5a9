import Verif.Lemmas.ByteReader
/-
C01 (reading never passes the limit) and C02 (failed reader calls change nothing, no call aborts).

C01 and the second half of C02 are false for the code: `limit(n)` may lower the limit below the position, after which
`remaining()` wraps around. The negations are proved with witnesses, and the properties are proved for all call
histories in which no `limit(n)` call has `n` below the current position.
-/
namespace Solace.ByteReader

/-- Call histories in which the limit is never lowered below the position. -/
inductive SafeRun (big : Bool) : ByteReader → List Op → ByteReader → Prop where
  | nil (s) : SafeRun big s [] s
  | cons {s op r ops s'} : (∀ n, op = .limit n → s.position ≤ n) → step big s op = .ok r →
      SafeRun big r.reader ops s' → SafeRun big s (op :: ops) s'

/-- `bytes` are exactly the bytes stored in `data` at `pos`, `pos+1`, ... -/
def StoredAt (data : List Byte) (pos : Nat) (bytes : List Byte) : Prop :=
  ∀ i, i < bytes.length → (data[pos + i]? = bytes[i]? ∧ pos + i < data.length)

/-- What C01 says about one call: from reader `s`, call `op` returned `r`. For `readLE`/`readBE` the bytes of the
variable are the stored ones in the order in which the host stores a little-endian or big-endian number. -/
def GoodRead (big : Bool) (s : ByteReader) (op : Op) (r : ReadCall) : Prop :=
  ∀ v, r.ret = .ok v →
    match op with
    | .get => ∃ b, v = some b ∧ StoredAt s.data s.position [b] ∧ s.position + 1 ≤ s.limit ∧
        r.reader = { s with position := s.position + 1 }
    | .getAt p => ∃ b, v = some b ∧ StoredAt s.data p [b] ∧ p + 1 ≤ s.limit ∧ r.reader = s
    | .read d => r.dest.length = d.length ∧ StoredAt s.data s.position r.dest ∧
        s.position + d.length ≤ s.limit ∧ r.reader = { s with position := s.position + d.length }
    | .readLE d => r.dest.length = d.length ∧
        StoredAt s.data s.position (if big then r.dest.reverse else r.dest) ∧
        s.position + d.length ≤ s.limit ∧ r.reader = { s with position := s.position + d.length }
    | .readBE d => r.dest.length = d.length ∧
        StoredAt s.data s.position (if big then r.dest else r.dest.reverse) ∧
        s.position + d.length ≤ s.limit ∧ r.reader = { s with position := s.position + d.length }
    | .readAt o d => r.dest.length = d.length ∧ StoredAt s.data o r.dest ∧
        (d = [] ∨ o + d.length ≤ s.limit) ∧ r.reader = s
    | _ => True

/-- What C02 says about one call: after an error, the reader and the caller's destination are unchanged. -/
def FailureIsClean (s : ByteReader) (op : Op) (r : ReadCall) : Prop :=
  ∀ e, r.ret = .error e →
    r.reader = s ∧
      match op with
      | .read d | .readAt _ d | .readLE d | .readBE d => r.dest = d
      | _ => True

/-- Position and limit are in order. -/
def WF (s : ByteReader) : Prop := s.position ≤ s.limit ∧ s.limit ≤ s.data.length ∧ s.data.length < 2 ^ 64

theorem remaining_of_wf {s : ByteReader} (h : s.WF) : s.remaining = s.limit - s.position := by
  obtain ⟨h1, h2, h3⟩ := h
  exact sub64_of_le h1 (by omega)

attribute [local irreducible] read readAt remaining

theorem storedAt_window (data : List Byte) (p n : Nat) :
    StoredAt data p ((data.drop p).take n) := by
  intro i hi
  rw [List.length_take, List.length_drop] at hi
  constructor
  · rw [List.getElem?_take_of_lt (by omega), List.getElem?_drop]
  · omega

theorem thenSwap_reader (swap : Bool) (r : ReadCall) : (thenSwap swap r).reader = r.reader := by
  obtain ⟨_, ret, _⟩ := r
  cases ret <;> rfl

theorem thenSwap_ret (swap : Bool) (r : ReadCall) : (thenSwap swap r).ret = r.ret := by
  obtain ⟨_, ret, _⟩ := r
  cases ret <;> rfl

theorem thenSwap_error (swap : Bool) (r : ReadCall) (e) (h : r.ret = .error e) : thenSwap swap r = r := by
  obtain ⟨_, ret, _⟩ := r
  cases h; rfl

theorem thenSwap_dest (swap : Bool) (r : ReadCall) (v) (h : r.ret = .ok v) :
    (thenSwap swap r).dest = if swap then r.dest.reverse else r.dest := by
  obtain ⟨_, ret, _⟩ := r
  cases h
  rw [← swapBytes_eq_reverse]; rfl

/-- `readAt` never moves the reader, and a success means the window is below the limit. -/
theorem readAt_cases (s : ByteReader) (o : Nat) (d : List Byte) :
    s.readAt o d = ⟨s, .error .overflow, d⟩ ∨
    (s.readAt o d = ⟨s, .ok none, (s.data.drop o).take d.length⟩ ∧
      (d = [] ∨ (o + d.length ≤ s.limit ∧ o + d.length ≤ s.data.length))) := by
  rw [readAt]
  simp only
  have hle : wrap64 (o + d.length) ≤ o + d.length := wrap64_le _
  split
  · exact .inl rfl
  · rw [slice_length]
    split
    · exact .inl rfl
    · rename_i hA hB
      right
      by_cases hz : d = []
      · subst hz; simp
      · have h0 : 0 < d.length := List.length_pos_iff.mpr hz
        have heq : wrap64 (o + d.length) = o + d.length := by omega
        rw [heq] at hA hB ⊢
        rw [slice_eq]
        have : o + d.length - o = d.length := by omega
        rw [this, List.take_take, Nat.min_self]
        exact ⟨rfl, .inr ⟨by omega, by omega⟩⟩

theorem get_cases (s : ByteReader) :
    (s.get = .ok ⟨s, .error .overflow, []⟩ ∧ s.remaining < 1) ∨
    (1 ≤ s.remaining ∧ s.data[s.position]? = none ∧ s.get = .terminate) ∨
    ∃ b, 1 ≤ s.remaining ∧ s.data[s.position]? = some b ∧
      s.get = .ok ⟨{ s with position := wrap64 (s.position + 1) }, .ok (some b), []⟩ := by
  rw [get]
  split
  · exact .inl ⟨rfl, ‹_›⟩
  · right
    rw [MemoryView.at]
    cases h : s.data[s.position]? with
    | none => exact .inl ⟨by omega, rfl, rfl⟩
    | some b => exact .inr ⟨b, by omega, rfl, rfl⟩

theorem getAt_cases (s : ByteReader) (p : Nat) :
    (s.getAt p = .ok ⟨s, .error .overflow, []⟩ ∧ s.limit ≤ p) ∨
    (p < s.limit ∧ s.data[p]? = none ∧ s.getAt p = .terminate) ∨
    ∃ b, p < s.limit ∧ s.data[p]? = some b ∧ s.getAt p = .ok ⟨s, .ok (some b), []⟩ := by
  rw [getAt]
  split
  · exact .inl ⟨rfl, ‹_›⟩
  · right
    rw [MemoryView.at]
    cases h : s.data[p]? with
    | none => exact .inl ⟨by omega, rfl, rfl⟩
    | some b => exact .inr ⟨b, by omega, rfl, rfl⟩

attribute [local irreducible] get getAt

theorem step_wf {big s op r} (hwf : WF s) (hop : ∀ n, op = .limit n → s.position ≤ n)
    (h : step big s op = .ok r) : WF r.reader ∧ r.reader.data = s.data := by
  have hrem := remaining_of_wf hwf
  have hwf' := hwf
  obtain ⟨h1, h2, h3⟩ := hwf'
  have hread : ∀ d, WF (s.read d).reader ∧ (s.read d).reader.data = s.data := by
    intro d
    rcases read_cases s d h3 (by omega) with ⟨h, _⟩ | ⟨hr, _, h⟩ <;> rw [h]
    · exact ⟨hwf, rfl⟩
    · exact ⟨⟨by simp only; omega, h2, h3⟩, rfl⟩
  cases op with
  | limit n =>
    have := hop n rfl
    simp only [step, setLimit, Outcome.ok.injEq] at h
    split at h <;> subst h
    · exact ⟨hwf, rfl⟩
    · rename_i hc
      exact ⟨⟨by simp only; omega, Nat.le_of_not_lt hc, h3⟩, rfl⟩
  | position n =>
    simp only [step, setPosition, Outcome.ok.injEq] at h
    split at h <;> subst h
    · exact ⟨hwf, rfl⟩
    · exact ⟨⟨by simp only; omega, h2, h3⟩, rfl⟩
  | advance n =>
    simp only [step, advance, Outcome.ok.injEq] at h
    split at h <;> subst h
    · exact ⟨hwf, rfl⟩
    · refine ⟨⟨?_, h2, h3⟩, rfl⟩
      have : wrap64 (s.position + n) ≤ s.position + n := wrap64_le _
      simp only; omega
  | rewind =>
    simp only [step, rewind, Outcome.ok.injEq] at h
    subst h; exact ⟨⟨Nat.zero_le _, h2, h3⟩, rfl⟩
  | get =>
    rw [step] at h
    rcases get_cases s with ⟨hg, _⟩ | ⟨_, _, hg⟩ | ⟨b, _, _, hg⟩ <;> rw [hg] at h <;> cases h
    · exact ⟨hwf, rfl⟩
    · refine ⟨⟨?_, h2, h3⟩, rfl⟩
      have : wrap64 (s.position + 1) ≤ s.position + 1 := wrap64_le _
      simp only; omega
  | getAt p =>
    rw [step] at h
    rcases getAt_cases s p with ⟨hg, _⟩ | ⟨_, _, hg⟩ | ⟨b, _, _, hg⟩ <;> rw [hg] at h <;> cases h
    · exact ⟨hwf, rfl⟩
    · exact ⟨hwf, rfl⟩
  | read d =>
    cases h; exact hread d
  | readAt o d =>
    cases h
    rcases readAt_cases s o d with hc | ⟨hc, _⟩ <;> rw [hc] <;> exact ⟨hwf, rfl⟩
  | readLE d =>
    cases h
    rw [readLE, thenSwap_reader]
    exact hread d
  | readBE d =>
    cases h
    rw [readBE, thenSwap_reader]
    exact hread d

theorem safeRun_wf {big s ops s'} (h : SafeRun big s ops s') (hwf : WF s) :
    WF s' ∧ s'.data = s.data := by
  induction h with
  | nil => exact ⟨hwf, rfl⟩
  | cons hop hstep _ ih =>
    have h1 := step_wf hwf hop hstep
    have h2 := ih h1.1
    exact ⟨h2.1, h2.2.trans h1.2⟩

theorem ofView_wf (data : List Byte) (h : data.length < 2 ^ 64) : WF (ofView data) :=
  ⟨Nat.zero_le _, Nat.le_refl _, h⟩

/-- A successful `read` from a state in order, spelled out. -/
theorem goodRead_read {s : ByteReader} (hwf : WF s) (d : List Byte) (v) (hok : (s.read d).ret = .ok v) :
    (s.read d).dest.length = d.length ∧ StoredAt s.data s.position (s.read d).dest ∧
      s.position + d.length ≤ s.limit ∧ (s.read d).reader = { s with position := s.position + d.length } := by
  have hrem := remaining_of_wf hwf
  obtain ⟨h1, h2, h3⟩ := hwf
  rcases read_cases s d h3 (by omega) with ⟨h, _⟩ | ⟨hr, hor, h⟩
  · rw [h] at hok; cases hok
  · rw [h]
    refine ⟨by simp; omega, ?_, by omega, rfl⟩
    exact storedAt_window _ _ _

/-- **C01** (partial: histories in which the limit is never lowered below the position). Every successful reading call
returns exactly the bytes stored at the position reported before the call, moves the position by exactly the number of
bytes returned, and returns nothing stored at or beyond the limit. -/
theorem C01_reads_stay_below_limit_partial (big : Bool) (data : List Byte) (hlen : data.length < 2 ^ 64)
    (ops : List Op) (s : ByteReader) (hrun : SafeRun big (ofView data) ops s)
    (op : Op) (r : ReadCall) (hstep : step big s op = .ok r) :
    s.data = data ∧ s.limit ≤ data.length ∧ GoodRead big s op r := by
  have ⟨hwf, hdata⟩ := safeRun_wf hrun (ofView_wf data hlen)
  have hdata' : s.data = data := hdata
  have hrem := remaining_of_wf hwf
  refine ⟨hdata', hdata' ▸ hwf.2.1, ?_⟩
  have hwf' := hwf
  obtain ⟨h1, h2, h3⟩ := hwf'
  intro v hv
  have single : ∀ p b, s.data[p]? = some b → p < s.data.length → StoredAt s.data p [b] := by
    intro p b hb hp i hi
    have : i = 0 := by simpa using hi
    subst this
    exact ⟨by simpa using hb, by omega⟩
  cases op with
  | limit n => trivial
  | position n => trivial
  | advance n => trivial
  | rewind => trivial
  | get =>
    rw [step] at hstep
    rcases get_cases s with ⟨hg, _⟩ | ⟨_, _, hg⟩ | ⟨b, _, hb, hg⟩ <;> rw [hg] at hstep <;> cases hstep
    · cases hv
    · cases hv
      have hw : wrap64 (s.position + 1) = s.position + 1 := wrap64_of_lt (by omega)
      exact ⟨b, rfl, single _ _ hb (by omega), by omega, by rw [hw]⟩
  | getAt p =>
    rw [step] at hstep
    rcases getAt_cases s p with ⟨hg, _⟩ | ⟨_, _, hg⟩ | ⟨b, _, hb, hg⟩ <;> rw [hg] at hstep <;> cases hstep
    · cases hv
    · cases hv
      exact ⟨b, rfl, single _ _ hb (by omega), by omega, rfl⟩
  | read d =>
    cases hstep
    exact goodRead_read hwf d v hv
  | readAt o d =>
    cases hstep
    rcases readAt_cases s o d with hc | ⟨hc, hor⟩ <;> rw [hc] at hv ⊢
    · cases hv
    · rcases hor with rfl | ⟨ha, hb⟩
      · exact ⟨rfl, storedAt_window _ _ _, .inl rfl, rfl⟩
      · exact ⟨by simp; omega, storedAt_window _ _ _, .inr ha, rfl⟩
  | readLE d =>
    cases hstep
    rw [readLE, thenSwap_ret] at hv
    have := goodRead_read hwf d v hv
    simp only [readLE, thenSwap_reader]
    rw [thenSwap_dest _ _ v hv]
    cases big
    · simpa using this
    · simpa using this
  | readBE d =>
    cases hstep
    rw [readBE, thenSwap_ret] at hv
    have := goodRead_read hwf d v hv
    simp only [readBE, thenSwap_reader]
    rw [thenSwap_dest _ _ v hv]
    cases big
    · simpa using this
    · simpa using this

/-- The hypotheses of `C01_reads_stay_below_limit_partial` are met by a non-trivial history. -/
example : ∃ s r, SafeRun false (ofView [1, 2, 3, 4, 5]) [.limit 4, .read [0, 0], .position 1] s ∧
    step false s (.read [9, 9]) = .ok r ∧ r.ret = .ok none ∧ r.dest = [2, 3] := by
  refine ⟨⟨[1, 2, 3, 4, 5], 1, 4⟩, ⟨⟨[1, 2, 3, 4, 5], 3, 4⟩, .ok none, [2, 3]⟩, ?_, by decide +kernel, rfl, rfl⟩
  refine .cons (r := ⟨⟨[1, 2, 3, 4, 5], 0, 4⟩, .ok none, []⟩) ?_ (by decide +kernel)
    (.cons (r := ⟨⟨[1, 2, 3, 4, 5], 2, 4⟩, .ok none, [1, 2]⟩) ?_ (by decide +kernel)
    (.cons (r := ⟨⟨[1, 2, 3, 4, 5], 1, 4⟩, .ok none, []⟩) ?_ (by decide +kernel) (.nil _)))
  all_goals (intro n hn; cases hn)
  exact Nat.zero_le _

/-- **C01, negation of the full statement**: a history in which a successful `read` returns a byte stored beyond the
reported limit: read 2 bytes, lower the limit to 1, read again. -/
theorem C01_read_past_limit :
    ∃ (data : List Byte) (ops : List Op) (s : ByteReader) (r : ReadCall),
      run false (ofView data) ops = .ok s ∧ step false s (.read [0]) = .ok r ∧
      r.ret = .ok none ∧ r.dest = [3] ∧ s.data[s.position]? = some 3 ∧ s.limit ≤ s.position :=
  ⟨[1, 2, 3, 4], [.read [0, 0], .limit 1], ⟨[1, 2, 3, 4], 2, 1⟩, ⟨⟨[1, 2, 3, 4], 3, 1⟩, .ok none, [3]⟩,
    by decide +kernel, by decide +kernel, by decide +kernel, by decide +kernel, by decide +kernel, by decide +kernel⟩

/-- What still holds in every history, with no restriction: a successful `read` returns bytes stored inside the buffer
at the position reported before the call. -/
theorem C01_reads_stay_in_buffer (s : ByteReader) (hlen : s.data.length < 2 ^ 64) (hpos : s.position < 2 ^ 64)
    (d : List Byte) (v) (hok : (s.read d).ret = .ok v) :
    StoredAt s.data s.position (s.read d).dest ∧ (s.read d).dest.length = d.length := by
  rcases read_cases s d hlen hpos with ⟨h, _⟩ | ⟨hr, hor, h⟩
  · rw [h] at hok; cases hok
  · rw [h]
    constructor
    · apply storedAt_window
    · rcases hor with h | h
      · simp; omega
      · simp [h]

/-- A state in which the limit was lowered below the position satisfies the hypotheses. -/
example : ((⟨[1, 2, 3, 4], 2, 1⟩ : ByteReader).read [0]).ret = .ok none := by decide +kernel

/-- **C02, first half** (full): whenever a call reports an error, the reader and the caller's destination are exactly
what they were. Holds in every state, reachable or not. -/
theorem C02_failure_is_clean (big : Bool) (s : ByteReader) (op : Op) (r : ReadCall)
    (h : step big s op = .ok r) : FailureIsClean s op r := by
  have hread : ∀ d e, (s.read d).ret = .error e → (s.read d).reader = s ∧ (s.read d).dest = d := by
    intro d e h
    rw [read] at h ⊢
    simp only at h ⊢
    split at h
    · simp_all
    · split at h
      · simp_all
      · cases h
  intro e he
  cases op with
  | limit n =>
    cases h
    rw [setLimit] at he ⊢
    split at he
    · simp_all
    · cases he
  | position n =>
    cases h
    rw [setPosition] at he ⊢
    split at he
    · simp_all
    · cases he
  | advance n =>
    cases h
    rw [advance] at he ⊢
    split at he
    · simp_all
    · cases he
  | rewind => cases h; cases he
  | get =>
    rw [step] at h
    rcases get_cases s with ⟨hg, _⟩ | ⟨_, _, hg⟩ | ⟨b, _, hb, hg⟩ <;> rw [hg] at h <;> cases h
    · exact ⟨rfl, trivial⟩
    · cases he
  | getAt p =>
    rw [step] at h
    rcases getAt_cases s p with ⟨hg, _⟩ | ⟨_, _, hg⟩ | ⟨b, _, hb, hg⟩ <;> rw [hg] at h <;> cases h
    · exact ⟨rfl, trivial⟩
    · cases he
  | read d =>
    cases h
    exact hread d e he
  | readAt o d =>
    cases h
    rcases readAt_cases s o d with hc | ⟨hc, hor⟩ <;> rw [hc] at he ⊢
    · exact ⟨rfl, rfl⟩
    · cases he
  | readLE d =>
    cases h
    rw [readLE, thenSwap_ret] at he
    rw [readLE, thenSwap_error _ _ e he]
    exact hread d e he
  | readBE d =>
    cases h
    rw [readBE, thenSwap_ret] at he
    rw [readBE, thenSwap_error _ _ e he]
    exact hread d e he

/-- A failing call, to show the hypothesis is met. -/
example : ∃ r, step false (ofView [1, 2]) (.read [7, 8, 9]) = .ok r ∧ r.ret = .error .overflow ∧ r.dest = [7, 8, 9] :=
  ⟨⟨ofView [1, 2], .error .overflow, [7, 8, 9]⟩, by decide +kernel, rfl, rfl⟩

/-- **C02, second half** (partial: the limit is never lowered below the position): no call aborts. -/
theorem C02_no_abort_partial (big : Bool) (data : List Byte) (hlen : data.length < 2 ^ 64)
    (ops : List Op) (s : ByteReader) (hrun : SafeRun big (ofView data) ops s) (op : Op) :
    ∃ r, step big s op = .ok r := by
  have ⟨hwf, _⟩ := safeRun_wf hrun (ofView_wf data hlen)
  have hrem := remaining_of_wf hwf
  obtain ⟨h1, h2, h3⟩ := hwf
  cases op with
  | get =>
    rcases get_cases s with ⟨hg, _⟩ | ⟨hr, hn, hg⟩ | ⟨b, _, hb, hg⟩
    · exact ⟨_, hg⟩
    · rw [List.getElem?_eq_none_iff] at hn; omega
    · exact ⟨_, hg⟩
  | getAt p =>
    rcases getAt_cases s p with ⟨hg, _⟩ | ⟨hr, hn, hg⟩ | ⟨b, _, hb, hg⟩
    · exact ⟨_, hg⟩
    · rw [List.getElem?_eq_none_iff] at hn; omega
    · exact ⟨_, hg⟩
  | _ => exact ⟨_, rfl⟩

example : ∃ s, SafeRun false (ofView [1, 2, 3]) [.read [0, 0, 0], .get] s ∧ s.position = 3 :=
  ⟨⟨[1, 2, 3], 3, 3⟩,
    .cons (r := ⟨⟨[1, 2, 3], 3, 3⟩, .ok none, [1, 2, 3]⟩) (by intro n h; cases h) (by decide +kernel)
      (.cons (r := ⟨⟨[1, 2, 3], 3, 3⟩, .error .overflow, []⟩) (by intro n h; cases h) (by decide +kernel) (.nil _)),
    rfl⟩

/-- **C02, negation of the full second half**: reading to the end, lowering the limit and calling `get` aborts the
program. -/
theorem C02_abort_reachable :
    ∃ (data : List Byte) (ops : List Op) (s : ByteReader),
      run false (ofView data) ops = .ok s ∧ step false s .get = .terminate :=
  ⟨[1, 2], [.read [0, 0], .limit 1], ⟨[1, 2], 2, 1⟩, by decide +kernel, by decide +kernel⟩

end Solace.ByteReader
