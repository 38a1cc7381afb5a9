import Verif.Lemmas.ByteWriter
/-
C03 (writing never touches bytes beyond the limit), C04 (a failed write changes nothing), C05 (writes accumulate).

C03 and C04 are false for the code: `write` checks its range against the capacity, copies, and only then checks the
limit in `advance`. Negations are proved with witnesses.
-/
namespace Solace.ByteWriter

/-- The data an operation offers to write, in the order in which it is stored. -/
def Op.payload (big : Bool) : Op → List Byte
  | .write d => d
  | .writeLE v => if big then v.reverse else v
  | .writeBE v => if big then v else v.reverse
  | _ => []

/-- The step of a writing call is `write` of its payload. -/
theorem step_write (big : Bool) (s : ByteWriter) (op : Op)
    (h : op.payload big ≠ [] ∨ (∃ d, op = .write d) ∨ (∃ d, op = .writeLE d) ∨ (∃ d, op = .writeBE d)) :
    step big s op = s.write (op.payload big) := by
  cases op with
  | write d => rfl
  | writeLE v => simp only [step, writeLE, Op.payload, swapBytes_eq_reverse]
  | writeBE v => cases big <;> simp [step, writeBE, Op.payload, swapBytes_eq_reverse]
  | _ => simp [Op.payload] at h

/-- Calls without a payload do not touch the buffer. -/
theorem step_data_of_no_payload (big : Bool) (s : ByteWriter) (op : Op) (h : op.payload big = []) :
    (step big s op).1.data = s.data := by
  have hw : ∀ src, src = [] → (s.write src).1.data = s.data := by
    rintro _ rfl; simp [write]
  cases op with
  | write d => exact hw _ h
  | writeLE v =>
    have := step_write big s (.writeLE v) (.inr (.inr (.inl ⟨v, rfl⟩)))
    rw [this]; exact hw _ h
  | writeBE v =>
    have := step_write big s (.writeBE v) (.inr (.inr (.inr ⟨v, rfl⟩)))
    rw [this]; exact hw _ h
  | limit n => simp only [step, setLimit]; split <;> rfl
  | position n => simp only [step, setPosition]; split <;> rfl
  | advance n => simp only [step, advance]; split <;> rfl
  | rewind => rfl
  | clear => rfl
  | flip => rfl

attribute [local irreducible] write remaining overwrite

/-- **C03** (partial: the data either fits below the limit or does not fit in the buffer at all). No call changes a byte
at or beyond the limit. Missing: data that would end between the limit and the capacity. -/
theorem C03_no_write_beyond_limit_partial (big : Bool) (s : ByteWriter) (hm : s.InMachine) (op : Op)
    (hfit : s.position + (op.payload big).length ≤ s.limit ∨ s.data.length < s.position + (op.payload big).length)
    (i : Nat) (hi : s.limit ≤ i) :
    (step big s op).1.data[i]? = s.data[i]? := by
  by_cases hp : op.payload big = []
  · rw [step_data_of_no_payload big s op hp]
  · rw [step_write big s op (.inl hp)]
    rcases write_cases s (op.payload big) hm with ⟨h, hw⟩ | ⟨_, _, hw⟩ | ⟨_, hc, hr, hw⟩ | ⟨_, hc, hr, hw⟩ <;> rw [hw]
    · exact overwrite_getElem? _ _ _ hc i (by omega)
    · exact overwrite_getElem? _ _ _ hc i (by omega)

example : (⟨[1, 2, 3, 4], 1, 3⟩ : ByteWriter).InMachine ∧
    ((1 : Nat) + (Op.payload false (.write [9, 9])).length ≤ 3) := by
  unfold InMachine; decide +kernel

/-- The exact case missing above is a real counterexample to the full C03: a *failing* write changes a byte beyond
the limit. -/
theorem C03_failed_write_beyond_limit :
    ∃ (data : List Byte) (ops : List Op) (s : ByteWriter) (op : Op),
      run false (ofBuffer data) ops = s ∧ s.position ≤ s.limit ∧
      (step false s op).2 = .error .overflow ∧ s.limit ≤ 2 ∧ s.data[2]? = some 0 ∧
      (step false s op).1.data[2]? = some 9 :=
  ⟨[0, 0, 0, 0], [.limit 2], ⟨[0, 0, 0, 0], 0, 2⟩, .write [7, 8, 9], by decide +kernel, by decide +kernel,
    by decide +kernel, by decide +kernel, by decide +kernel, by decide +kernel⟩

/-- And a *successful* write beyond the limit, when the limit was lowered below the position. -/
theorem C03_successful_write_beyond_limit :
    ∃ (data : List Byte) (ops : List Op) (s : ByteWriter) (op : Op),
      run false (ofBuffer data) ops = s ∧ (step false s op).2 = .ok () ∧ s.limit ≤ 2 ∧ s.data[2]? = some 0 ∧
      (step false s op).1.data[2]? = some 9 :=
  ⟨[0, 0, 0, 0], [.write [1, 1], .limit 1], ⟨[1, 1, 0, 0], 2, 1⟩, .write [9], by decide +kernel, by decide +kernel,
    by decide +kernel, by decide +kernel, by decide +kernel⟩

/-- **C04, position and limit** (full): a call that reports an error leaves position and limit unchanged, and never
touches memory outside the range it was asked to write. -/
theorem C04_failed_keeps_position (big : Bool) (s : ByteWriter) (hm : s.InMachine) (op : Op) (e : Err)
    (he : (step big s op).2 = .error e) :
    (step big s op).1.position = s.position ∧ (step big s op).1.limit = s.limit ∧
    (step big s op).1.data.length = s.data.length ∧
    ∀ i, (i < s.position ∨ s.position + (op.payload big).length ≤ i) → (step big s op).1.data[i]? = s.data[i]? := by
  by_cases hp : op.payload big = []
  · have hd := step_data_of_no_payload big s op hp
    refine ⟨?_, ?_, by rw [hd], fun i _ => by rw [hd]⟩
    all_goals
      cases op with
      | limit n => simp only [step, setLimit] at he ⊢; split at he <;> simp_all
      | position n => simp only [step, setPosition] at he ⊢; split at he <;> simp_all
      | advance n => simp only [step, advance] at he ⊢; split at he <;> simp_all
      | rewind => cases he
      | clear => cases he
      | flip => cases he
      | write d =>
        rw [step_write big s _ (.inr (.inl ⟨_, rfl⟩)), hp, write] at he; simp at he
      | writeLE d =>
        rw [step_write big s _ (.inr (.inr (.inl ⟨_, rfl⟩))), hp, write] at he; simp at he
      | writeBE d =>
        rw [step_write big s _ (.inr (.inr (.inr ⟨_, rfl⟩))), hp, write] at he; simp at he
  · rw [step_write big s op (.inl hp)] at he ⊢
    rcases write_cases s (op.payload big) hm with ⟨h, hw⟩ | ⟨_, _, hw⟩ | ⟨_, hc, hr, hw⟩ | ⟨_, hc, hr, hw⟩ <;>
      rw [hw] at he ⊢
    · cases he
    · exact ⟨rfl, rfl, rfl, fun _ _ => rfl⟩
    · exact ⟨rfl, rfl, overwrite_length _ _ _ hc, fun i hi => overwrite_getElem? _ _ _ hc i hi⟩
    · cases he

/-- **C04** (partial: the data either fits below the limit or does not fit in the buffer at all): a call that reports
an error leaves the writer, buffer included, unchanged. -/
theorem C04_failed_changes_nothing_partial (big : Bool) (s : ByteWriter) (hm : s.InMachine) (hlim : s.limit < 2 ^ 64)
    (op : Op)
    (hfit : s.position + (op.payload big).length ≤ s.limit ∨ s.data.length < s.position + (op.payload big).length)
    (e : Err) (he : (step big s op).2 = .error e) : (step big s op).1 = s := by
  have hk := C04_failed_keeps_position big s hm op e he
  have hd : (step big s op).1.data = s.data := by
    by_cases hp : op.payload big = []
    · exact step_data_of_no_payload big s op hp
    · rw [step_write big s op (.inl hp)] at he ⊢
      rcases write_cases s (op.payload big) hm with ⟨h, hw⟩ | ⟨_, _, hw⟩ | ⟨_, hc, hr, hw⟩ | ⟨_, hc, hr, hw⟩ <;>
        rw [hw] at he ⊢
      · rw [remaining, sub64_of_le (by omega) hlim] at hr
        omega
      · cases he
  generalize step big s op = r at hk hd
  obtain ⟨⟨d, p, l⟩, _⟩ := r
  obtain ⟨hp, hl, _⟩ := hk
  simp only at hp hl hd
  rw [hp, hl, hd]

example : (step false ⟨[1, 2, 3, 4], 1, 3⟩ (.write [9, 9, 9, 9])).2 = .error .overflow ∧
    [1, 2, 3, 4].length < 1 + (Op.payload false (.write [9, 9, 9, 9])).length := by
  decide +kernel

/-- **C04, negation of the full statement**: a failing write that changes the buffer. -/
theorem C04_failed_write_changes_buffer :
    ∃ (s : ByteWriter) (op : Op), s.position ≤ s.limit ∧ s.limit ≤ s.data.length ∧
      (step false s op).2 = .error .overflow ∧ (step false s op).1 ≠ s :=
  ⟨⟨[0, 0, 0, 0], 0, 2⟩, .write [7, 8, 9], by decide +kernel, by decide +kernel, by decide +kernel, by decide +kernel⟩

/-- Histories that never lower the limit (no `limit` or `flip` call). -/
def KeepsLimit : Op → Prop
  | .limit _ | .flip => False
  | _ => True

/-- A writer whose limit is its capacity. -/
def Open (s : ByteWriter) : Prop := s.position ≤ s.limit ∧ s.limit = s.data.length ∧ s.data.length < 2 ^ 64

theorem step_open {big s op} (h : Open s) (hop : KeepsLimit op) :
    Open (step big s op).1 ∧ (step big s op).1.data.length = s.data.length := by
  have ho := h
  obtain ⟨h1, h2, h3⟩ := h
  have hrem : s.remaining = s.limit - s.position := by rw [remaining, sub64_of_le h1 (by omega)]
  by_cases hp : op.payload big = []
  · have hd := step_data_of_no_payload big s op hp
    refine ⟨?_, by rw [hd]⟩
    cases op with
    | limit n => exact hop.elim
    | flip => exact hop.elim
    | position n =>
      simp only [step, setPosition]; split
      · exact ho
      · exact ⟨by simp only; omega, h2, h3⟩
    | advance n =>
      simp only [step, advance]; split
      · exact ho
      · have : wrap64 (s.position + n) ≤ s.position + n := wrap64_le _
        exact ⟨by simp only; omega, h2, h3⟩
    | rewind => exact ⟨Nat.zero_le _, h2, h3⟩
    | clear => exact ⟨Nat.zero_le _, rfl, h3⟩
    | write d =>
      rw [step_write big s _ (.inr (.inl ⟨_, rfl⟩)), hp, write]; exact ho
    | writeLE d =>
      rw [step_write big s _ (.inr (.inr (.inl ⟨_, rfl⟩))), hp, write]; exact ho
    | writeBE d =>
      rw [step_write big s _ (.inr (.inr (.inr ⟨_, rfl⟩))), hp, write]; exact ho
  · rw [step_write big s op (.inl hp)]
    rcases write_cases s (op.payload big) ⟨h3, by omega⟩ with ⟨h, hw⟩ | ⟨_, _, hw⟩ | ⟨_, hc, hr, hw⟩ | ⟨_, hc, hr, hw⟩ <;>
      rw [hw]
    · exact ⟨ho, rfl⟩
    · exact ⟨ho, rfl⟩
    · have := overwrite_length s.data s.position (op.payload big) hc
      exact ⟨⟨h1, by simp only; omega, by simp only; omega⟩, by simpa using this⟩
    · have := overwrite_length s.data s.position (op.payload big) hc
      exact ⟨⟨by simp only; omega, by simp only; omega, by simp only; omega⟩, by simpa using this⟩

/-- **C03 and C04 for histories** (partial: no call of `limit` or `flip`): starting from a fresh writer, any call that
reports an error changes nothing at all. -/
theorem C04_failed_changes_nothing_history_partial (big : Bool) (data : List Byte) (hlen : data.length < 2 ^ 64)
    (ops : List Op) (hops : ∀ op ∈ ops, KeepsLimit op) (op : Op) (e : Err)
    (he : (step big (run big (ofBuffer data) ops) op).2 = .error e) :
    (step big (run big (ofBuffer data) ops) op).1 = run big (ofBuffer data) ops := by
  have hinv : ∀ (ops : List Op) (s : ByteWriter), Open s → (∀ op ∈ ops, KeepsLimit op) → Open (run big s ops) := by
    intro ops
    induction ops with
    | nil => intro s h _; exact h
    | cons op ops ih =>
      intro s h hk
      exact ih _ (step_open h (hk op (by simp))).1 (fun o ho => hk o (by simp [ho]))
  have ⟨h1, h2, h3⟩ := hinv ops (ofBuffer data) ⟨Nat.zero_le _, rfl, hlen⟩ hops
  refine C04_failed_changes_nothing_partial big _ ⟨h3, by omega⟩ (by omega) op ?_ e he
  omega

example : (step false (run false (ofBuffer [0, 0, 0]) [.write [1, 2]]) (.write [3, 4])).2 = .error .overflow := by
  decide +kernel

/-- Specification of C05: what must have been accumulated after offering the byte strings one after the other to a
buffer of `cap` bytes, and which of them fitted. -/
def accumulate (cap : Nat) (sofar : List Byte) : List (List Byte) → List Byte × List Bool
  | [] => (sofar, [])
  | d :: ds =>
    if sofar.length + d.length ≤ cap then
      let (w, bs) := accumulate cap (sofar ++ d) ds
      (w, true :: bs)
    else
      let (w, bs) := accumulate cap sofar ds
      (w, false :: bs)

/-- **C05** (full). From a fresh writer over any buffer, after any list of writes: a write succeeds exactly when its
data fits in what remains, `viewWritten()` is the concatenation of the data that fitted, and the rest of the buffer is
unchanged. -/
theorem C05_writes_accumulate (buf : List Byte) (hlen : buf.length < 2 ^ 64) (ds : List (List Byte)) :
    let final := (ofBuffer buf).writeAll ds
    let spec := accumulate buf.length [] ds
    final.1.viewWritten = spec.1 ∧ final.2 = spec.2 ∧ final.1.data = spec.1 ++ buf.drop spec.1.length ∧
    final.1.position = spec.1.length := by
  have key : ∀ (ds : List (List Byte)) (s : ByteWriter) (sofar : List Byte),
      s.limit = buf.length → s.position = sofar.length → sofar.length ≤ buf.length →
      s.data = sofar ++ buf.drop sofar.length →
      (s.writeAll ds).2 = (accumulate buf.length sofar ds).2 ∧
      (s.writeAll ds).1.data =
        (accumulate buf.length sofar ds).1 ++ buf.drop (accumulate buf.length sofar ds).1.length ∧
      (s.writeAll ds).1.position = (accumulate buf.length sofar ds).1.length := by
    intro ds
    induction ds with
    | nil => intro s sofar h1 h2 h3 h4; exact ⟨rfl, h4, h2⟩
    | cons d ds ih =>
      intro s sofar h1 h2 h3 h4
      have hsl : s.data.length = buf.length := by rw [h4]; simp; omega
      have hrem : s.remaining = s.limit - s.position := by rw [remaining, sub64_of_le (by omega) (by omega)]
      rw [writeAll, accumulate]
      rcases write_cases s d ⟨by omega, by omega⟩ with ⟨h, hw⟩ | ⟨_, hc, hw⟩ | ⟨_, hc, hr, hw⟩ | ⟨_, hc, hr, hw⟩
      · rw [hw]
        have hfit : sofar.length + d.length ≤ buf.length := by rw [h]; simpa using h3
        rw [if_pos hfit]
        have := ih s (sofar ++ d) h1 (by simp [h, h2]) (by simpa [h] using h3) (by simpa [h] using h4)
        exact ⟨by simp only [this.1]; rfl, this.2⟩
      · rw [hw]
        rw [if_neg (by omega)]
        have := ih s sofar h1 h2 h3 h4
        exact ⟨by simp only [this.1]; rfl, this.2⟩
      · omega
      · rw [hw]
        have hfit : sofar.length + d.length ≤ buf.length := by omega
        rw [if_pos hfit]
        have hdata : overwrite s.data s.position d = (sofar ++ d) ++ buf.drop (sofar ++ d).length := by
          have ha := overwrite_take s.data s.position d hc
          have hb := overwrite_drop s.data s.position d hc
          rw [← List.take_append_drop (s.position + d.length) (overwrite s.data s.position d), ha, hb, h2, h4]
          rw [List.take_left, List.length_append]
          congr 1
          rw [← List.drop_drop, List.drop_left, List.drop_drop]
        have := ih { s with data := overwrite s.data s.position d, position := s.position + d.length } (sofar ++ d) h1
          (by simp [h2]) (by simpa using hfit) hdata
        exact ⟨by simp only [this.1]; rfl, this.2⟩
  have hspec := key ds (ofBuffer buf) [] rfl rfl (Nat.zero_le _) (by simp [ofBuffer])
  refine ⟨?_, hspec.1, hspec.2.1, hspec.2.2⟩
  rw [viewWritten, slice_eq, hspec.2.1, hspec.2.2]
  simp

example : ((ofBuffer [0, 0, 0, 0]).writeAll [[1, 2], [3, 4, 5], [6]]).1.viewWritten = [1, 2, 6] := by decide +kernel

end Solace.ByteWriter
