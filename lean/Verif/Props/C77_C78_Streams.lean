import Verif.Props.C01_C02_ByteReader
import Verif.Props.C03_C05_ByteWriter
/-
C77 (reader calls succeed exactly when they fit, and then do exactly what they say) and C78 (the same for the writer).

Both hold as long as the limit is not below the position (C01-C04 have what happens otherwise).
-/
namespace Solace

namespace ByteReader

/-- When a call is to succeed. -/
def Fits (s : ByteReader) : Op → Prop
  | .limit n => n ≤ s.data.length
  | .position n => n ≤ s.limit
  | .advance n => s.position + n ≤ s.limit
  | .rewind => True
  | .get => s.position < s.limit
  | .getAt p => p < s.limit
  | .read d => s.position + d.length ≤ s.limit
  | .readAt o d => o + d.length ≤ s.limit
  | .readLE d => s.position + d.length ≤ s.limit
  | .readBE d => s.position + d.length ≤ s.limit

/-- Position and limit after a call that succeeds. -/
def after (s : ByteReader) : Op → Nat × Nat
  | .limit n => (s.position, n)
  | .position n => (n, s.limit)
  | .advance n => (s.position + n, s.limit)
  | .rewind => (0, s.limit)
  | .get => (s.position + 1, s.limit)
  | .getAt _ => (s.position, s.limit)
  | .read d => (s.position + d.length, s.limit)
  | .readAt _ _ => (s.position, s.limit)
  | .readLE d => (s.position + d.length, s.limit)
  | .readBE d => (s.position + d.length, s.limit)

/-- The bytes a successful call reports, by the offset at which they are stored; a byte read backwards for the other byte
order. -/
def delivered (big : Bool) (s : ByteReader) : Op → List Byte
  | .get => (s.data.drop s.position).take 1
  | .getAt p => (s.data.drop p).take 1
  | .read d => (s.data.drop s.position).take d.length
  | .readAt o d => (s.data.drop o).take d.length
  | .readLE d => if big then ((s.data.drop s.position).take d.length).reverse else (s.data.drop s.position).take d.length
  | .readBE d => if big then (s.data.drop s.position).take d.length else ((s.data.drop s.position).take d.length).reverse
  | _ => []

/-- What the caller gets: the byte returned or the bytes stored at the destination. -/
def received (r : ReadCall) : List Byte :=
  match r.ret with
  | .ok (some b) => [b]
  | _ => r.dest

/-- Arguments are `size_t`. -/
def Op.InMachine : Op → Prop
  | .readAt o d => o < 2 ^ 64 ∧ d.length < 2 ^ 64
  | _ => True

theorem take_one_drop {l : List Byte} {i : Nat} {b : Byte} (h : l[i]? = some b) : (l.drop i).take 1 = [b] := by
  obtain ⟨hi, rfl⟩ := List.getElem?_eq_some_iff.mp h
  rw [List.drop_eq_getElem_cons hi]; rfl

theorem readAt_exact (s : ByteReader) (o : Nat) (d : List Byte) (hl : s.data.length < 2 ^ 64) (hlim : s.limit ≤ s.data.length)
    (ho : o < 2 ^ 64) (hd : d.length < 2 ^ 64) :
    s.readAt o d =
      if o + d.length ≤ s.limit then ⟨s, .ok none, (s.data.drop o).take d.length⟩ else ⟨s, .error .overflow, d⟩ := by
  rw [readAt]
  simp only
  by_cases hf : o + d.length ≤ s.limit
  · have hw : wrap64 (o + d.length) = o + d.length := wrap64_of_lt (by omega)
    rw [hw, if_neg (by omega), if_pos hf, slice_length, if_neg (by omega), slice_eq]
    congr 1
    rw [List.take_take]
    congr 1
    omega
  · rw [if_neg hf]
    by_cases hov : o + d.length < 2 ^ 64
    · have hw : wrap64 (o + d.length) = o + d.length := wrap64_of_lt hov
      rw [hw, if_pos (by omega)]
    · have hw : wrap64 (o + d.length) < o := by
        rw [wrap64_def]; omega
      split
      · rfl
      · rw [slice_length, if_pos (by omega)]

theorem read_exact (s : ByteReader) (hwf : WF s) (d : List Byte) :
    s.read d =
      if s.position + d.length ≤ s.limit then
        ⟨{ s with position := s.position + d.length }, .ok none, (s.data.drop s.position).take d.length⟩
      else ⟨s, .error .overflow, d⟩ := by
  have hrem := remaining_of_wf hwf
  obtain ⟨h1, h2, h3⟩ := hwf
  rcases read_cases s d h3 (by omega) with ⟨h, hc⟩ | ⟨hr, hor, h⟩ <;> rw [h]
  · rw [if_neg (by omega)]
  · rw [if_pos (by omega)]

theorem thenSwap_ok (swap : Bool) (s : ByteReader) (b : List Byte) :
    thenSwap swap ⟨s, .ok none, b⟩ = ⟨s, .ok none, if swap then b.reverse else b⟩ := by
  rw [← swapBytes_eq_reverse]; rfl

theorem thenSwap_err (swap : Bool) (s : ByteReader) (e : Err) (b : List Byte) :
    thenSwap swap ⟨s, .error e, b⟩ = ⟨s, .error e, b⟩ := rfl

attribute [local irreducible] read readAt

/-- **C77** for one call from a state whose position is not beyond the limit. -/
theorem step_exact (big : Bool) (s : ByteReader) (hwf : WF s) (op : Op) (hop : op.InMachine) :
    ∃ r, step big s op = .ok r ∧ r.reader.data = s.data ∧
      (Fits s op → (∃ v, r.ret = .ok v) ∧ (r.reader.position, r.reader.limit) = after s op ∧
        received r = delivered big s op) ∧
      (¬ Fits s op → r.ret = .error .overflow) := by
  have hrem := remaining_of_wf hwf
  have hwf' := hwf
  obtain ⟨h1, h2, h3⟩ := hwf'
  cases op with
  | limit n =>
    simp only [step, setLimit, capacity, Fits, after]
    split
    · exact ⟨_, rfl, rfl, fun h => absurd h (by omega), fun _ => rfl⟩
    · exact ⟨_, rfl, rfl, fun _ => ⟨⟨_, rfl⟩, rfl, rfl⟩, fun h => absurd (Nat.le_of_not_lt ‹_›) h⟩
  | position n =>
    simp only [step, setPosition, Fits, after]
    split
    · exact ⟨_, rfl, rfl, fun h => absurd h (by omega), fun _ => rfl⟩
    · exact ⟨_, rfl, rfl, fun _ => ⟨⟨_, rfl⟩, rfl, rfl⟩, fun h => absurd (Nat.le_of_not_lt ‹_›) h⟩
  | advance n =>
    simp only [step, advance, Fits, after]
    split
    · exact ⟨_, rfl, rfl, fun h => absurd h (by omega), fun _ => rfl⟩
    · have hw : wrap64 (s.position + n) = s.position + n := wrap64_of_lt (by omega)
      rw [hw]
      exact ⟨_, rfl, rfl, fun _ => ⟨⟨_, rfl⟩, rfl, rfl⟩, fun h => absurd (by omega) h⟩
  | rewind => exact ⟨_, rfl, rfl, fun _ => ⟨⟨_, rfl⟩, rfl, rfl⟩, fun h => absurd trivial h⟩
  | get =>
    rw [step]
    rcases get_cases s with ⟨hg, hr⟩ | ⟨hr, hn, hg⟩ | ⟨b, hr, hb, hg⟩
    · exact ⟨_, hg, rfl, fun h => absurd h (by simp only [Fits]; omega), fun _ => rfl⟩
    · rw [List.getElem?_eq_none_iff] at hn; omega
    · have hw : wrap64 (s.position + 1) = s.position + 1 := wrap64_of_lt (by omega)
      rw [hw] at hg
      exact ⟨_, hg, rfl, fun _ => ⟨⟨_, rfl⟩, rfl, (take_one_drop hb).symm⟩,
        fun h => absurd (by omega : s.position < s.limit) h⟩
  | getAt p =>
    rw [step]
    rcases getAt_cases s p with ⟨hg, hr⟩ | ⟨hr, hn, hg⟩ | ⟨b, hr, hb, hg⟩
    · exact ⟨_, hg, rfl, fun h => absurd h (by simp only [Fits]; omega), fun _ => rfl⟩
    · rw [List.getElem?_eq_none_iff] at hn; omega
    · exact ⟨_, hg, rfl, fun _ => ⟨⟨_, rfl⟩, rfl, (take_one_drop hb).symm⟩, fun h => absurd hr h⟩
  | read d =>
    rw [step, read_exact s hwf d]
    split
    · exact ⟨_, rfl, rfl, fun _ => ⟨⟨_, rfl⟩, rfl, rfl⟩, fun h => absurd ‹_› h⟩
    · exact ⟨_, rfl, rfl, fun h => absurd h ‹_›, fun _ => rfl⟩
  | readAt o d =>
    rw [step, readAt_exact s o d h3 h2 hop.1 hop.2]
    split
    · exact ⟨_, rfl, rfl, fun _ => ⟨⟨_, rfl⟩, rfl, rfl⟩, fun h => absurd ‹_› h⟩
    · exact ⟨_, rfl, rfl, fun h => absurd h ‹_›, fun _ => rfl⟩
  | readLE d =>
    rw [step, readLE, read_exact s hwf d]
    split
    · rw [thenSwap_ok]
      exact ⟨_, rfl, rfl, fun _ => ⟨⟨_, rfl⟩, rfl, rfl⟩, fun h => absurd ‹_› h⟩
    · rw [thenSwap_err]
      exact ⟨_, rfl, rfl, fun h => absurd h ‹_›, fun _ => rfl⟩
  | readBE d =>
    rw [step, readBE, read_exact s hwf d]
    split
    · rw [thenSwap_ok]
      refine ⟨_, rfl, rfl, fun _ => ⟨⟨_, rfl⟩, rfl, ?_⟩, fun h => absurd ‹_› h⟩
      cases big <;> rfl
    · rw [thenSwap_err]
      exact ⟨_, rfl, rfl, fun h => absurd h ‹_›, fun _ => rfl⟩

/-- **C77** (partial: histories in which the limit is never lowered below the position). A call succeeds exactly when what
it asks for lies below the limit (for `limit(n)`: within the buffer); then position and limit are what the call says, the
caller gets exactly the bytes asked for, in order, and the buffer is unchanged. Otherwise it reports an overflow. -/
theorem C77_reader_exact_partial (big : Bool) (data : List Byte) (hlen : data.length < 2 ^ 64) (ops : List Op) (s : ByteReader)
    (hrun : SafeRun big (ofView data) ops s) (op : Op) (hop : op.InMachine) :
    ∃ r, step big s op = .ok r ∧ r.reader.data = data ∧
      (Fits s op → (∃ v, r.ret = .ok v) ∧ (r.reader.position, r.reader.limit) = after s op ∧
        received r = delivered big s op) ∧
      (¬ Fits s op → r.ret = .error .overflow) := by
  have ⟨hwf, hdata⟩ := safeRun_wf hrun (ofView_wf data hlen)
  have hdata' : s.data = data := hdata
  have := step_exact big s hwf op hop
  rwa [hdata'] at this

example : SafeRun false (ofView [1, 2, 3]) [.advance 1] ⟨[1, 2, 3], 1, 3⟩ ∧ (Op.readAt 1 [0, 0]).InMachine ∧
    Fits ⟨[1, 2, 3], 1, 3⟩ (.readAt 1 [0, 0]) ∧ ¬ Fits ⟨[1, 2, 3], 1, 3⟩ (.advance 3) := by
  refine ⟨.cons (r := ⟨⟨[1, 2, 3], 1, 3⟩, .ok none, []⟩) (by intro n h; cases h) (by decide +kernel) (.nil _), ?_, ?_, ?_⟩
  · unfold Op.InMachine; decide
  · unfold Fits; decide
  · unfold Fits; decide

/-- When a call succeeds although the limit has been lowered below the position: what is left wraps around to nearly
2^64, so advancing and reading are only stopped by the end of the buffer. -/
def FitsPast (s : ByteReader) : Op → Prop
  | .limit n => n ≤ s.data.length
  | .position n => n ≤ s.limit
  | .advance n => s.position + n ≤ s.limit + 2 ^ 64
  | .rewind => True
  | .get => True
  | .getAt p => p < s.limit
  | .readAt o d => o + d.length ≤ s.limit
  | .read d => d = [] ∨ s.position + d.length ≤ s.data.length
  | .readLE d => d = [] ∨ s.position + d.length ≤ s.data.length
  | .readBE d => d = [] ∨ s.position + d.length ≤ s.data.length

theorem read_past (s : ByteReader) (hl : s.data.length < 2 ^ 64) (hlim : s.limit ≤ s.data.length)
    (hp : s.limit < s.position) (hp64 : s.position < 2 ^ 64) (d : List Byte) :
    ((d = [] ∨ s.position + d.length ≤ s.data.length) → s.read d =
        ⟨{ s with position := s.position + d.length }, .ok none, (s.data.drop s.position).take d.length⟩) ∧
    (¬ (d = [] ∨ s.position + d.length ≤ s.data.length) → s.read d = ⟨s, .error .overflow, d⟩) := by
  have hrem : s.remaining = s.limit + 2 ^ 64 - s.position := sub64_of_lt hp (by omega)
  rcases read_cases s d hl hp64 with ⟨h, hc⟩ | ⟨hr, hor, h⟩
  · constructor
    · rintro (rfl | hd)
      · simp only [List.length_nil] at hc
        unfold ByteReader.read
        simp only [List.length_nil]
        rw [if_neg (by omega), if_neg (by omega), Nat.add_zero, wrap64_of_lt hp64]
        rfl
      · omega
    · intro _; exact h
  · constructor
    · intro _; exact h
    · intro hn; exact absurd hor.symm hn

/-- **C77**, the other states: whatever has been done before, a call either leaves the limit at or above the position,
which is the case above, or it is made with the limit below the position. Then `get` ends the program when the position is
outside of the buffer, and every other call succeeds exactly when `FitsPast` says so - reading beyond the limit - and moves
the position modulo 2^64. -/
theorem C77_past_limit (big : Bool) (s : ByteReader) (hl : s.data.length < 2 ^ 64) (hlim : s.limit ≤ s.data.length)
    (hp : s.limit < s.position) (hp64 : s.position < 2 ^ 64) (op : Op) (hop : op.InMachine) :
    (op = .get ∧ s.data.length ≤ s.position → step big s op = .terminate) ∧
    (¬ (op = .get ∧ s.data.length ≤ s.position) → ∃ r, step big s op = .ok r ∧ r.reader.data = s.data ∧
      (FitsPast s op → (∃ v, r.ret = .ok v) ∧
        (r.reader.position, r.reader.limit) = ((after s op).1 % 2 ^ 64, (after s op).2) ∧
        received r = delivered big s op) ∧
      (¬ FitsPast s op → r.ret = .error .overflow ∧ r.reader = s)) := by
  have hrem : s.remaining = s.limit + 2 ^ 64 - s.position := sub64_of_lt hp (by omega)
  have hmod : ∀ n, n < 2 ^ 64 → n = n % 2 ^ 64 := fun n hn => (Nat.mod_eq_of_lt hn).symm
  have hread : ∀ d : List Byte, (d = [] ∨ s.position + d.length ≤ s.data.length) → s.position + d.length < 2 ^ 64 := by
    rintro d (rfl | hd)
    · simpa using hp64
    · omega
  cases op with
  | limit n =>
    refine ⟨fun h => (nomatch h.1), fun _ => ?_⟩
    simp only [step, setLimit, capacity, FitsPast, after]
    split
    · exact ⟨_, rfl, rfl, fun h => absurd h (by omega), fun _ => ⟨rfl, rfl⟩⟩
    · exact ⟨_, rfl, rfl, fun _ => ⟨⟨_, rfl⟩, by rw [← hmod _ hp64], rfl⟩, fun h => absurd (Nat.le_of_not_lt ‹_›) h⟩
  | position n =>
    refine ⟨fun h => (nomatch h.1), fun _ => ?_⟩
    simp only [step, setPosition, FitsPast, after]
    split
    · exact ⟨_, rfl, rfl, fun h => absurd h (by omega), fun _ => ⟨rfl, rfl⟩⟩
    · exact ⟨_, rfl, rfl, fun _ => ⟨⟨_, rfl⟩, by rw [← hmod n (by omega)], rfl⟩,
        fun h => absurd (Nat.le_of_not_lt ‹_›) h⟩
  | advance n =>
    refine ⟨fun h => (nomatch h.1), fun _ => ?_⟩
    simp only [step, advance, FitsPast, after]
    split
    · exact ⟨_, rfl, rfl, fun h => absurd h (by omega), fun _ => ⟨rfl, rfl⟩⟩
    · rw [wrap64_def]
      exact ⟨_, rfl, rfl, fun _ => ⟨⟨_, rfl⟩, rfl, rfl⟩, fun h => absurd (by omega) h⟩
  | rewind =>
    exact ⟨fun h => (nomatch h.1), fun _ => ⟨_, rfl, rfl, fun _ => ⟨⟨_, rfl⟩, rfl, rfl⟩, fun h => absurd trivial h⟩⟩
  | get =>
    rw [step]
    rcases get_cases s with ⟨hg, hr⟩ | ⟨hr, hn, hg⟩ | ⟨b, hr, hb, hg⟩
    · omega
    · rw [List.getElem?_eq_none_iff] at hn
      exact ⟨fun _ => hg, fun h => absurd ⟨rfl, hn⟩ h⟩
    · obtain ⟨hi, _⟩ := List.getElem?_eq_some_iff.mp hb
      refine ⟨fun h => by omega, fun _ => ?_⟩
      rw [wrap64_def] at hg
      exact ⟨_, hg, rfl, fun _ => ⟨⟨_, rfl⟩, rfl, (take_one_drop hb).symm⟩, fun h => absurd trivial h⟩
  | getAt p =>
    refine ⟨fun h => (nomatch h.1), fun _ => ?_⟩
    rw [step]
    rcases getAt_cases s p with ⟨hg, hr⟩ | ⟨hr, hn, hg⟩ | ⟨b, hr, hb, hg⟩
    · exact ⟨_, hg, rfl, fun h => absurd h (by simp only [FitsPast]; omega), fun _ => ⟨rfl, rfl⟩⟩
    · rw [List.getElem?_eq_none_iff] at hn; omega
    · exact ⟨_, hg, rfl, fun _ => ⟨⟨_, rfl⟩, by simp only [after]; rw [← hmod _ hp64], (take_one_drop hb).symm⟩,
        fun h => absurd hr h⟩
  | readAt o d =>
    refine ⟨fun h => (nomatch h.1), fun _ => ?_⟩
    rw [step, readAt_exact s o d hl hlim hop.1 hop.2]
    split
    · exact ⟨_, rfl, rfl, fun _ => ⟨⟨_, rfl⟩, by simp only [after]; rw [← hmod _ hp64], rfl⟩, fun h => absurd ‹_› h⟩
    · exact ⟨_, rfl, rfl, fun h => absurd h ‹_›, fun _ => ⟨rfl, rfl⟩⟩
  | read d =>
    refine ⟨fun h => (nomatch h.1), fun _ => ?_⟩
    obtain ⟨h1, h2⟩ := read_past s hl hlim hp hp64 d
    rw [step]
    by_cases hf : d = [] ∨ s.position + d.length ≤ s.data.length
    · rw [h1 hf]
      exact ⟨_, rfl, rfl, fun _ => ⟨⟨_, rfl⟩, by simp only [after]; rw [← hmod _ (hread d hf)], rfl⟩, fun h => absurd hf h⟩
    · rw [h2 hf]
      exact ⟨_, rfl, rfl, fun h => absurd h hf, fun _ => ⟨rfl, rfl⟩⟩
  | readLE d =>
    refine ⟨fun h => (nomatch h.1), fun _ => ?_⟩
    obtain ⟨h1, h2⟩ := read_past s hl hlim hp hp64 d
    rw [step, readLE]
    by_cases hf : d = [] ∨ s.position + d.length ≤ s.data.length
    · rw [h1 hf, thenSwap_ok]
      exact ⟨_, rfl, rfl, fun _ => ⟨⟨_, rfl⟩, by simp only [after]; rw [← hmod _ (hread d hf)], rfl⟩, fun h => absurd hf h⟩
    · rw [h2 hf, thenSwap_err]
      exact ⟨_, rfl, rfl, fun h => absurd h hf, fun _ => ⟨rfl, rfl⟩⟩
  | readBE d =>
    refine ⟨fun h => (nomatch h.1), fun _ => ?_⟩
    obtain ⟨h1, h2⟩ := read_past s hl hlim hp hp64 d
    rw [step, readBE]
    by_cases hf : d = [] ∨ s.position + d.length ≤ s.data.length
    · rw [h1 hf, thenSwap_ok]
      refine ⟨_, rfl, rfl, fun _ => ⟨⟨_, rfl⟩, by simp only [after]; rw [← hmod _ (hread d hf)], ?_⟩, fun h => absurd hf h⟩
      cases big <;> rfl
    · rw [h2 hf, thenSwap_err]
      exact ⟨_, rfl, rfl, fun h => absurd h hf, fun _ => ⟨rfl, rfl⟩⟩

example : FitsPast ⟨[1, 2, 3, 4], 2, 1⟩ (.read [0, 0]) ∧ ¬ FitsPast ⟨[1, 2, 3, 4], 2, 1⟩ (.read [0, 0, 0]) ∧
    step false ⟨[1, 2, 3, 4], 2, 1⟩ (.read [0, 0]) = .ok ⟨⟨[1, 2, 3, 4], 4, 1⟩, .ok none, [3, 4]⟩ ∧
    step false ⟨[1, 2, 3, 4], 4, 1⟩ .get = .terminate := by
  refine ⟨by unfold FitsPast; decide, by unfold FitsPast; decide, ?_, ?_⟩
  · obtain ⟨h, _⟩ := read_past ⟨[1, 2, 3, 4], 2, 1⟩ (by decide) (by decide) (by decide) (by decide) [0, 0]
    rw [step, h (.inr (by decide))]
    rfl
  · exact (C77_past_limit false ⟨[1, 2, 3, 4], 4, 1⟩ (by decide) (by decide) (by decide) (by decide) .get trivial).1
      ⟨rfl, by decide⟩

end ByteReader

namespace ByteWriter

/-- When a call is to succeed. -/
def Fits (big : Bool) (s : ByteWriter) : Op → Prop
  | .limit n => n ≤ s.data.length
  | .position n => n ≤ s.limit
  | .advance n => s.position + n ≤ s.limit
  | .rewind | .clear | .flip => True
  | op => s.position + (op.payload big).length ≤ s.limit

/-- Position and limit after a call that succeeds. -/
def after (big : Bool) (s : ByteWriter) : Op → Nat × Nat
  | .limit n => (s.position, n)
  | .position n => (n, s.limit)
  | .advance n => (s.position + n, s.limit)
  | .rewind => (0, s.limit)
  | .clear => (0, s.data.length)
  | .flip => (0, s.position)
  | op => (s.position + (op.payload big).length, s.limit)

/-- Histories in which the limit is never lowered below the position. -/
inductive SafeRun (big : Bool) : ByteWriter → List Op → ByteWriter → Prop where
  | nil (s) : SafeRun big s [] s
  | cons {s op ops s'} : (∀ n, op = .limit n → s.position ≤ n) → SafeRun big (step big s op).1 ops s' →
      SafeRun big s (op :: ops) s'

/-- Position and limit are in order. -/
def WF (s : ByteWriter) : Prop := s.position ≤ s.limit ∧ s.limit ≤ s.data.length ∧ s.data.length < 2 ^ 64

theorem remaining_of_wf {s : ByteWriter} (h : s.WF) : s.remaining = s.limit - s.position := by
  obtain ⟨h1, h2, h3⟩ := h
  exact sub64_of_le h1 (by omega)

/-- The bytes of the buffer where `src` was written at `off`. -/
def written (data : List Byte) (off : Nat) (src : List Byte) (i : Nat) : Option Byte :=
  if off ≤ i ∧ i < off + src.length then src[i - off]? else data[i]?

theorem overwrite_written (data : List Byte) (off : Nat) (src : List Byte) (h : off + src.length ≤ data.length) (i : Nat) :
    (overwrite data off src)[i]? = written data off src i := by
  rw [overwrite, written]
  rw [List.append_assoc]
  by_cases h1 : i < off
  · rw [if_neg (by omega), List.getElem?_append_left (by rw [List.length_take]; omega), List.getElem?_take_of_lt h1]
  · rw [List.getElem?_append_right (by rw [List.length_take]; omega), List.length_take, Nat.min_eq_left (by omega)]
    by_cases h2 : i < off + src.length
    · rw [if_pos ⟨by omega, h2⟩, List.getElem?_append_left (by omega)]
    · rw [if_neg (by omega), List.getElem?_append_right (by omega), List.getElem?_drop]
      congr 1
      omega

theorem write_exact (s : ByteWriter) (hwf : WF s) (src : List Byte) :
    (s.position + src.length ≤ s.limit → s.write src =
      ({ s with data := overwrite s.data s.position src, position := s.position + src.length }, .ok ())) ∧
    (¬ s.position + src.length ≤ s.limit → (s.write src).2 = .error .overflow ∧
      (s.write src).1.position = s.position ∧ (s.write src).1.limit = s.limit ∧
      (s.write src).1.data.length = s.data.length) := by
  have hrem := remaining_of_wf hwf
  obtain ⟨h1, h2, h3⟩ := hwf
  rcases write_cases s src ⟨h3, by omega⟩ with ⟨h, hw⟩ | ⟨hn, hc, hw⟩ | ⟨hn, hc, hr, hw⟩ | ⟨hn, hc, hr, hw⟩ <;> rw [hw]
  · refine ⟨fun _ => ?_, fun hf => absurd (by rw [h]; exact h1) hf⟩
    subst h
    simp [overwrite]
  · exact ⟨fun hf => absurd hf (by omega), fun _ => ⟨rfl, rfl, rfl, rfl⟩⟩
  · exact ⟨fun hf => absurd hf (by omega), fun _ => ⟨rfl, rfl, rfl, overwrite_length _ _ _ hc⟩⟩
  · exact ⟨fun _ => rfl, fun hf => absurd (by omega) hf⟩

attribute [local irreducible] write

/-- **C78** for one call from a state whose position is not beyond the limit. -/
theorem step_exact (big : Bool) (s : ByteWriter) (hwf : WF s) (op : Op) :
    (step big s op).1.data.length = s.data.length ∧
    (Fits big s op → (step big s op).2 = .ok () ∧ ((step big s op).1.position, (step big s op).1.limit) = after big s op ∧
      ∀ i, (step big s op).1.data[i]? = written s.data s.position (op.payload big) i) ∧
    (¬ Fits big s op → (step big s op).2 = .error .overflow ∧
      (step big s op).1.position = s.position ∧ (step big s op).1.limit = s.limit) := by
  have hrem := remaining_of_wf hwf
  have hnone : ∀ i, s.data[i]? = written s.data s.position [] i := by
    intro i
    rw [written, if_neg (by simp)]
  have hwrite : ∀ src, (s.write src).1.data.length = s.data.length ∧
      (s.position + src.length ≤ s.limit → (s.write src).2 = .ok () ∧
        ((s.write src).1.position, (s.write src).1.limit) = (s.position + src.length, s.limit) ∧
        ∀ i, (s.write src).1.data[i]? = written s.data s.position src i) ∧
      (¬ s.position + src.length ≤ s.limit → (s.write src).2 = .error .overflow ∧
        (s.write src).1.position = s.position ∧ (s.write src).1.limit = s.limit) := by
    intro src
    have hwf' := hwf
    obtain ⟨h1, h2, h3⟩ := hwf'
    obtain ⟨ha, hb⟩ := write_exact s hwf src
    by_cases hf : s.position + src.length ≤ s.limit
    · rw [ha hf]
      exact ⟨overwrite_length _ _ _ (by omega), fun _ => ⟨rfl, rfl, overwrite_written _ _ _ (by omega)⟩,
        fun h => absurd hf h⟩
    · exact ⟨(hb hf).2.2.2, fun h => absurd h hf, fun _ => ⟨(hb hf).1, (hb hf).2.1, (hb hf).2.2.1⟩⟩
  obtain ⟨h1, h2, h3⟩ := hwf
  cases op with
  | limit n =>
    simp only [step, setLimit, capacity, Fits, after]
    split
    · exact ⟨rfl, fun h => absurd h (by omega), fun _ => ⟨rfl, rfl, rfl⟩⟩
    · exact ⟨rfl, fun _ => ⟨rfl, rfl, hnone⟩, fun h => absurd (Nat.le_of_not_lt ‹_›) h⟩
  | position n =>
    simp only [step, setPosition, Fits, after]
    split
    · exact ⟨rfl, fun h => absurd h (by omega), fun _ => ⟨rfl, rfl, rfl⟩⟩
    · exact ⟨rfl, fun _ => ⟨rfl, rfl, hnone⟩, fun h => absurd (Nat.le_of_not_lt ‹_›) h⟩
  | advance n =>
    simp only [step, advance, Fits, after]
    split
    · exact ⟨rfl, fun h => absurd h (by omega), fun _ => ⟨rfl, rfl, rfl⟩⟩
    · have hw : wrap64 (s.position + n) = s.position + n := wrap64_of_lt (by omega)
      rw [hw]
      exact ⟨rfl, fun _ => ⟨rfl, rfl, hnone⟩, fun h => absurd (by omega) h⟩
  | rewind => exact ⟨rfl, fun _ => ⟨rfl, rfl, hnone⟩, fun h => absurd trivial h⟩
  | clear => exact ⟨rfl, fun _ => ⟨rfl, rfl, hnone⟩, fun h => absurd trivial h⟩
  | flip => exact ⟨rfl, fun _ => ⟨rfl, rfl, hnone⟩, fun h => absurd trivial h⟩
  | write d =>
    rw [step_write big s _ (.inr (.inl ⟨_, rfl⟩))]
    exact hwrite _
  | writeLE d =>
    rw [step_write big s _ (.inr (.inr (.inl ⟨_, rfl⟩)))]
    exact hwrite _
  | writeBE d =>
    rw [step_write big s _ (.inr (.inr (.inr ⟨_, rfl⟩)))]
    exact hwrite _

theorem step_wf (big : Bool) (s : ByteWriter) (hwf : WF s) (op : Op) (hop : ∀ n, op = .limit n → s.position ≤ n) :
    WF (step big s op).1 ∧ (step big s op).1.data.length = s.data.length := by
  obtain ⟨hd, hf, hn⟩ := step_exact big s hwf op
  obtain ⟨h1, h2, h3⟩ := hwf
  refine ⟨?_, hd⟩
  rw [WF, hd]
  by_cases h : Fits big s op
  · obtain ⟨_, ha, _⟩ := hf h
    have hp := congrArg Prod.fst ha
    have hl := congrArg Prod.snd ha
    simp only at hp hl
    rw [hp, hl]
    cases op with
    | limit n =>
      have := hop n rfl
      simp only [Fits, after] at h ⊢; omega
    | _ => simp only [Fits, after] at h ⊢; omega
  · obtain ⟨_, hp, hl⟩ := hn h
    rw [hp, hl]; omega

theorem safeRun_wf {big s ops s'} (h : SafeRun big s ops s') (hwf : WF s) : WF s' ∧ s'.data.length = s.data.length := by
  induction h with
  | nil => exact ⟨hwf, rfl⟩
  | cons hop _ ih =>
    have h1 := step_wf big _ hwf _ hop
    have h2 := ih h1.1
    exact ⟨h2.1, h2.2.trans h1.2⟩

/-- **C78** (partial: histories in which the limit is never lowered below the position). A call succeeds exactly when what
it asks for lies below the limit (for `limit(n)`: within the buffer); then position and limit are what the call says and
the buffer has the data written at the old position and is otherwise unchanged. A call that does not fit reports an
overflow and keeps position and limit; that it may change the buffer is C04. The buffer never changes its size. -/
theorem C78_writer_exact_partial (big : Bool) (data : List Byte) (hlen : data.length < 2 ^ 64) (ops : List Op) (s : ByteWriter)
    (hrun : SafeRun big (ofBuffer data) ops s) (op : Op) :
    (step big s op).1.data.length = data.length ∧
    (Fits big s op → (step big s op).2 = .ok () ∧ ((step big s op).1.position, (step big s op).1.limit) = after big s op ∧
      ∀ i, (step big s op).1.data[i]? = written s.data s.position (op.payload big) i) ∧
    (¬ Fits big s op → (step big s op).2 = .error .overflow ∧
      (step big s op).1.position = s.position ∧ (step big s op).1.limit = s.limit) := by
  have ⟨hwf, hdata⟩ := safeRun_wf hrun ⟨Nat.zero_le _, Nat.le_refl _, hlen⟩
  have := step_exact big s hwf op
  rw [hdata] at this
  exact this

example : SafeRun false (ofBuffer [0, 0, 0]) [.write [7], .limit 2] ⟨[7, 0, 0], 1, 2⟩ ∧
    Fits false ⟨[7, 0, 0], 1, 2⟩ (.write [8]) ∧ ¬ Fits false ⟨[7, 0, 0], 1, 2⟩ (.write [8, 9]) := by
  refine ⟨?_, by unfold Fits; decide, by unfold Fits; decide⟩
  refine .cons (by intro n h; cases h) ?_
  have h1 : (step false (ofBuffer [0, 0, 0]) (.write [7])).1 = ⟨[7, 0, 0], 1, 3⟩ := by decide +kernel
  rw [h1]
  refine .cons (by intro n h; cases h; decide) ?_
  have h2 : (step false ⟨[7, 0, 0], 1, 3⟩ (.limit 2)).1 = ⟨[7, 0, 0], 1, 2⟩ := by decide +kernel
  rw [h2]
  exact .nil _

/-- What `limit() - position()` is in 64 bits. -/
def left (s : ByteWriter) : Nat :=
  if s.position ≤ s.limit then s.limit - s.position else s.limit + 2 ^ 64 - s.position

/-- When a call succeeds, in any state. -/
def FitsAny (big : Bool) (s : ByteWriter) : Op → Prop
  | .limit n => n ≤ s.data.length
  | .position n => n ≤ s.limit
  | .advance n => n ≤ s.left
  | .rewind | .clear | .flip => True
  | op => op.payload big = [] ∨ s.position + (op.payload big).length ≤ s.data.length ∧ (op.payload big).length ≤ s.left

/-- **C78**, all states, also those with the limit below the position, or behind the end of the buffer (as `flip` may put
it then): a call succeeds exactly when `FitsAny` says so, and moves the position modulo 2^64. A call that fails keeps
position and limit; it has stored its data when they fit into the buffer. The state stays in 64 bits. -/
theorem C78_any_state (big : Bool) (s : ByteWriter) (hl : s.data.length < 2 ^ 64) (hp : s.position < 2 ^ 64)
    (hlim : s.limit < 2 ^ 64) (op : Op) :
    (FitsAny big s op → (step big s op).2 = .ok () ∧
      ((step big s op).1.position, (step big s op).1.limit) = ((after big s op).1 % 2 ^ 64, (after big s op).2) ∧
      ∀ i, (step big s op).1.data[i]? = written s.data s.position (op.payload big) i) ∧
    (¬ FitsAny big s op → (step big s op).2 = .error .overflow ∧
      (step big s op).1.position = s.position ∧ (step big s op).1.limit = s.limit ∧
      ∀ i, (step big s op).1.data[i]? =
        if s.position + (op.payload big).length ≤ s.data.length then written s.data s.position (op.payload big) i
        else s.data[i]?) ∧
    (step big s op).1.data.length = s.data.length ∧ (step big s op).1.position < 2 ^ 64 ∧
    (step big s op).1.limit < 2 ^ 64 := by
  have hrem : s.remaining = s.left := by
    rw [remaining, left]
    split
    · exact sub64_of_le ‹_› hlim
    · exact sub64_of_lt (by omega) (by omega)
  have hmod : ∀ n, n < 2 ^ 64 → n = n % 2 ^ 64 := fun n hn => (Nat.mod_eq_of_lt hn).symm
  have hnone : ∀ i, s.data[i]? = written s.data s.position [] i := by
    intro i
    rw [written, if_neg (by simp)]
  have hsame : ∀ i, s.data[i]? = if s.position + ([] : List Byte).length ≤ s.data.length then
      written s.data s.position [] i else s.data[i]? := by
    intro i
    rw [← hnone]
    split <;> rfl
  have hwrite : ∀ src : List Byte,
      ((src = [] ∨ s.position + src.length ≤ s.data.length ∧ src.length ≤ s.left) → (s.write src).2 = .ok () ∧
        ((s.write src).1.position, (s.write src).1.limit) = ((s.position + src.length) % 2 ^ 64, s.limit) ∧
        ∀ i, (s.write src).1.data[i]? = written s.data s.position src i) ∧
      (¬ (src = [] ∨ s.position + src.length ≤ s.data.length ∧ src.length ≤ s.left) →
        (s.write src).2 = .error .overflow ∧ (s.write src).1.position = s.position ∧ (s.write src).1.limit = s.limit ∧
        ∀ i, (s.write src).1.data[i]? =
          if s.position + src.length ≤ s.data.length then written s.data s.position src i else s.data[i]?) ∧
      (s.write src).1.data.length = s.data.length ∧ (s.write src).1.position < 2 ^ 64 ∧
      (s.write src).1.limit < 2 ^ 64 := by
    intro src
    rcases write_cases s src ⟨hl, hp⟩ with ⟨h, hw⟩ | ⟨hn, hc, hw⟩ | ⟨hn, hc, hr, hw⟩ | ⟨hn, hc, hr, hw⟩ <;> rw [hw]
    · subst h
      refine ⟨fun _ => ⟨rfl, ?_, hnone⟩, fun h => absurd (.inl rfl) h, rfl, hp, hlim⟩
      rw [List.length_nil, Nat.add_zero, ← hmod _ hp]
    · refine ⟨fun h => ?_, fun _ => ⟨rfl, rfl, rfl, fun i => by rw [if_neg (by omega)]⟩, rfl, hp, hlim⟩
      rcases h with h | h
      · exact absurd h hn
      · omega
    · refine ⟨fun h => ?_, fun _ => ⟨rfl, rfl, rfl, fun i => ?_⟩, overwrite_length _ _ _ hc, hp, hlim⟩
      · rcases h with h | h
        · exact absurd h hn
        · omega
      · rw [if_pos hc]; exact overwrite_written _ _ _ hc i
    · refine ⟨fun _ => ⟨rfl, ?_, overwrite_written _ _ _ hc⟩, fun h => absurd (.inr ⟨hc, by omega⟩) h,
        overwrite_length _ _ _ hc, ?_, hlim⟩
      · rw [← hmod _ (by omega)]
      · show s.position + src.length < 2 ^ 64
        omega
  cases op with
  | limit n =>
    simp only [step, setLimit, capacity, FitsAny, after]
    split
    · exact ⟨fun h => absurd h (by omega), fun _ => ⟨rfl, rfl, rfl, hsame⟩, rfl, hp, hlim⟩
    · exact ⟨fun _ => ⟨rfl, by rw [← hmod _ hp], hnone⟩, fun h => absurd (Nat.le_of_not_lt ‹_›) h, rfl, hp,
        Nat.lt_of_le_of_lt (Nat.le_of_not_lt ‹_›) hl⟩
  | position n =>
    simp only [step, setPosition, FitsAny, after]
    split
    · exact ⟨fun h => absurd h (by omega), fun _ => ⟨rfl, rfl, rfl, hsame⟩, rfl, hp, hlim⟩
    · exact ⟨fun _ => ⟨rfl, by rw [← hmod n (by omega)], hnone⟩, fun h => absurd (Nat.le_of_not_lt ‹_›) h, rfl,
        Nat.lt_of_le_of_lt (Nat.le_of_not_lt ‹_›) hlim, hlim⟩
  | advance n =>
    simp only [step, advance, FitsAny, after]
    split
    · exact ⟨fun h => absurd h (by omega), fun _ => ⟨rfl, rfl, rfl, hsame⟩, rfl, hp, hlim⟩
    · refine ⟨fun _ => ⟨rfl, by rw [wrap64_def], hnone⟩, fun h => absurd (by omega) h, rfl, wrap64_lt _, hlim⟩
  | rewind => exact ⟨fun _ => ⟨rfl, rfl, hnone⟩, fun h => absurd trivial h, rfl, by show 0 < 2 ^ 64; omega, hlim⟩
  | clear => exact ⟨fun _ => ⟨rfl, rfl, hnone⟩, fun h => absurd trivial h, rfl, by show 0 < 2 ^ 64; omega, hl⟩
  | flip => exact ⟨fun _ => ⟨rfl, rfl, hnone⟩, fun h => absurd trivial h, rfl, by show 0 < 2 ^ 64; omega, hp⟩
  | write d =>
    rw [step_write big s _ (.inr (.inl ⟨_, rfl⟩))]
    exact hwrite _
  | writeLE d =>
    rw [step_write big s _ (.inr (.inr (.inl ⟨_, rfl⟩)))]
    exact hwrite _
  | writeBE d =>
    rw [step_write big s _ (.inr (.inr (.inr ⟨_, rfl⟩)))]
    exact hwrite _

example : FitsAny false ⟨[1, 2, 3, 4], 2, 1⟩ (.write [8, 9]) ∧ ¬ FitsAny false ⟨[1, 2, 3, 4], 2, 1⟩ (.write [7, 8, 9]) ∧
    ¬ FitsAny false ⟨[1, 2, 3, 4], 2, 3⟩ (.write [8, 9]) := by
  refine ⟨?_, ?_, ?_⟩ <;> unfold FitsAny left <;> decide

end ByteWriter
end Solace
