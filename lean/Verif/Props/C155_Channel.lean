import Verif.Spec.Channel
import Verif.Props.C77_C78_Streams
/-
C155: a writer and a reader over the same memory are a queue.
-/
namespace Solace.Channel
open ByteWriter (InMachine write_cases overwrite overwrite_length overwrite_take)

/-- The memory holds the bytes of the queue where the reader will look for them. -/
structure Rep (c : Chan) (q : Queue) : Prop where
  items : (c.mem.drop q.used).take q.items.length = q.items
  fits : q.used + q.items.length ≤ q.cap
  vis : q.visible ≤ q.items.length
  wpos : c.wpos = q.used + q.items.length
  rpos : c.rpos = q.used
  rlim : c.rlim = q.used + q.visible
  wlim : c.wlim = q.bound
  bound : q.bound ≤ q.cap
  cap : c.mem.length = q.cap
  machine : q.cap < 2 ^ 64

theorem Rep.wf {c : Chan} {q : Queue} (h : Rep c q) : c.reader.WF := by
  have := h.fits; have := h.vis; have := h.rpos; have := h.rlim; have := h.cap; have := h.machine
  refine ⟨?_, ?_, ?_⟩ <;> simp only [Chan.reader] <;> omega

/-- The next bytes for the reader. -/
theorem Rep.next {c : Chan} {q : Queue} (h : Rep c q) (n : Nat) (hn : n ≤ q.items.length) : (c.mem.drop c.rpos).take n = q.items.take n := by
  rw [h.rpos]
  conv => rhs; rw [← h.items]
  rw [List.take_take, Nat.min_eq_left hn]

theorem Rep.pop {c : Chan} {q : Queue} (h : Rep c q) (n : Nat) (hn : n ≤ q.visible) : Rep ⟨c.mem, c.wpos, c.wlim, c.rpos + n, c.rlim⟩ (q.pop n) := by
  have := h.fits; have := h.vis; have := h.rpos; have := h.rlim; have := h.cap; have := h.machine; have := h.wpos; have := h.bound; have := h.wlim
  refine ⟨?_, ?_, ?_, ?_, ?_, ?_, ?_, ?_, ?_, ?_⟩ <;> simp only [Queue.pop, List.length_drop] <;> try omega
  conv => rhs; rw [← h.items]
  rw [List.drop_take, List.drop_drop]

theorem step_put {c : Chan} {q : Queue} (h : Rep c q) (bytes : List Byte) :
    ∃ c', step c (.put bytes) = .ok (c', (q.step (.put bytes)).2) ∧ Rep c' (q.step (.put bytes)).1 := by
  have hf := h.fits; have := h.vis; have := h.rpos; have := h.rlim; have hc := h.cap; have := h.machine; have hw := h.wpos; have hb := h.bound
  have hl := h.wlim
  have hm : InMachine c.writer := ⟨by simp only [Chan.writer]; omega, by simp only [Chan.writer]; omega⟩
  have hrem : c.writer.remaining = sub64 q.bound (q.used + q.items.length) := by rw [ByteWriter.remaining, Chan.writer, hw, hl]
  have hr1 : q.used + q.items.length ≤ q.bound → c.writer.remaining = q.bound - (q.used + q.items.length) := by
    intro h1; rw [hrem, sub64_of_le h1 (by omega)]
  have hr2 : q.bound < q.used + q.items.length → c.writer.remaining = 2 ^ 64 + q.bound - (q.used + q.items.length) := by
    intro h1; rw [hrem, sub64_of_lt h1 (by omega), Nat.add_comm]
  have kept : ∀ (hfit : c.wpos + bytes.length ≤ c.mem.length), ((overwrite c.mem c.wpos bytes).drop q.used).take q.items.length = q.items := by
    intro hfit
    conv => rhs; rw [← h.items]
    apply List.ext_getElem?
    intro i
    rcases Nat.lt_or_ge i q.items.length with hi | hi
    · rw [List.getElem?_take_of_lt hi, List.getElem?_take_of_lt hi, List.getElem?_drop, List.getElem?_drop,
        ByteWriter.overwrite_getElem? _ _ _ hfit _ (by omega)]
    · rw [List.getElem?_take_eq_none hi, List.getElem?_take_eq_none hi]
  simp only [step, Queue.step]
  rcases write_cases c.writer bytes hm with ⟨h0, e⟩ | ⟨h0, hlt, e⟩ | ⟨h0, hfit, hr, e⟩ | ⟨h0, hfit, hr, e⟩ <;> rw [e] <;>
    simp only [Chan.writer] at * 
  · subst h0
    rw [if_pos (show q.room ([] : List Byte).length from Or.inl rfl)]
    refine ⟨_, rfl, ?_⟩
    simpa [Chan.written] using h
  · have hpos : 0 < bytes.length := List.length_pos_iff.mpr h0
    rw [if_neg (by unfold Queue.room; omega)]
    exact ⟨_, rfl, h⟩
  · have hpos : 0 < bytes.length := List.length_pos_iff.mpr h0
    rw [if_neg (by
      unfold Queue.room
      rintro (h1 | ⟨h1, h2⟩)
      · omega
      · rcases Nat.lt_or_ge q.bound (q.used + q.items.length) with h3 | h3
        · have := hr2 h3; omega
        · have := hr1 h3; have := h2 h3; omega)]
    refine ⟨_, rfl, ?_⟩
    exact ⟨kept hfit, h.fits, h.vis, h.wpos, h.rpos, h.rlim, h.wlim, h.bound, by simp only [Chan.written]; rw [overwrite_length _ _ _ hfit]; exact h.cap,
      h.machine⟩
  · have hpos : 0 < bytes.length := List.length_pos_iff.mpr h0
    rw [if_pos (by
      unfold Queue.room
      refine .inr ⟨by omega, fun h3 => ?_⟩
      have := hr1 h3; omega)]
    refine ⟨_, rfl, ?_⟩
    refine ⟨?_, ?_, ?_, ?_, h.rpos, h.rlim, h.wlim, h.bound, by simp only [Chan.written]; rw [overwrite_length _ _ _ hfit]; exact h.cap, h.machine⟩ <;>
      simp only [Chan.written, List.length_append] <;> try omega
    have ht := overwrite_take c.mem c.wpos bytes hfit
    have hd := congrArg (List.drop q.used) ht
    rw [List.drop_take, List.drop_append_of_le_length (by rw [List.length_take]; omega), List.drop_take] at hd
    rw [show c.wpos + bytes.length - q.used = q.items.length + bytes.length by omega, show c.wpos - q.used = q.items.length by omega, h.items] at hd
    exact hd

/-- The reader is let to what has been written. -/
theorem publish_rep {c : Chan} {q : Queue} (h : Rep c q) :
    publish c = (⟨c.mem, c.wpos, c.wlim, c.rpos, c.wpos⟩, true) ∧
      Rep ⟨c.mem, c.wpos, c.wlim, c.rpos, c.wpos⟩ { q with visible := q.items.length } := by
  have hf := h.fits; have hc := h.cap; have hw := h.wpos
  constructor
  · rw [publish, ByteReader.setLimit, if_neg (by simp only [ByteReader.capacity, Chan.reader]; omega)]
    rfl
  · exact ⟨h.items, h.fits, Nat.le_refl _, h.wpos, h.rpos, h.wpos, h.wlim, h.bound, h.cap, h.machine⟩

theorem overwrite_front (mem src : List Byte) (h : src.length ≤ mem.length) : (overwrite mem 0 src).take src.length = src := by
  have := overwrite_take mem 0 src (by omega)
  rwa [Nat.zero_add, List.take_zero, List.nil_append] at this

theorem compact_rep {c : Chan} {q : Queue} (h : Rep c q) :
    ∃ c', compact c = (c', ⟨true, []⟩) ∧ Rep c' ⟨q.items, q.items.length, 0, q.cap, q.cap⟩ := by
  have hf := h.fits; have hc := h.cap; have hw := h.wpos; have hr := h.rpos; have hm := h.machine
  have hrest : MemoryView.slice c.mem c.rpos c.wpos = q.items := by
    rw [slice_eq, hr, hw, Nat.add_sub_cancel_left, h.items]
  have hwr : ∃ m, (⟨c.mem, 0, c.mem.length⟩ : ByteWriter).write q.items = (⟨m, q.items.length, c.mem.length⟩, .ok ()) ∧ m.length = c.mem.length ∧
      m.take q.items.length = q.items := by
    rcases write_cases ⟨c.mem, 0, c.mem.length⟩ q.items ⟨by dsimp only; omega, by dsimp only; exact Nat.two_pow_pos 64⟩ with ⟨h0, e⟩ | ⟨h0, hlt, e⟩ | ⟨h0, hfit, hr, e⟩ | ⟨h0, hfit, hr, e⟩ <;>
      rw [e]
    · rw [h0]; exact ⟨c.mem, rfl, rfl, rfl⟩
    · dsimp only at hlt; omega
    · have : (⟨c.mem, 0, c.mem.length⟩ : ByteWriter).remaining = c.mem.length := sub64_of_le (Nat.zero_le _) (by omega : c.mem.length < 2 ^ 64)
      rw [this] at hr
      omega
    · dsimp only at hfit
      refine ⟨overwrite c.mem 0 q.items, by rw [Nat.zero_add], overwrite_length _ _ _ hfit, overwrite_front _ _ (by omega)⟩
  obtain ⟨m, hwe, hml, hmt⟩ := hwr
  refine ⟨⟨m, q.items.length, c.mem.length, 0, q.items.length⟩, ?_, ?_⟩
  · rw [compact, (publish_rep h).1]
    simp only [Chan.reader, ByteReader.viewRemaining, hrest, Chan.writer, ByteWriter.clear, Chan.written, ByteWriter.capacity, hwe, Chan.readBy,
      ByteReader.rewind]
    rw [publish, ByteReader.setLimit, if_neg (by simp only [ByteReader.capacity, Chan.reader]; omega)]
    rfl
  · exact ⟨by simpa using hmt, by simp only; omega, Nat.le_refl _, by simp, rfl, by simp, hc, Nat.le_refl _, by simp only; omega, hm⟩

/-- **C155** for one call. -/
theorem step_rep {c : Chan} {q : Queue} (h : Rep c q) (k : Call) : ∃ c', step c k = .ok (c', (q.step k).2) ∧ Rep c' (q.step k).1 := by
  have hf := h.fits; have hc := h.cap; have hw := h.wpos; have hr := h.rpos; have hl := h.rlim; have hv := h.vis
  cases k with
  | put bytes => exact step_put h bytes
  | bound n =>
    have e : c.writer.setLimit n = if n ≤ q.cap then (⟨c.mem, c.wpos, n⟩, .ok ()) else (c.writer, .error .overflow) := by
      have hcap : c.writer.capacity = q.cap := hc
      rw [ByteWriter.setLimit, hcap]
      by_cases hn : n ≤ q.cap
      · rw [if_neg (by omega), if_pos hn]; rfl
      · rw [if_pos (by omega), if_neg hn]
    simp only [step, Queue.step, e]
    split
    · rename_i hn
      exact ⟨_, rfl, ⟨h.items, h.fits, h.vis, h.wpos, h.rpos, h.rlim, rfl, hn, h.cap, h.machine⟩⟩
    · exact ⟨_, rfl, h⟩
  | publish =>
    simp only [step, Queue.step, (publish_rep h).1]
    exact ⟨_, rfl, (publish_rep h).2⟩
  | take dest =>
    simp only [step, Queue.step, ByteReader.read_exact _ h.wf]
    by_cases hn : dest.length ≤ q.visible
    · rw [if_pos (by simp only [Chan.reader]; omega), if_pos hn]
      refine ⟨_, ?_, h.pop _ hn⟩
      simp only [Chan.reader, h.next _ (Nat.le_trans hn hv), Except.toBool, Chan.readBy]
    · rw [if_neg (by simp only [Chan.reader]; omega), if_neg hn]
      exact ⟨_, rfl, h⟩
  | get =>
    have hrem := ByteReader.remaining_of_wf h.wf
    simp only [Chan.reader] at hrem
    simp only [step, Queue.step, ByteReader.get, Chan.reader, hrem]
    by_cases hn : 1 ≤ q.visible
    · have hi : c.rpos < c.mem.length := by omega
      have ht := h.next 1 (by omega)
      rw [ByteReader.take_one_drop (List.getElem?_eq_getElem hi)] at ht
      rw [if_neg (by omega), if_pos hn, MemoryView.at, List.getElem?_eq_getElem hi, wrap64_of_lt (by have := h.machine; omega), ← ht]
      exact ⟨_, rfl, h.pop _ hn⟩
    · rw [if_pos (by omega), if_neg hn]
      exact ⟨_, rfl, h⟩
  | skip n =>
    have hrem := ByteReader.remaining_of_wf h.wf
    simp only [Chan.reader] at hrem
    simp only [step, Queue.step, ByteReader.advance, Chan.reader, hrem]
    by_cases hn : n ≤ q.visible
    · rw [if_neg (by omega), if_pos hn, wrap64_of_lt (by have := h.machine; omega)]
      exact ⟨_, rfl, h.pop _ hn⟩
    · rw [if_pos (by omega), if_neg hn]
      exact ⟨_, rfl, h⟩
  | compact =>
    obtain ⟨c', e, h'⟩ := compact_rep h
    exact ⟨c', by rw [step, e]; rfl, h'⟩

theorem run_rep (ks : List Call) : ∀ (c : Chan) (q : Queue), Rep c q → ∃ c', run c ks = .ok (c', (q.run ks).2) ∧ Rep c' (q.run ks).1 := by
  induction ks with
  | nil => intro c q h; exact ⟨c, rfl, h⟩
  | cons k ks ih =>
    intro c q h
    obtain ⟨c1, e1, h1⟩ := step_rep h k
    obtain ⟨c2, e2, h2⟩ := ih c1 _ h1
    exact ⟨c2, by simp only [run, e1, e2, Outcome.bind_ok, Outcome.pure_def, Queue.run], h2⟩

theorem start_rep (mem : List Byte) (h : mem.length < 2 ^ 64) : Rep (start mem) ⟨[], 0, 0, mem.length, mem.length⟩ :=
  ⟨by simp, by simp, Nat.le_refl _, rfl, rfl, rfl, rfl, Nat.le_refl _, rfl, h⟩

/-- **C155**: every program with a writer and a reader over the same memory gets the replies that it would get from a queue of bytes; none of its calls
is undefined or ends the program. -/
theorem C155_queue (mem : List Byte) (h : mem.length < 2 ^ 64) (ks : List Call) :
    ∃ c, run (start mem) ks = .ok (c, (Queue.run ⟨[], 0, 0, mem.length, mem.length⟩ ks).2) := by
  obtain ⟨c, e, _⟩ := run_rep ks _ _ (start_rep mem h)
  exact ⟨c, e⟩

/-- In the queue nothing is lost, added or exchanged. -/
theorem queue_fifo (ks : List Call) : ∀ q : Queue, (∀ n, .skip n ∉ ks) → q.visible ≤ q.items.length →
    q.items ++ sent ks (q.run ks).2 = got ks (q.run ks).2 ++ (q.run ks).1.items := by
  induction ks with
  | nil => intro q _ _; simp [sent, got, Queue.run]
  | cons k ks ih =>
    intro q hs hv
    have hs' : ∀ n, .skip n ∉ ks := fun n hn => hs n (List.mem_cons_of_mem _ hn)
    cases k with
    | skip n => exact absurd List.mem_cons_self (hs n)
    | put bytes =>
      rw [Queue.run, Queue.step]
      split
      · have := ih { q with items := q.items ++ bytes } hs' (by simp only [List.length_append]; omega)
        simpa [sent, got, List.append_assoc] using this
      · simpa [sent, got] using ih q hs' hv
    | bound n =>
      rw [Queue.run, Queue.step]
      split
      · simpa [sent, got] using ih { q with bound := n } hs' hv
      · simpa [sent, got] using ih q hs' hv
    | publish => simpa [sent, got, Queue.run, Queue.step] using ih { q with visible := q.items.length } hs' (Nat.le_refl _)
    | compact => simpa [sent, got, Queue.run, Queue.step] using ih ⟨q.items, q.items.length, 0, q.cap, q.cap⟩ hs' (Nat.le_refl _)
    | take dest =>
      rw [Queue.run, Queue.step]
      split
      · have := ih (q.pop dest.length) hs' (by simp only [Queue.pop, List.length_drop]; omega)
        simp only [sent, got, if_true, List.append_assoc]
        rw [← this, ← List.append_assoc, Queue.pop, List.take_append_drop]
      · simpa [sent, got] using ih q hs' hv
    | get =>
      rw [Queue.run, Queue.step]
      split
      · have := ih (q.pop 1) hs' (by simp only [Queue.pop, List.length_drop]; omega)
        simp only [sent, got, if_true, List.append_assoc]
        rw [← this, ← List.append_assoc, Queue.pop, List.take_append_drop]
      · simpa [sent, got] using ih q hs' hv

/-- **C155**: what the reader gave is the beginning of what the writer took, and the rest lies in the memory between the two positions. -/
theorem C155_fifo (mem : List Byte) (h : mem.length < 2 ^ 64) (ks : List Call) (hs : ∀ n, .skip n ∉ ks) :
    ∃ c rs, run (start mem) ks = .ok (c, rs) ∧ c.rpos ≤ c.wpos ∧ c.wpos ≤ c.mem.length ∧
      sent ks rs = got ks rs ++ (c.mem.drop c.rpos).take (c.wpos - c.rpos) := by
  obtain ⟨c, e, hr⟩ := run_rep ks _ _ (start_rep mem h)
  have hq := queue_fifo ks ⟨[], 0, 0, mem.length, mem.length⟩ hs (Nat.le_refl _)
  have h1 := hr.wpos; have h2 := hr.rpos; have h3 := hr.cap; have h4 := hr.fits
  refine ⟨c, _, e, by omega, by omega, ?_⟩
  rw [show c.wpos - c.rpos = _ from by rw [h1, h2, Nat.add_sub_cancel_left], h2, hr.items]
  simpa using hq

theorem queue_pump (text : List Byte) : ∀ cap, 0 < cap →
    Queue.run ⟨[], 0, 0, cap, cap⟩ (pump text) = (⟨[], 0, 0, cap, cap⟩, text.flatMap fun b => [⟨true, []⟩, ⟨true, []⟩, ⟨true, [b]⟩, ⟨true, []⟩]) := by
  induction text with
  | nil => intro cap _; rfl
  | cons b text ih =>
    intro cap hc
    have hr : Queue.room ⟨[], 0, 0, cap, cap⟩ [b].length := by simp [Queue.room]; omega
    have h1 : Queue.step ⟨[], 0, 0, cap, cap⟩ (.put [b]) = (⟨[b], 0, 0, cap, cap⟩, ⟨true, []⟩) := by rw [Queue.step, if_pos hr]; rfl
    have h2 : Queue.step ⟨[b], 0, 0, cap, cap⟩ .publish = (⟨[b], 1, 0, cap, cap⟩, ⟨true, []⟩) := rfl
    have h3 : Queue.step ⟨[b], 1, 0, cap, cap⟩ .get = (⟨[], 0, 1, cap, cap⟩, ⟨true, [b]⟩) := rfl
    have h4 : Queue.step ⟨[], 0, 1, cap, cap⟩ .compact = (⟨[], 0, 0, cap, cap⟩, ⟨true, []⟩) := rfl
    simp only [pump, List.flatMap_cons, List.cons_append, List.nil_append, Queue.run, h1, h2, h3, h4]
    rw [show (text.flatMap fun b => [Call.put [b], .publish, .get, .compact]) = pump text from rfl, ih cap hc]

/-- **C155**: through memory for a single byte a text of any length passes, when room is made after every byte. -/
theorem C155_pump (mem text : List Byte) (h : mem.length < 2 ^ 64) (hpos : 0 < mem.length) :
    ∃ c rs, run (start mem) (pump text) = .ok (c, rs) ∧ got (pump text) rs = text := by
  obtain ⟨c, e⟩ := C155_queue mem h (pump text)
  rw [queue_pump text mem.length hpos] at e
  refine ⟨c, _, e, ?_⟩
  clear e
  induction text with
  | nil => rfl
  | cons b text ih => simpa [pump, got] using ih

theorem queue_cap (ks : List Call) : ∀ q : Queue, (q.run ks).1.cap = q.cap := by
  induction ks with
  | nil => intro q; rfl
  | cons k ks ih =>
    intro q
    rw [Queue.run, ih]
    cases k <;> rw [Queue.step] <;> (try split) <;> rfl

theorem put_reply (q : Queue) (bytes : List Byte) : (q.step (.put bytes)).2 = ⟨decide (q.room bytes.length), []⟩ := by
  rw [Queue.step]
  by_cases h : q.room bytes.length
  · rw [if_pos h, decide_eq_true h]
  · rw [if_neg h, decide_eq_false h]

/-- **C155**, how much room there is: right after room was made, the writer takes what fits beside the bytes not yet read. -/
theorem C155_room (mem : List Byte) (h : mem.length < 2 ^ 64) (ks : List Call) (bytes : List Byte) :
    ∃ c rs c1 c2, run (start mem) ks = .ok (c, rs) ∧ step c .compact = .ok (c1, ⟨true, []⟩) ∧
      step c1 (.put bytes) = .ok (c2, ⟨decide (c.wpos - c.rpos + bytes.length ≤ mem.length), []⟩) := by
  obtain ⟨c, e, hr⟩ := run_rep ks _ _ (start_rep mem h)
  obtain ⟨c1, e1, h1⟩ := step_rep hr .compact
  obtain ⟨c2, e2, _⟩ := step_rep h1 (.put bytes)
  refine ⟨c, _, c1, c2, e, e1, ?_⟩
  rw [e2]
  have hf := hr.fits; have hw := hr.wpos; have hp := hr.rpos; have hc := hr.cap
  have hq := queue_cap ks ⟨[], 0, 0, mem.length, mem.length⟩
  dsimp only at hq
  rw [put_reply, decide_eq_decide.mpr]
  rw [Queue.step, Queue.room]
  dsimp only
  omega

/-- The hypotheses are met: memory for four bytes, a text of six in two parts, the second refused until room has been made; limits and failed reads. -/
example : (∀ n, Call.skip n ∉ [Call.put [1#8, 2#8, 3#8], .get, .publish, .take [0#8, 0#8], .put [4#8, 5#8, 6#8], .compact, .put [4#8, 5#8, 6#8], .bound 2, .get]) ∧
    run (start [9#8, 9#8, 9#8, 9#8]) [Call.put [1#8, 2#8, 3#8], .get, .publish, .take [0#8, 0#8], .put [4#8, 5#8, 6#8], .compact, .put [4#8, 5#8, 6#8], .bound 2,
      .get] = .ok (⟨[3#8, 4#8, 5#8, 6#8], 4, 2, 1, 1⟩,
        [⟨true, []⟩, ⟨false, []⟩, ⟨true, []⟩, ⟨true, [1#8, 2#8]⟩, ⟨false, []⟩, ⟨true, []⟩, ⟨true, []⟩, ⟨true, []⟩, ⟨true, [3#8]⟩]) := by
  refine ⟨by simp, by decide +kernel⟩

/-- Five bytes through memory for one. -/
example : 0 < [0#8].length ∧ ∃ c rs, run (start [0#8]) (pump [1#8, 2#8, 3#8, 4#8, 5#8]) = .ok (c, rs) ∧
    got (pump [1#8, 2#8, 3#8, 4#8, 5#8]) rs = [1#8, 2#8, 3#8, 4#8, 5#8] := ⟨by decide, C155_pump _ _ (by decide) (by decide)⟩

end Solace.Channel
