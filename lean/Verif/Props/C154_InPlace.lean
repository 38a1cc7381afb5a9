import Verif.Model.InPlace
import Verif.Lemmas.ByteWriter
/-
C154: encoding and decoding bytes of the buffer that is written to.
-/
namespace Solace.InPlace
open ByteWriter (InMachine write_cases overwrite overwrite_length overwrite_getElem?)

/-- What a write leaves as it was, and where the writer then is. -/
theorem write_frame (w : ByteWriter) (src : List Byte) (hm : InMachine w) (after : List Byte) :
    (∀ j, j < w.position ∨ w.position + src.length ≤ j → look (w.write src).1 after j = look w after j) ∧
    ((w.write src).2 = .ok () → InMachine (w.write src).1 ∧ (w.write src).1.position = w.position + src.length) := by
  have over : w.position + src.length ≤ w.data.length → ∀ j, j < w.position ∨ w.position + src.length ≤ j →
      (overwrite w.data w.position src ++ after)[j]? = (w.data ++ after)[j]? := by
    intro h j hj
    rcases Nat.lt_or_ge j w.data.length with hl | hl
    · rw [List.getElem?_append_left (by rw [overwrite_length _ _ _ h]; exact hl), List.getElem?_append_left hl, overwrite_getElem? _ _ _ h j hj]
    · rw [List.getElem?_append_right (by rw [overwrite_length _ _ _ h]; exact hl), List.getElem?_append_right hl, overwrite_length _ _ _ h]
  rcases write_cases w src hm with ⟨h, e⟩ | ⟨_, h, e⟩ | ⟨_, h, _, e⟩ | ⟨_, h, _, e⟩ <;> rw [e]
  · subst h
    exact ⟨fun _ _ => rfl, fun _ => ⟨hm, by simp⟩⟩
  · exact ⟨fun _ _ => rfl, nofun⟩
  · exact ⟨fun j hj => over h j hj, nofun⟩
  · refine ⟨fun j hj => over h j hj, fun _ => ⟨⟨?_, ?_⟩, rfl⟩⟩
    · dsimp only; rw [overwrite_length _ _ _ h]; exact hm.1
    · dsimp only; have := hm.1; omega

/-- The bytes from offset `i` on are, as far as they matter, these. -/
def Ahead (w : ByteWriter) (after : List Byte) (i : Nat) (src : List Byte) (n : Nat) : Prop := ∀ k, k < n → look w after (i + k) = src[k]?

theorem ahead_write {w : ByteWriter} {after : List Byte} {i n d : Nat} {src out : List Byte} (h : Ahead w after i src (d + n)) (hm : InMachine w)
    (hs : n = 0 ∨ w.position + out.length ≤ i + d ∨ i + d + n ≤ w.position) : Ahead (w.write out).1 after (i + d) (src.drop d) n := by
  intro k hk
  rw [(write_frame w out hm after).1 _ (by omega), List.getElem?_drop, Nat.add_assoc]
  exact h _ (by omega)

theorem ahead_source (w : ByteWriter) (after : List Byte) (i n : Nat) : Ahead w after i ((w.data ++ after).drop i) n := by
  intro k _
  rw [List.getElem?_drop]
  rfl

theorem enc16_eq (src : List Byte) : ∀ (w : ByteWriter) (i : Nat), InMachine w → Ahead w [] i src src.length →
    (i + src.length ≤ w.position ∨ w.position + src.length ≤ i + 1) → enc16 w src.length i = .ok (Base16.encode w src) := by
  induction src with
  | nil => intro w i _ _ _; rfl
  | cons v rest ih =>
    intro w i hm ha hs
    have h0 := ha 0 (by simp)
    rw [Nat.add_zero, List.getElem?_cons_zero] at h0
    rw [List.length_cons, enc16, h0, Base16.encode]
    rw [List.length_cons] at hs
    dsimp only
    have hf := write_frame w (Base16.hexPair v) hm []
    have hl : (Base16.hexPair v).length = 2 := rfl
    have hn := ahead_write (d := 1) (n := rest.length) (src := v :: rest) (out := Base16.hexPair v) (by rwa [Nat.add_comm]) hm (by omega)
    rcases hw : w.write (Base16.hexPair v) with ⟨w', r⟩
    rw [hw] at hf hn
    cases r with
    | error e => rfl
    | ok u =>
      obtain ⟨h1, h2⟩ := hf.2 rfl
      dsimp only at h1 h2
      exact ih w' (i + 1) h1 hn (by omega)

/-- **C154** (partial, where the text does not get to bytes still to be read), Base16: encoding bytes of the writer's own buffer gives their encoding.
The place for the text is behind them, or so far before them that each byte is read before its place is written. -/
theorem C154_encode16_partial (w : ByteWriter) (hm : InMachine w) (i n : Nat) (hin : i + n ≤ w.data.length)
    (hs : i + n ≤ w.position ∨ w.position + n ≤ i + 1) : enc16 w n i = .ok (Base16.encode w ((w.data.drop i).take n)) := by
  have hl : ((w.data.drop i).take n).length = n := by rw [List.length_take, List.length_drop]; omega
  have ha : Ahead w [] i ((w.data.drop i).take n) n := by
    intro k hk
    rw [look, List.append_nil, List.getElem?_take_of_lt hk, List.getElem?_drop]
  have := enc16_eq ((w.data.drop i).take n) w i hm (by rwa [hl]) (by rwa [hl])
  rwa [hl] at this

theorem dec16_eq (left : Nat) : ∀ (src : List Byte) (w : ByteWriter) (i : Nat), src.length = 2 * left → InMachine w → Ahead w [] i src (2 * left) →
    (i + 2 * left ≤ w.position ∨ w.position ≤ i + 1) → dec16Loop w left i = Base16.decodeLoop w src := by
  induction left with
  | zero =>
    intro src w i hl _ _ _
    have he : src = [] := List.length_eq_zero_iff.mp (by omega)
    subst he
    rfl
  | succ left ih =>
    intro src w i hl hm ha hs
    match src, hl with
    | a :: b :: rest, hl =>
      have h0 := ha 0 (by omega)
      have h1 := ha 1 (by omega)
      rw [Nat.add_zero, List.getElem?_cons_zero] at h0
      rw [List.getElem?_cons_succ, List.getElem?_cons_zero] at h1
      simp only [List.length_cons] at hl
      rw [dec16Loop, h0, h1, Base16.decodeLoop]
      dsimp only
      cases Base16.decode16 a b with
      | throws => rfl
      | terminate => rfl
      | ub => rfl
      | ok x =>
        cases x with
        | error e => rfl
        | ok value =>
          dsimp only
          have hf := write_frame w [value] hm []
          have h1 : ([value] : List Byte).length = 1 := rfl
          have hn := ahead_write (d := 2) (n := 2 * left) (src := a :: b :: rest) (out := [value]) (by rwa [Nat.add_comm]) hm (by omega)
          rcases hw : w.write [value] with ⟨w', r⟩
          rw [hw] at hf hn
          cases r with
          | error e => rfl
          | ok u =>
            obtain ⟨h2, h3⟩ := hf.2 rfl
            dsimp only at h2 h3
            exact ih rest w' (i + 2) (by omega) h2 hn (by omega)

/-- **C154** (partial, the same), Base16: decoding text of the writer's own buffer, at or before the text, or behind it. -/
theorem C154_decode16_partial (w : ByteWriter) (hm : InMachine w) (i n : Nat) (hin : i + n ≤ w.data.length)
    (hs : i + n ≤ w.position ∨ w.position ≤ i + 1) : dec16 w n i = Base16.decode w ((w.data.drop i).take n) := by
  have hl : ((w.data.drop i).take n).length = n := by rw [List.length_take, List.length_drop]; omega
  rw [dec16, Base16.decode, hl]
  split
  · rfl
  · rename_i he
    have h2 : 2 * (n / 2) = n := by omega
    refine dec16_eq (n / 2) _ w i (by rw [hl, h2]) hm ?_ (by omega)
    intro k hk
    rw [look, List.append_nil, List.getElem?_take_of_lt (by omega), List.getElem?_drop]

theorem enc64_eq (alphabet : List Nat) (left : Nat) : ∀ (src : List Byte) (w : ByteWriter) (i : Nat), src.length = left → InMachine w →
    Ahead w [] i src left → (i + left ≤ w.position ∨ w.position + (left + 2) / 3 ≤ i + 1) →
    enc64 alphabet w left i = .ok (Base64.encode alphabet w src) := by
  induction left using Nat.strongRecOn with
  | ind left ih =>
    intro src w i hl hm ha hs
    match src, hl with
    | [], hl => subst hl; rfl
    | [a], hl =>
      subst hl
      have h0 := ha 0 (by simp)
      rw [Nat.add_zero, List.getElem?_cons_zero] at h0
      rw [List.length_singleton, enc64, h0, Base64.encode]
    | [a, b], hl =>
      subst hl
      have h0 := ha 0 (by simp)
      have h1 := ha 1 (by simp)
      rw [Nat.add_zero, List.getElem?_cons_zero] at h0
      rw [List.getElem?_cons_succ, List.getElem?_cons_zero] at h1
      have e2 : [a, b].length = 2 := rfl
      rw [e2, enc64, h0, h1, Base64.encode]
    | a :: b :: c :: rest, hl =>
      subst hl
      simp only [List.length_cons] at ha hs ih ⊢
      have h0 := ha 0 (by omega)
      have h1 := ha 1 (by omega)
      have h2 := ha 2 (by omega)
      rw [Nat.add_zero, List.getElem?_cons_zero] at h0
      rw [List.getElem?_cons_succ, List.getElem?_cons_zero] at h1
      rw [List.getElem?_cons_succ, List.getElem?_cons_succ, List.getElem?_cons_zero] at h2
      have e3 : rest.length + 1 + 1 + 1 = rest.length + 3 := rfl
      rw [e3, enc64, h0, h1, h2, Base64.encode]
      dsimp only
      generalize hout : [Base64.alpha alphabet (Base64.idx0 a), Base64.alpha alphabet (Base64.idx1 a b), Base64.alpha alphabet (Base64.idx2 b c),
          Base64.alpha alphabet (Base64.idx3 c)] = out
      have h4 : out.length = 4 := by rw [← hout]; rfl
      have hf := write_frame w out hm []
      have hn := ahead_write (d := 3) (n := rest.length) (src := a :: b :: c :: rest) (out := out) (by rwa [Nat.add_comm]) hm (by omega)
      rcases hw : w.write out with ⟨w', r⟩
      rw [hw] at hf hn
      cases r with
      | error e => rfl
      | ok u =>
        obtain ⟨h2, h3⟩ := hf.2 rfl
        dsimp only at h2 h3
        exact ih rest.length (by omega) rest w' (i + 3) rfl h2 hn (by omega)

/-- **C154** (partial, the same), Base64: encoding bytes of the writer's own buffer. -/
theorem C154_encode64_partial (alphabet : List Nat) (w : ByteWriter) (hm : InMachine w) (i n : Nat) (hin : i + n ≤ w.data.length)
    (hs : i + n ≤ w.position ∨ w.position + (n + 2) / 3 ≤ i + 1) :
    enc64 alphabet w n i = .ok (Base64.encode alphabet w ((w.data.drop i).take n)) := by
  have hl : ((w.data.drop i).take n).length = n := by rw [List.length_take, List.length_drop]; omega
  refine enc64_eq alphabet n _ w i hl hm ?_ hs
  intro k hk
  rw [look, List.append_nil, List.getElem?_take_of_lt hk, List.getElem?_drop]

theorem one_eq (w : ByteWriter) (after : List Byte) (i : Nat) (f : Byte → Byte → Byte) (x y : Byte) (hx : look w after i = some x)
    (hy : look w after (i + 1) = some y) (k : ByteWriter → Outcome ByteWriter.Call) (k' : ByteWriter → ByteWriter.Call)
    (hk : (w.write [f x y]).2 = .ok () → k (w.write [f x y]).1 = .ok (k' (w.write [f x y]).1)) :
    one w after i f k = .ok (Base64.writeThen w (f x y) k') := by
  rw [one, hx, hy, Base64.writeThen]
  dsimp only
  rcases hw : w.write [f x y] with ⟨w', r⟩
  rw [hw] at hk
  cases r with
  | error e => rfl
  | ok u => exact hk rfl

theorem tail_eq (table : List Nat) (w : ByteWriter) (after : List Byte) (n i : Nat) (mem : List Byte) (hn : n ≤ mem.length) (h4 : n ≤ 4) (hm : InMachine w)
    (ha : Ahead w after i mem n) (hs : i + n ≤ w.position ∨ w.position ≤ i) : dec64Tail table w after n i = Base64.decodeTail table w n mem := by
  have l1 : ∀ b : Byte, [b].length = 1 := fun _ => rfl
  rcases (by omega : n ≤ 1 ∨ n = 2 ∨ n = 3 ∨ n = 4) with h | h | h | h
  · rw [dec64Tail, if_pos h]
    rcases (by omega : n = 0 ∨ n = 1) with h | h <;> subst h <;> rw [Base64.decodeTail]
  · subst h
    match mem, hn with
    | x :: y :: rest, hn =>
      have h0 := ha 0 (by omega)
      have h1 := ha 1 (by omega)
      rw [dec64Tail, if_neg (by omega), Base64.decodeTail]
      exact one_eq w after i _ x y h0 h1 _ _ fun _ => by rw [if_pos (by omega)]
  · subst h
    match mem, hn with
    | x :: y :: z :: rest, hn =>
      have h0 := ha 0 (by omega)
      have h1 := ha 1 (by omega)
      have h2 := ha 2 (by omega)
      rw [dec64Tail, if_neg (by omega), Base64.decodeTail]
      refine one_eq w after i _ x y h0 h1 _ _ fun _ => ?_
      rw [if_neg (by omega)]
      have f1 := (write_frame w [Base64.byte0 table x y] hm after).1
      rw [l1] at f1
      refine one_eq _ after (i + 1) _ y z ?_ ?_ _ _ fun _ => by rw [if_pos (by omega)]
      · rw [f1 _ (by omega)]; exact h1
      · rw [f1 _ (by omega)]; exact h2
  · subst h
    match mem, hn with
    | x :: y :: z :: u :: rest, hn =>
      have h0 := ha 0 (by omega)
      have h1 := ha 1 (by omega)
      have h2 := ha 2 (by omega)
      have h3 := ha 3 (by omega)
      rw [dec64Tail, if_neg (by omega), Base64.decodeTail]
      · refine one_eq w after i _ x y h0 h1 _ _ fun hok => ?_
        rw [if_neg (by omega)]
        have f1 := write_frame w [Base64.byte0 table x y] hm after
        rw [l1] at f1
        obtain ⟨m1, p1⟩ := f1.2 hok
        have f2 := (write_frame (w.write [Base64.byte0 table x y]).1 [Base64.byte1 table y z] m1 after).1
        rw [l1] at f2
        refine one_eq _ after (i + 1) _ y z ?_ ?_ _ _ fun _ => ?_
        · rw [f1.1 _ (by omega)]; exact h1
        · rw [f1.1 _ (by omega)]; exact h2
        · rw [if_neg (by omega)]
          refine one_eq _ after (i + 2) _ z u ?_ ?_ _ _ fun _ => rfl
          · rw [f2 _ (by omega), f1.1 _ (by omega)]; exact h2
          · rw [f2 _ (by omega), f1.1 _ (by omega)]; exact h3
      all_goals simp

theorem loop_eq (table : List Nat) (after : List Byte) (n : Nat) : ∀ (mem : List Byte) (w : ByteWriter) (i : Nat), n ≤ mem.length → InMachine w →
    Ahead w after i mem n → (i + n ≤ w.position ∨ w.position ≤ i) → dec64Loop table w after n i = Base64.decodeLoop table w n mem := by
  induction n using Nat.strongRecOn with
  | ind n ih =>
    intro mem w i hn hm ha hs
    rw [dec64Loop, Base64.decodeLoop.eq_def]
    split
    · rename_i h4
      match mem, hn, (by omega : 4 ≤ mem.length) with
      | x :: y :: z :: u :: rest, hn, _ =>
        have h0 := ha 0 (by omega)
        have h1 := ha 1 (by omega)
        have h2 := ha 2 (by omega)
        have h3 := ha 3 (by omega)
        simp only [List.length_cons] at hn
        rw [Nat.add_zero, List.getElem?_cons_zero] at h0
        rw [List.getElem?_cons_succ, List.getElem?_cons_zero] at h1
        rw [List.getElem?_cons_succ, List.getElem?_cons_succ, List.getElem?_cons_zero] at h2
        rw [List.getElem?_cons_succ, List.getElem?_cons_succ, List.getElem?_cons_succ, List.getElem?_cons_zero] at h3
        rw [h0, h1, h2, h3]
        dsimp only
        generalize hout : [Base64.byte0 table x y, Base64.byte1 table y z, Base64.byte2 table z u] = out
        have h4 : out.length = 3 := by rw [← hout]; rfl
        have hf := write_frame w out hm after
        have hd := ahead_write (d := 4) (n := n - 4) (src := x :: y :: z :: u :: rest) (out := out) (by
          rwa [show 4 + (n - 4) = n by omega]) hm (by omega)
        rcases hw : w.write out with ⟨w', r⟩
        rw [hw] at hf hd
        cases r with
        | error e => rfl
        | ok u =>
          obtain ⟨h2, h3⟩ := hf.2 rfl
          dsimp only at h2 h3
          exact ih (n - 4) (by omega) rest w' (i + 4) (by omega) h2 hd (by omega)
    · exact tail_eq table w after n i mem hn (by omega) hm ha hs

theorem count_le (table : List Nat) (mem : List Byte) : ∀ c, Base64.countDecodable table mem = some c → c ≤ mem.length := by
  induction mem with
  | nil => intro c h; cases h
  | cons b rest ih =>
    intro c h
    rw [Base64.countDecodable] at h
    split at h
    · cases hr : Base64.countDecodable table rest with
      | none => rw [hr] at h; cases h
      | some d =>
        rw [hr] at h
        cases h
        exact Nat.succ_le_succ (ih d hr)
    · cases h; exact Nat.zero_le _

/-- **C154** (partial, the same), Base64: decoding text of the writer's own buffer, at or before the text, or behind all that is decoded - which may be more
than the text given (C14). -/
theorem C154_decode64_partial (table : List Nat) (w : ByteWriter) (after : List Byte) (hm : InMachine w) (i n : Nat) (hin : i + n ≤ w.data.length)
    (hs : w.position ≤ i ∨ ∀ c, Base64.countDecodable table ((w.data ++ after).drop i) = some c → i + c ≤ w.position) :
    dec64 table w after n i = Base64.decode table w ((w.data.drop i).take n) (w.data.drop (i + n) ++ after) := by
  have hl : ((w.data.drop i).take n).length = n := by rw [List.length_take, List.length_drop]; omega
  have happ : (w.data.drop i).take n ++ (w.data.drop (i + n) ++ after) = (w.data ++ after).drop i := by
    rw [← List.append_assoc, ← List.drop_drop, List.take_append_drop, List.drop_append_of_le_length (by omega)]
  rw [dec64, Base64.decode, happ]
  by_cases h0 : n = 0
  · rw [if_pos h0, if_pos (List.length_eq_zero_iff.mp (by omega))]
  · rw [if_neg h0, if_neg (fun e => h0 (by rw [← hl, e]; rfl))]
    cases hc : Base64.countDecodable table ((w.data ++ after).drop i) with
    | none => rfl
    | some c =>
      exact loop_eq table after c _ w i (count_le _ _ _ hc) hm (ahead_source w after i c) (by
        rcases hs with hs | hs
        · exact .inr hs
        · exact .inl (hs c hc))

/- Where the text does get to bytes still to be read. -/

/-- What was written before stays. -/
theorem enc16_before (left : Nat) : ∀ (w : ByteWriter) (i : Nat) (r : ByteWriter.Call), InMachine w → enc16 w left i = .ok r →
    ∀ j, j < w.position → look r.1 [] j = look w [] j := by
  induction left with
  | zero => intro w i r _ h j _; cases h; rfl
  | succ left ih =>
    intro w i r hm h j hj
    rw [enc16] at h
    cases hl : look w [] i with
    | none => rw [hl] at h; cases h
    | some v =>
      rw [hl] at h
      dsimp only at h
      have hf := write_frame w (Base16.hexPair v) hm []
      rcases hw : w.write (Base16.hexPair v) with ⟨w', x⟩
      rw [hw] at hf h
      rw [← hf.1 j (.inl hj)]
      cases x with
      | error e => cases h; rfl
      | ok u =>
        obtain ⟨h1, h2⟩ := hf.2 rfl
        dsimp only at h1 h2
        exact ih w' (i + 1) r h1 h j (by omega)

theorem encode_before (src : List Byte) : ∀ (w : ByteWriter), InMachine w → ∀ j, j < w.position → look (Base16.encode w src).1 [] j = look w [] j := by
  induction src with
  | nil => intro w _ j _; rfl
  | cons v rest ih =>
    intro w hm j hj
    rw [Base16.encode]
    have hf := write_frame w (Base16.hexPair v) hm []
    rcases hw : w.write (Base16.hexPair v) with ⟨w', x⟩
    rw [hw] at hf
    rw [← hf.1 j (.inl hj)]
    cases x with
    | error e => rfl
    | ok u =>
      obtain ⟨h1, h2⟩ := hf.2 rfl
      dsimp only at h1 h2
      exact ih w' h1 j (by omega)

/-- A writer that had zeros everywhere, after the codes of `k` zeros. -/
structure Zeros (p len limit k : Nat) (w : ByteWriter) : Prop where
  pos : w.position = p + 2 * k
  lim : w.limit = limit
  size : w.data.length = len
  dat : ∀ j, j < len → look w [] j = some (if p ≤ j ∧ j < p + 2 * k then 0x30#8 else 0#8)

/-- Two characters are written where there is room. -/
theorem write_two {p len limit k : Nat} {w : ByteWriter} (h : Zeros p len limit k w) (hl : limit ≤ len) (hm : len < 2 ^ 64) (hr : p + 2 * (k + 1) ≤ limit)
    (a b : Byte) : InMachine w ∧ ∃ w', w.write [a, b] = (w', .ok ()) ∧ w'.position = p + 2 * (k + 1) ∧ w'.limit = limit ∧ w'.data.length = len ∧
      InMachine w' ∧ look w' [] (p + 2 * k) = some a ∧ look w' [] (p + 2 * k + 1) = some b ∧
      ∀ j, j < p + 2 * k ∨ p + 2 * k + 2 ≤ j → look w' [] j = look w [] j := by
  obtain ⟨h1, h2, h3, h4⟩ := h
  have hmw : InMachine w := ⟨by omega, by omega⟩
  have hlen : ([a, b] : List Byte).length = 2 := rfl
  refine ⟨hmw, ?_⟩
  have hf := write_frame w [a, b] hmw []
  have hfit : w.position + 2 ≤ w.data.length := by omega
  rcases write_cases w [a, b] hmw with ⟨h, _⟩ | ⟨_, h, _⟩ | ⟨_, _, h, _⟩ | ⟨_, _, _, e⟩
  · cases h
  · omega
  · rw [ByteWriter.remaining, h1, h2, sub64_of_le (by omega) (by omega)] at h
    omega
  · rw [e] at hf
    refine ⟨_, e, by dsimp only; omega, h2, by dsimp only; rw [overwrite_length _ _ _ hfit]; exact h3, (hf.2 rfl).1, ?_, ?_, fun j hj => ?_⟩
    · rw [look, List.append_nil]
      dsimp only
      rw [overwrite, List.append_assoc, List.getElem?_append_right (by rw [List.length_take]; omega), List.length_take]
      rw [show p + 2 * k - min w.position w.data.length = 0 by omega]
      rfl
    · rw [look, List.append_nil]
      dsimp only
      rw [overwrite, List.append_assoc, List.getElem?_append_right (by rw [List.length_take]; omega), List.length_take]
      rw [show p + 2 * k + 1 - min w.position w.data.length = 1 by omega]
      rfl
    · exact hf.1 j (by rw [hlen]; omega)

theorem zeros_step {p len limit k : Nat} {w : ByteWriter} (h : Zeros p len limit k w) (hl : limit ≤ len) (hm : len < 2 ^ 64) (hr : p + 2 * (k + 1) ≤ limit) :
    ∃ w', w.write [0x30#8, 0x30#8] = (w', .ok ()) ∧ Zeros p len limit (k + 1) w' := by
  obtain ⟨_, w', e, h1, h2, h3, _, h5, h6, h7⟩ := write_two h hl hm hr 0x30#8 0x30#8
  refine ⟨w', e, h1, h2, h3, fun j hj => ?_⟩
  rcases (by omega : j = p + 2 * k ∨ j = p + 2 * k + 1 ∨ j < p + 2 * k ∨ p + 2 * k + 2 ≤ j) with hx | hx | hx
  · rw [hx, h5, if_pos (by omega)]
  · rw [hx, h6, if_pos (by omega)]
  · rw [h7 j hx, h.dat j hj]
    by_cases hc : p ≤ j ∧ j < p + 2 * k
    · rw [if_pos hc, if_pos (by omega)]
    · rw [if_neg hc, if_neg (by omega)]

theorem zeros_run {p len limit s n : Nat} (hl : limit ≤ len) (hm : len < 2 ^ 64) (hr : p + 2 * n ≤ limit) (hin : s + n ≤ len) (w0 : ByteWriter)
    (h0 : Zeros p len limit 0 w0) (t : Nat) (ht : t ≤ n) (hs : ∀ k, k < t → ¬ (p ≤ s + k ∧ s + k < p + 2 * k)) :
    ∃ w, Zeros p len limit t w ∧ enc16 w0 n s = enc16 w (n - t) (s + t) ∧
      Base16.encode w0 (List.replicate n 0#8) = Base16.encode w (List.replicate (n - t) 0#8) := by
  induction t with
  | zero => exact ⟨w0, h0, rfl, rfl⟩
  | succ t ih =>
    obtain ⟨w, h1, h2, h3⟩ := ih (by omega) (fun k hk => hs k (by omega))
    obtain ⟨w', e, h4⟩ := zeros_step h1 hl hm (by omega)
    have hp : Base16.hexPair 0#8 = [0x30#8, 0x30#8] := by decide +kernel
    have hd := h1.dat (s + t) (by omega)
    rw [if_neg (hs t (by omega))] at hd
    obtain ⟨q, hq⟩ : ∃ q, n - t = q + 1 := ⟨n - t - 1, by omega⟩
    have hq' : n - (t + 1) = q := by omega
    refine ⟨w', h4, ?_, ?_⟩
    · rw [h2, hq, hq', enc16, hd]
      dsimp only
      rw [hp, e]
      rfl
    · rw [h3, hq, hq', List.replicate_succ, Base16.encode, hp, e]

/-- **C154** (the negation, Base16): wherever the place for the text is neither behind the bytes nor far enough before them, there are bytes whose encoding
in place is not their encoding. -/
theorem C154_encode16_overtaken (len limit p s n : Nat) (hl : limit ≤ len) (hm : len < 2 ^ 64) (hr : p + 2 * n ≤ limit) (hin : s + n ≤ len)
    (h1 : p < s + n) (h2 : s + 1 < p + n) :
    ∃ data, data.length = len ∧ enc16 ⟨data, p, limit⟩ n s ≠ .ok (Base16.encode ⟨data, p, limit⟩ ((data.drop s).take n)) := by
  refine ⟨List.replicate len 0#8, List.length_replicate, fun heq => ?_⟩
  have hsrc : ((List.replicate len 0#8).drop s).take n = List.replicate n 0#8 := by
    rw [List.drop_replicate, List.take_replicate]
    congr 1
    omega
  rw [hsrc] at heq
  have h0 : Zeros p len limit 0 ⟨List.replicate len 0#8, p, limit⟩ :=
    ⟨rfl, rfl, List.length_replicate, fun j hj => by
      rw [if_neg (by omega), look, List.append_nil]
      dsimp only
      rw [List.getElem?_replicate, if_pos hj]⟩
  obtain ⟨t, ht, hz, hb⟩ : ∃ t, t < n ∧ (p ≤ s + t ∧ s + t < p + 2 * t) ∧ ∀ k, k < t → ¬ (p ≤ s + k ∧ s + k < p + 2 * k) := by
    rcases Nat.lt_or_ge s p with h | h
    · exact ⟨p - s, by omega, by omega, fun k hk => by omega⟩
    · exact ⟨s - p + 1, by omega, by omega, fun k hk => by omega⟩
  obtain ⟨w, hw, e1, e2⟩ := zeros_run hl hm hr hin _ h0 t (by omega) hb
  rw [e1, e2] at heq
  obtain ⟨q, hq⟩ : ∃ q, n - t = q + 1 := ⟨n - t - 1, by omega⟩
  have hd := hw.dat (s + t) (by omega)
  rw [if_pos hz] at hd
  have p0 : Base16.hexPair 0#8 = [0x30#8, 0x30#8] := by decide +kernel
  have p3 : Base16.hexPair 0x30#8 = [0x33#8, 0x30#8] := by decide +kernel
  obtain ⟨_, a, ea, pa, _, _, ma, da, _⟩ := write_two hw hl hm (by omega) 0x33#8 0x30#8
  obtain ⟨_, b, eb, pb, _, _, mb, db, _⟩ := write_two hw hl hm (by omega) 0x30#8 0x30#8
  rw [hq, List.replicate_succ, Base16.encode, p0, eb, enc16, hd] at heq
  dsimp only at heq
  rw [p3, ea] at heq
  dsimp only at heq
  have fa := enc16_before q a _ _ ma heq (p + 2 * t) (by omega)
  rw [encode_before _ b mb _ (by omega), da, db] at fa
  cases fa

/-- **C154** (the negation, the other coders): text or bytes that are overtaken. -/
theorem C154_overtaken :
    (∃ w i n, i + n ≤ w.data.length ∧ dec16 w n i ≠ Base16.decode w ((w.data.drop i).take n)) ∧
    (∃ w i n, i + n ≤ w.data.length ∧ enc64 kBase64Alphabet w n i ≠ .ok (Base64.encode kBase64Alphabet w ((w.data.drop i).take n))) ∧
    (∃ w i n, i + n ≤ w.data.length ∧ dec64 pr2six w [] n i ≠ Base64.decode pr2six w ((w.data.drop i).take n) (w.data.drop (i + n))) :=
  ⟨⟨⟨[0x33#8, 0x31#8, 0x33#8, 0x32#8], 2, 4⟩, 0, 4, by decide, by decide +kernel⟩,
   ⟨⟨[1#8, 2#8, 3#8, 4#8, 5#8, 6#8, 0#8, 0#8], 0, 8⟩, 0, 6, by decide, by decide +kernel⟩,
   ⟨⟨[0x51#8, 0x55#8, 0x4A#8, 0x44#8, 0x3D#8], 1, 5⟩, 0, 4, by decide, by decide +kernel⟩⟩

/-- In a buffer of eight bytes, the four at its end are encoded from its start; and decoded again in place. -/
example : ∃ v, enc16 ⟨[0#8, 0#8, 0#8, 0#8, 0xDE#8, 0xAD#8, 0xBE#8, 0xEF#8], 0, 8⟩ 4 4 = .ok (⟨v, 8, 8⟩, .ok ()) ∧
    v = [0x64#8, 0x65#8, 0x61#8, 0x64#8, 0x62#8, 0x65#8, 0x65#8, 0x66#8] ∧
    dec16 ⟨v, 0, 8⟩ 8 0 = .ok (⟨[0xDE#8, 0xAD#8, 0xBE#8, 0xEF#8, 0x62#8, 0x65#8, 0x65#8, 0x66#8], 4, 8⟩, .ok ()) :=
  ⟨_, by decide +kernel, rfl, by decide +kernel⟩

/-- The hypotheses for this buffer. -/
example : InMachine ⟨[0#8, 0#8, 0#8, 0#8, 0xDE#8, 0xAD#8, 0xBE#8, 0xEF#8], 0, 8⟩ ∧ 4 + 4 ≤ 8 ∧ 0 + 4 ≤ 4 + 1 ∧ 0 + (4 + 2) / 3 ≤ 4 + 1 :=
  ⟨⟨by decide, by decide⟩, by decide, by decide, by decide⟩

/-- And for an encoding that is overtaken: four bytes at offset 3, the text from 0. -/
example : (8 : Nat) ≤ 8 ∧ 0 + 2 * 4 ≤ 8 ∧ 3 + 4 ≤ 8 ∧ 0 < 3 + 4 ∧ ¬ 3 + 1 < 0 + 4 ∧ 2 + 1 < 0 + 4 := by decide

/-- **C154**, outside of the buffer: the coders of Base16 and the Base64 encoder read every byte that they are given a place of, so input that does not lie in the
memory is undefined behaviour with its first group, before anything is written. -/
theorem C154_outside (alphabet : List Nat) (w : ByteWriter) (i n : Nat) (hi : w.data.length ≤ i) (hn : n ≠ 0) :
    enc16 w n i = .ub ∧ (n % 2 = 0 → dec16 w n i = .ub) ∧ enc64 alphabet w n i = .ub := by
  have hl : ∀ j, i ≤ j → look w [] j = none := fun j hj => by
    unfold look
    rw [List.append_nil]
    exact List.getElem?_eq_none (by omega)
  refine ⟨?_, fun h2 => ?_, ?_⟩
  · obtain ⟨m, rfl⟩ := Nat.exists_eq_succ_of_ne_zero hn
    simp only [enc16, hl i (Nat.le_refl _)]
  · obtain ⟨m, hm⟩ := Nat.exists_eq_succ_of_ne_zero (show n / 2 ≠ 0 by omega)
    simp only [dec16, h2, hm, dec16Loop, hl i (Nat.le_refl _)]
    rfl
  · match n, hn with
    | 1, _ => simp only [enc64, hl i (Nat.le_refl _)]
    | 2, _ => simp only [enc64, hl i (Nat.le_refl _)]
    | m + 3, _ => simp only [enc64, hl i (Nat.le_refl _)]

example : enc16 ⟨[1#8, 2#8], 0, 2⟩ 1 2 = .ub := (C154_outside [] _ 2 1 (by decide) (by decide)).1

end Solace.InPlace
