import Verif.Model.EncodePieces
import Verif.Props.C12_Exact
/-
C106: encoding and decoding in pieces.
-/
namespace Solace.Coder
open ByteWriter Base64

theorem writeChunks_append (a b : List (List Byte)) (s : ByteWriter) :
    s.writeChunks (a ++ b) = match s.writeChunks a with
      | (s', .ok _) => s'.writeChunks b
      | (s', .error e) => (s', .error e) := by
  induction a generalizing s with
  | nil => rfl
  | cons d a ih =>
    rw [List.cons_append, writeChunks, writeChunks]
    cases hw : s.write d with
    | mk s' r =>
      cases r with
      | ok u => exact ih s'
      | error e => rfl

/-- **C106**, base16: whatever the destination, encoding pieces in turn is encoding them all at once. -/
theorem C106_base16 (dest : ByteWriter) (ps : List (List Byte)) :
    inTurn Base16.encode dest ps = Base16.encode dest ps.flatten := by
  induction ps generalizing dest with
  | nil => rfl
  | cons p ps ih =>
    rw [inTurn, List.flatten_cons, Base16.encode_eq, Base16.encode_eq (p ++ ps.flatten), List.map_append, writeChunks_append]
    cases hw : dest.writeChunks (p.map Base16.hexPair) with
    | mk s' r =>
      cases r with
      | ok u => exact (ih s').trans (Base16.encode_eq _ _)
      | error e => rfl

/-- Every piece that something follows has a length divisible by three. -/
def WholeGroups (ps : List (List Byte)) : Prop :=
  ∀ xs p ys, ps = xs ++ p :: ys → p.length % 3 = 0 ∨ ∀ y ∈ ys, y = []

theorem wholeGroups_cons (p : List Byte) (ps : List (List Byte)) :
    WholeGroups (p :: ps) ↔ (p.length % 3 = 0 ∨ ∀ y ∈ ps, y = []) ∧ WholeGroups ps := by
  constructor
  · intro h
    exact ⟨h [] p ps rfl, fun xs q ys e => h (p :: xs) q ys (by rw [e]; rfl)⟩
  · rintro ⟨h1, h2⟩ xs q ys e
    cases xs with
    | nil =>
      obtain ⟨rfl, rfl⟩ := List.cons.inj e
      exact h1
    | cons x xs => exact h2 xs q ys (List.cons.inj e).2

theorem pieces_append (url : Bool) (a b : List Byte) (h : a.length % 3 = 0) :
    pieces url (a ++ b) = pieces url a ++ pieces url b := by
  induction a using pieces.induct with
  | case1 => rfl
  | case2 a => simp at h
  | case3 a b => simp at h
  | case4 x y z rest ih =>
    simp only [List.cons_append, pieces]
    rw [ih (by simp only [List.length_cons] at h; omega)]

theorem all_nil_flatten (ps : List (List Byte)) : ps.flatten = [] ↔ ∀ y ∈ ps, y = [] := List.flatten_eq_nil_iff

/-- **C106**, base64: whatever the destination, encoding pieces in turn is encoding them all at once if each piece but the last
non-empty one has a length divisible by three. -/
theorem C106_base64 (url : Bool) (dest : ByteWriter) (ps : List (List Byte)) (h : WholeGroups ps) :
    inTurn (encode (alphabetOf url)) dest ps = encode (alphabetOf url) dest ps.flatten := by
  induction ps generalizing dest with
  | nil => rfl
  | cons p ps ih =>
    obtain ⟨h1, h2⟩ := (wholeGroups_cons p ps).1 h
    have hp : pieces url (p ++ ps.flatten) = pieces url p ++ pieces url ps.flatten := by
      rcases h1 with h1 | h1
      · exact pieces_append url p _ h1
      · rw [(all_nil_flatten ps).2 h1, List.append_nil]
        exact (List.append_nil _).symm
    rw [inTurn, List.flatten_cons, encode_eq, encode_eq url (p ++ ps.flatten), hp, writeChunks_append]
    cases hw : dest.writeChunks (pieces url p) with
    | mk s' r =>
      cases r with
      | ok u => exact (ih s' h2).trans (encode_eq _ _ _)
      | error e => rfl

/-- The texts of the pieces one after the other. -/
def texts (url : Bool) (ps : List (List Byte)) : List Byte := ps.flatMap (Rfc4648.text url)

theorem texts_nil (url : Bool) (ps : List (List Byte)) (h : ∀ y ∈ ps, y = []) : texts url ps = [] := by
  rw [texts, List.flatMap_eq_nil_iff]
  intro y hy
  rw [h y hy, ← pieces_text]
  rfl

theorem texts_iff (url : Bool) (ps : List (List Byte)) :
    texts url ps = Rfc4648.text url ps.flatten ↔ WholeGroups ps := by
  induction ps with
  | nil =>
    refine ⟨fun _ xs p ys e => ?_, fun _ => by rw [← pieces_text]; rfl⟩
    cases xs <;> cases e
  | cons p ps ih =>
    rw [wholeGroups_cons, ← ih]
    have hcons : texts url (p :: ps) = Rfc4648.text url p ++ texts url ps := rfl
    rw [hcons, List.flatten_cons]
    by_cases h3 : p.length % 3 = 0
    · have : Rfc4648.text url (p ++ ps.flatten) = Rfc4648.text url p ++ Rfc4648.text url ps.flatten := by
        rw [← pieces_text, ← pieces_text, ← pieces_text, pieces_append url p _ h3, List.flatten_append]
      rw [this, List.append_right_inj]
      exact ⟨fun h => ⟨.inl h3, h⟩, fun h => h.2⟩
    · by_cases hn : ps.flatten = []
      · have hn' := (all_nil_flatten ps).1 hn
        rw [texts_nil url ps hn', hn]
        refine ⟨fun _ => ⟨.inr hn', by rw [← pieces_text]; rfl⟩, fun _ => ?_⟩
        rw [List.append_nil, List.append_nil]
      · refine ⟨fun h => ?_, fun h => ?_⟩
        · exfalso
          have e := congrArg (fun t => countDecodable (tableOf url) (t ++ [pad])) h
          rw [List.append_assoc, ← pieces_text, ← pieces_text, countDecodable_padded url p _ h3] at e
          have hc : countDecodable (tableOf url) ((pieces url (p ++ ps.flatten)).flatten ++ [pad]) =
              some (cnt (p ++ ps.flatten)) := by
            by_cases h3' : (p ++ ps.flatten).length % 3 = 0
            · rw [countDecodable_unpadded url _ _ h3', countDecodable_pad]
              simp
            · exact countDecodable_padded url _ _ h3'
          rw [hc] at e
          have e := Option.some.inj e
          have h1 := (cnt_bytes p).1
          have h2 := (cnt_bytes (p ++ ps.flatten)).1
          rw [← e, h1, List.length_append] at h2
          have := List.length_pos_iff.2 hn
          omega
        · rcases h.1 with h | h
          · exact absurd h h3
          · exact absurd ((all_nil_flatten ps).2 h) hn

theorem texts_length (url : Bool) (ps : List (List Byte)) :
    (texts url ps).length = (ps.map fun p => 4 * ((p.length + 2) / 3)).sum := by
  induction ps with
  | nil => rfl
  | cons p ps ih =>
    have hcons : texts url (p :: ps) = Rfc4648.text url p ++ texts url ps := rfl
    rw [hcons, List.length_append, ih, ← pieces_text, pieces_length, List.map_cons, List.sum_cons]

/-- **C106**, base64, what pieces give: with room, the RFC 4648 text of each piece, one after the other; and that is what encoding
all at once gives exactly when each piece but the last non-empty one has a length divisible by three. -/
theorem C106_base64_iff (url : Bool) (ps : List (List Byte)) (dest : ByteWriter) (h : dest.Ready)
    (hr : dest.position + (texts url ps).length ≤ dest.limit)
    (hr' : dest.position + (Rfc4648.text url ps.flatten).length ≤ dest.limit) :
    inTurn (encode (alphabetOf url)) dest ps = (dest.wrote (texts url ps), .ok ()) ∧
    (inTurn (encode (alphabetOf url)) dest ps = encode (alphabetOf url) dest ps.flatten ↔ WholeGroups ps) := by
  have h1 : ∀ (ps : List (List Byte)) (dest : ByteWriter), dest.Ready → dest.position + (texts url ps).length ≤ dest.limit →
      inTurn (encode (alphabetOf url)) dest ps = (dest.wrote (texts url ps), .ok ()) := by
    intro ps
    induction ps with
    | nil => intro d _ _; rw [inTurn, texts, List.flatMap_nil, wrote_nil]
    | cons p ps ih =>
      intro d hd hl
      have hcons : texts url (p :: ps) = Rfc4648.text url p ++ texts url ps := rfl
      rw [hcons, List.length_append] at hl
      have hp : (Rfc4648.text url p).length = (pieces url p).flatten.length := by rw [pieces_text]
      obtain ⟨r1, r2, r3⟩ := wrote_ready d (Rfc4648.text url p) hd (by omega)
      rw [inTurn, encode_eq, writeChunks_fits _ _ hd (by omega), pieces_text]
      simp only
      rw [ih _ r1 (by rw [r2, r3]; omega), hcons, wrote_wrote _ _ _ (by have := hd.2.1; omega)]
  refine ⟨h1 ps dest h hr, ?_⟩
  rw [h1 ps dest h hr]
  have h2 : encode (alphabetOf url) dest ps.flatten = (dest.wrote (Rfc4648.text url ps.flatten), .ok ()) := by
    rw [encode_eq, writeChunks_fits _ _ h (by rw [pieces_text]; exact hr'), pieces_text]
  rw [h2, ← texts_iff url ps]
  constructor
  · intro e
    have e := (Prod.mk.inj e).1
    have hp := congrArg ByteWriter.position e
    have hd := congrArg ByteWriter.data e
    simp only [wrote] at hp hd
    have hle := h.2.1
    have t1 := overwrite_take dest.data dest.position (texts url ps) (by omega)
    have t2 := overwrite_take dest.data dest.position (Rfc4648.text url ps.flatten) (by omega)
    rw [hd, hp, t2] at t1
    exact (List.append_cancel_left t1).symm
  · intro e
    rw [e]

/-- **C106**, base64, decoding what was written in pieces: the decoder takes everything up to the end of the first piece whose
length is not divisible by three, silently drops whatever was written after it, and reports success. -/
theorem C106_base64_dropped (url : Bool) (xs : List (List Byte)) (p : List Byte) (ys : List (List Byte)) (after : List Byte)
    (hx : ∀ x ∈ xs, x.length % 3 = 0) (hp : p.length % 3 ≠ 0) (dest : ByteWriter) (h : dest.Ready)
    (hr : dest.position + (xs.flatten ++ p).length ≤ dest.limit) :
    decode (tableOf url) dest (texts url (xs ++ p :: ys)) after = .ok (dest.wrote (xs.flatten ++ p), .ok ()) := by
  have hw : WholeGroups (xs ++ [p]) := by
    intro as q bs e
    by_cases hb : bs = []
    · right; intro y hy; rw [hb] at hy; cases hy
    · left
      obtain ⟨bs', b, rfl⟩ := List.eq_nil_or_concat bs |>.resolve_left hb
      rw [List.concat_eq_append] at e
      have e' : xs ++ [p] = (as ++ q :: bs') ++ [b] := by rw [e]; simp
      obtain ⟨e1, _⟩ := List.append_inj' e' rfl
      exact hx q (by rw [e1]; simp)
  have hl : (xs ++ [p]).flatten.length % 3 ≠ 0 := by
    have : xs.flatten.length % 3 = 0 := by
      clear hw hr
      induction xs with
      | nil => rfl
      | cons x xs ih =>
        rw [List.flatten_cons, List.length_append]
        have h1 := hx x (by simp)
        have h2 := ih (fun y hy => hx y (by simp [hy]))
        omega
    rw [List.flatten_append, List.length_append]
    simp only [List.flatten_cons, List.flatten_nil, List.append_nil]
    omega
  have hf : (xs ++ [p]).flatten = xs.flatten ++ p := by simp
  have ht : texts url (xs ++ p :: ys) = Rfc4648.text url (xs.flatten ++ p) ++ texts url ys := by
    rw [← hf, ← (texts_iff url (xs ++ [p])).2 hw]
    simp [texts]
  rw [hf] at hl
  have hne : xs.flatten ++ p ≠ [] := by intro e; rw [e] at hl; exact hl rfl
  have hd : decode (tableOf url) dest (texts url (xs ++ p :: ys)) after =
      decode (tableOf url) dest (Rfc4648.text url (xs.flatten ++ p)) (texts url ys ++ after) := by
    have h1 : Rfc4648.text url (xs.flatten ++ p) ≠ [] := by
      rw [← pieces_text]
      exact pieces_ne_nil url _ hne
    rw [decode, decode, ht, if_neg h1, if_neg (by simp [h1]), List.append_assoc]
  rw [hd]
  exact (C12_round_trip_iff url (xs.flatten ++ p) (texts url ys ++ after) dest h hr).2 ⟨hne, fun e => absurd e hl⟩

theorem decodeLoop16_append (a b : List Byte) (h : a.length % 2 = 0) (dest : ByteWriter) :
    Base16.decodeLoop dest (a ++ b) = match Base16.decodeLoop dest a with
      | .ok (d, .ok _) => Base16.decodeLoop d b
      | .ok (d, .error e) => .ok (d, .error e)
      | .throws => .throws
      | .terminate => .terminate
      | .ub => .ub := by
  match a, h with
  | [], _ => rfl
  | [_], h => simp at h
  | x :: y :: a, h =>
    rw [List.cons_append, List.cons_append, Base16.decodeLoop, Base16.decodeLoop]
    cases Base16.decode16 x y with
    | ok r =>
      cases r with
      | ok v =>
        simp only
        cases dest.write [v] with
        | mk d r =>
          cases r with
          | ok u => exact decodeLoop16_append a b (by simp only [List.length_cons] at h; omega) d
          | error e => rfl
      | error e => rfl
    | throws => rfl
    | terminate => rfl
    | ub => rfl

/-- **C106**, base16 decoder: pieces of even length are decoded as all at once, whatever they hold and whatever the destination;
a piece of odd length is refused, so that nothing after it is decoded. -/
theorem C106_base16_decode (ps : List (List Byte)) (dest : ByteWriter) :
    ((∀ p ∈ ps, p.length % 2 = 0) → inTurnO Base16.decode dest ps = Base16.decode dest ps.flatten) ∧
    ((∃ p ∈ ps, p.length % 2 = 1) → ∀ d, inTurnO Base16.decode dest ps ≠ .ok (d, .ok ())) := by
  constructor
  · intro h
    induction ps generalizing dest with
    | nil => rfl
    | cons p ps ih =>
      have hp := h p (by simp)
      have hs : ps.flatten.length % 2 = 0 := by
        have : ∀ qs : List (List Byte), (∀ q ∈ qs, q.length % 2 = 0) → qs.flatten.length % 2 = 0 := by
          intro qs
          induction qs with
          | nil => intro _; rfl
          | cons q qs ih =>
            intro hq
            have h1 := hq q (by simp)
            have h2 := ih (fun y hy => hq y (by simp [hy]))
            rw [List.flatten_cons, List.length_append]
            omega
        exact this ps (fun q hq => h q (by simp [hq]))
      have hih := fun d => ih d (fun q hq => h q (by simp [hq]))
      rw [inTurnO, List.flatten_cons, Base16.decode, Base16.decode, if_neg (by omega),
        if_neg (by rw [List.length_append]; omega), decodeLoop16_append p _ hp]
      cases hd : Base16.decodeLoop dest p with
      | ok r =>
        obtain ⟨d, r⟩ := r
        cases r with
        | ok u =>
          simp only
          rw [hih d, Base16.decode, if_neg (by omega)]
        | error e => rfl
      | throws => rfl
      | terminate => rfl
      | ub => rfl
  · intro h
    induction ps generalizing dest with
    | nil => obtain ⟨p, hp, _⟩ := h; cases hp
    | cons p ps ih =>
      intro d
      by_cases hp : p.length % 2 = 1
      · rw [inTurnO, Base16.decode, if_pos (by omega)]
        intro e
        cases e
      · obtain ⟨q, hq, hq1⟩ := h
        have hq' : q ∈ ps := by
          rcases List.mem_cons.1 hq with rfl | hq
          · exact absurd hq1 hp
          · exact hq
        rw [inTurnO]
        split
        · exact ih _ ⟨q, hq', hq1⟩ d
        · intro e; cases e
        · intro e; cases e
        · intro e; cases e
        · intro e; cases e

/-- **C106**: text cut at any even place decodes piece by piece to the bytes encoded piece by piece. -/
theorem C106_base16_round_trip (ps : List (List Byte)) (dest : ByteWriter) (h : dest.Ready)
    (hr : dest.position + ps.flatten.length ≤ dest.limit) :
    inTurnO Base16.decode dest (ps.map Hex.text) = .ok (dest.wrote ps.flatten, .ok ()) := by
  have hev : ∀ p ∈ ps.map Hex.text, p.length % 2 = 0 := by
    intro p hp
    obtain ⟨q, _, rfl⟩ := List.mem_map.1 hp
    rw [Base16.text_length]
    omega
  rw [(C106_base16_decode _ dest).1 hev]
  have ht : (ps.map Hex.text).flatten = Hex.text ps.flatten := by
    induction ps with
    | nil => rfl
    | cons p ps ih =>
      rw [List.map_cons, List.flatten_cons, List.flatten_cons, ih (by simp only [List.flatten_cons, List.length_append] at hr; omega)
        (fun q hq => hev q (by simp only [List.map_cons]; exact List.mem_cons_of_mem _ hq))]
      simp [Hex.text]
  rw [ht]
  have hfl : (ps.flatten.map fun b => [b]).flatten = ps.flatten := by
    induction ps.flatten with
    | nil => rfl
    | cons b bs ih => rw [List.map_cons, List.flatten_cons, ih]; rfl
  rw [Base16.decode, if_neg (by rw [Base16.text_length]; omega), Base16.decodeLoop_parse _ _ _ (Base16.parse_text _),
    writeChunks_fits _ _ h (by rw [hfl]; exact hr), hfl]

example : texts false [[0x4D], [0x61, 0x6E]] = [84, 81, 61, 61, 89, 87, 52, 61] ∧
    Rfc4648.text false [0x4D, 0x61, 0x6E] = [84, 87, 70, 117] ∧ ¬ WholeGroups [[0x4D], [0x61, 0x6E]] := by
  refine ⟨by simp [texts, ← pieces_text, pieces]; decide, by simp [← pieces_text, pieces]; decide, fun h => ?_⟩
  rcases h [] [0x4D] [[0x61, 0x6E]] rfl with h | h
  · exact absurd h (by decide)
  · exact absurd (h [0x61, 0x6E] (List.mem_singleton.2 rfl)) (by decide)
example : (ofBuffer [0, 0, 0, 0]).Ready ∧ WholeGroups [[0x4D, 0x61, 0x6E], [], [1]] := by
  refine ⟨by unfold Ready ofBuffer; decide, fun xs p ys e => ?_⟩
  match xs, e with
  | [], e => obtain ⟨rfl, _⟩ := List.cons.inj e; exact .inl rfl
  | [_], e => obtain ⟨rfl, _⟩ := List.cons.inj (List.cons.inj e).2; exact .inl rfl
  | [_, _], e =>
    obtain ⟨_, h⟩ := List.cons.inj (List.cons.inj (List.cons.inj e).2).2
    exact .inr (fun y hy => by rw [← h] at hy; cases hy)
  | _ :: _ :: _ :: xs, e =>
    have := congrArg List.length e
    simp at this

end Solace.Coder
