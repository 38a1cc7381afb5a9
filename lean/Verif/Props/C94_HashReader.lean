import Verif.Props.C61_C62_Hashing
import Verif.Props.C84_Murmur3X86
import Verif.Model.HashReader
/-
C94: hashing what byte readers hold: every byte between position and limit is hashed once, and the readers are used up.
-/
namespace Solace.Hash
open Spec

/-- What a reader holds: the bytes between position and limit. -/
def unread (r : ByteReader) : List Byte := (r.data.take r.limit).drop r.position

/-- A reader that has been read to its limit. -/
def usedUp (s : Source) : Source := { s with reader := { s.reader with position := max s.reader.position s.reader.limit } }

/-- What each call adds to the message: the view, or what the reader holds the first time the reader is given and nothing later. -/
def contributions : List (List Byte) → List Feed → List (List Byte)
  | _, [] => []
  | held, .view _ bytes :: fs => bytes :: contributions held fs
  | held, .reader i :: fs => (held[i]?).getD [] :: contributions (held.set i []) fs

/-- The limit is inside of the memory and the position is a `size_t`. -/
def Sound (r : ByteReader) : Prop := r.limit ≤ r.data.length ∧ r.data.length < 2 ^ 64 ∧ r.position < 2 ^ 64

instance (r : ByteReader) : Decidable (Sound r) := inferInstanceAs (Decidable (_ ∧ _ ∧ _))

theorem sound_advance {r : ByteReader} (h : Sound r) (n : Nat) : Sound (r.advance n).reader := by
  rw [ByteReader.advance]
  split
  · exact h
  · exact ⟨h.1, h.2.1, wrap64_lt _⟩

theorem sound_read {r : ByteReader} (h : Sound r) (d : List Byte) : Sound (r.read d).reader := by
  rw [ByteReader.read]
  dsimp only
  split
  · exact h
  · split
    · exact h
    · exact ⟨h.1, h.2.1, wrap64_lt _⟩

theorem thenSwap_reader (b : Bool) (r : ReadCall) : (ByteReader.thenSwap b r).reader = r.reader := by
  rw [ByteReader.thenSwap]
  split <;> rfl

theorem sound_step (big : Bool) {r : ByteReader} (h : Sound r) (op : ByteReader.Op) (x : ReadCall)
    (hx : ByteReader.step big r op = .ok x) : Sound x.reader := by
  cases op with
  | limit n =>
    cases hx
    rw [ByteReader.setLimit]
    split
    · exact h
    · exact ⟨by rename_i hn; exact Nat.le_of_not_lt hn, h.2.1, h.2.2⟩
  | position n =>
    cases hx
    rw [ByteReader.setPosition]
    split
    · exact h
    · refine ⟨h.1, h.2.1, ?_⟩
      rename_i hn
      have := h.1
      have := h.2.1
      show n < 2 ^ 64
      omega
  | advance n => cases hx; exact sound_advance h n
  | rewind => cases hx; exact ⟨h.1, h.2.1, by show 0 < 2 ^ 64; omega⟩
  | get =>
    rw [ByteReader.step, ByteReader.get] at hx
    split at hx
    · cases hx; exact h
    · cases hb : MemoryView.at r.data r.position with
      | ok b =>
        rw [hb] at hx
        cases hx
        exact ⟨h.1, h.2.1, wrap64_lt _⟩
      | throws => rw [hb] at hx; cases hx
      | terminate => rw [hb] at hx; cases hx
      | ub => rw [hb] at hx; cases hx
  | getAt p =>
    rw [ByteReader.step, ByteReader.getAt] at hx
    split at hx
    · cases hx; exact h
    · cases hb : MemoryView.at r.data p with
      | ok b =>
        rw [hb] at hx
        cases hx
        exact h
      | throws => rw [hb] at hx; cases hx
      | terminate => rw [hb] at hx; cases hx
      | ub => rw [hb] at hx; cases hx
  | read d => cases hx; exact sound_read h d
  | readAt o d =>
    cases hx
    rw [ByteReader.readAt]
    dsimp only
    split
    · exact h
    · split <;> exact h
  | readLE v => cases hx; rw [ByteReader.readLE, thenSwap_reader]; exact sound_read h v
  | readBE v => cases hx; rw [ByteReader.readBE, thenSwap_reader]; exact sound_read h v

/-- **C94**, the hypothesis of what follows holds for every reader that can be reached: made from any memory, after any calls. -/
theorem C94_sound (big : Bool) (data : List Byte) (hd : data.length < 2 ^ 64) (ops : List ByteReader.Op) (r : ByteReader)
    (h : ByteReader.run big (.ofView data) ops = .ok r) : Sound r := by
  have key : ∀ (ops : List ByteReader.Op) (s r : ByteReader), Sound s → ByteReader.run big s ops = .ok r → Sound r := by
    intro ops
    induction ops with
    | nil => intro s r hs h; cases h; exact hs
    | cons op ops ih =>
      intro s r hs h
      rw [ByteReader.run] at h
      cases hx : ByteReader.step big s op with
      | ok x => rw [hx] at h; exact ih _ _ (sound_step big hs op x hx) h
      | throws => rw [hx] at h; cases h
      | terminate => rw [hx] at h; cases h
      | ub => rw [hx] at h; cases h
  exact key ops _ r ⟨Nat.le_refl _, hd, by show 0 < 2 ^ 64; omega⟩ h

theorem viewRemaining_eq (r : ByteReader) : r.viewRemaining = unread r := by
  rw [ByteReader.viewRemaining, slice_eq, unread, List.drop_take]

theorem unread_length {r : ByteReader} (h : Sound r) : (unread r).length = r.limit - r.position := by
  have := h.1
  rw [unread]
  simp
  omega

/-- **C94**, one call for any algorithm: the bytes between position and limit are hashed, in one piece, and the reader ends at its
limit (or stays behind it, if it was). -/
theorem C94_updateReader {C : Type} (update : C → Nat → List Byte → Outcome C) (c : C) (s : Source) (h : Sound s.reader) :
    updateReader update c s =
      (update c (s.base + s.reader.position) (unread s.reader)).bind fun c' => .ok (c', usedUp s) := by
  have hadv : { s with reader := (s.reader.advance (unread s.reader).length).reader } = usedUp s := by
    rw [usedUp, unread_length h, ByteReader.advance, ByteReader.remaining]
    obtain ⟨h1, h2, h3⟩ := h
    by_cases hp : s.reader.position ≤ s.reader.limit
    · rw [sub64_of_le hp (by omega), if_neg (Nat.lt_irrefl _), wrap64_of_lt (by omega), Nat.max_eq_right hp,
        show s.reader.position + (s.reader.limit - s.reader.position) = s.reader.limit by omega]
    · rw [show s.reader.limit - s.reader.position = 0 by omega, if_neg (Nat.not_lt_zero _), Nat.add_zero, wrap64_of_lt h3,
        Nat.max_eq_left (by omega)]
  show (update c (s.base + s.reader.position) s.reader.viewRemaining).bind (fun c' =>
    .ok (c', { s with reader := (s.reader.advance s.reader.viewRemaining.length).reader })) = _
  rw [viewRemaining_eq, hadv]

theorem usedUp_sound {s : Source} (h : Sound s.reader) : Sound (usedUp s).reader := by
  obtain ⟨h1, h2, h3⟩ := h
  refine ⟨h1, h2, ?_⟩
  show max s.reader.position s.reader.limit < 2 ^ 64
  omega

/-- A reader that is used up holds nothing. -/
theorem unread_usedUp (s : Source) : unread (usedUp s).reader = [] := by
  apply List.drop_eq_nil_of_le
  show (List.take s.reader.limit s.reader.data).length ≤ max s.reader.position s.reader.limit
  simp
  omega

theorem usedUp_usedUp (s : Source) : usedUp (usedUp s) = usedUp s := by
  simp [usedUp, Nat.max_assoc]

/-- The readers after the calls: those given are used up. -/
def finals (rs : List Source) (fs : List Feed) : List Source :=
  rs.mapIdx fun i s => if Feed.reader i ∈ fs then usedUp s else s

theorem finals_nil (rs : List Source) : finals rs [] = rs := by
  apply List.ext_getElem?
  intro k
  simp [finals]

theorem finals_view (rs : List Source) (a : Nat) (b : List Byte) (fs : List Feed) :
    finals rs (.view a b :: fs) = finals rs fs := by simp [finals]

theorem finals_reader (rs : List Source) (i : Nat) (s : Source) (hs : rs[i]? = some s) (fs : List Feed) :
    finals (rs.set i (usedUp s)) fs = finals rs (.reader i :: fs) := by
  apply List.ext_getElem?
  intro k
  simp only [finals, List.getElem?_mapIdx, List.getElem?_set, List.mem_cons, Feed.reader.injEq]
  by_cases hk : i = k
  · subst hk
    have hl : i < rs.length := (List.getElem?_eq_some_iff.1 hs).1
    rw [if_pos rfl, if_pos hl, hs]
    simp [usedUp_usedUp]
  · rw [if_neg hk]
    simp [Ne.symm hk]

/-- **C94**, any calls for MD5, SHA-1 and SHA-256: the hash is that of the contributions in order, each reader counting once, and
exactly the readers given are used up. -/
theorem C94_feed {S : Type} (process : S → List Byte → S) (fs : List Feed) : ∀ (c : Ctx S) (rs : List Source),
    (∀ s ∈ rs, Sound s.reader) → (∀ i, Feed.reader i ∈ fs → i < rs.length) →
    feed (blockUpdate process) c rs fs =
      (updates process c (contributions (rs.map fun s => unread s.reader) fs)).bind fun c' => .ok (c', finals rs fs) := by
  induction fs with
  | nil => intro c rs _ _; rw [finals_nil]; rfl
  | cons f fs ih =>
    intro c rs hrs hfs
    cases f with
    | view a b =>
      rw [feed, contributions, updates, finals_view, blockUpdate]
      cases hu : update process c b with
      | ok c' => exact ih c' rs hrs fun i hi => hfs i (List.mem_cons_of_mem _ hi)
      | throws => rfl
      | terminate => rfl
      | ub => rfl
    | reader i =>
      have hi := hfs i List.mem_cons_self
      have hs : rs[i]? = some rs[i] := List.getElem?_eq_getElem hi
      have hsound := hrs _ (List.getElem_mem hi)
      rw [feed, hs]
      show (updateReader (blockUpdate process) c rs[i]).bind (fun x => feed (blockUpdate process) x.1 (rs.set i x.2) fs) = _
      rw [C94_updateReader _ c _ hsound, contributions, updates, blockUpdate,
        show ((rs.map fun s => unread s.reader)[i]?).getD [] = unread rs[i].reader by simp [hi]]
      cases hu : update process c (unread rs[i].reader) with
      | ok c' =>
        have := ih c' (rs.set i (usedUp rs[i])) (by
          intro s hm
          rcases List.mem_or_eq_of_mem_set hm with hm | rfl
          · exact hrs s hm
          · exact usedUp_sound hsound) (by
          intro k hk
          rw [List.length_set]
          exact hfs k (List.mem_cons_of_mem _ hk))
        rw [List.map_set, unread_usedUp, finals_reader rs i _ hs] at this
        exact this
      | throws => rfl
      | terminate => rfl
      | ub => rfl

/-- The address and the bytes of each call: a reader begins where it stands, and the second time at its limit with nothing. -/
def pieces : List Source → List Feed → List (Nat × List Byte)
  | _, [] => []
  | rs, .view a b :: fs => (a, b) :: pieces rs fs
  | rs, .reader i :: fs =>
    match rs[i]? with
    | none => []
    | some s => (s.base + s.reader.position, unread s.reader) :: pieces (rs.set i (usedUp s)) fs

/-- One update after the other. -/
def inTurn {C : Type} (update : C → Nat → List Byte → Outcome C) : C → List (Nat × List Byte) → Outcome C
  | c, [] => .ok c
  | c, (a, b) :: ps => (update c a b).bind fun c' => inTurn update c' ps

/-- **C94**, any calls for any algorithm, also one that depends on where the memory is: it gets these pieces in this order, and
exactly the readers given are used up. -/
theorem C94_feed_any {C : Type} (update : C → Nat → List Byte → Outcome C) (fs : List Feed) : ∀ (c : C) (rs : List Source),
    (∀ s ∈ rs, Sound s.reader) → (∀ i, Feed.reader i ∈ fs → i < rs.length) →
    feed update c rs fs = (inTurn update c (pieces rs fs)).bind fun c' => .ok (c', finals rs fs) := by
  induction fs with
  | nil => intro c rs _ _; rw [finals_nil]; rfl
  | cons f fs ih =>
    intro c rs hrs hfs
    cases f with
    | view a b =>
      rw [feed, pieces, inTurn, finals_view]
      cases hu : update c a b with
      | ok c' => exact ih c' rs hrs fun i hi => hfs i (List.mem_cons_of_mem _ hi)
      | throws => rfl
      | terminate => rfl
      | ub => rfl
    | reader i =>
      have hi := hfs i List.mem_cons_self
      have hs : rs[i]? = some rs[i] := List.getElem?_eq_getElem hi
      have hsound := hrs _ (List.getElem_mem hi)
      rw [feed, pieces, hs]
      show (updateReader update c rs[i]).bind (fun x => feed update x.1 (rs.set i x.2) fs) =
        (inTurn update c ((rs[i].base + rs[i].reader.position, unread rs[i].reader) ::
          pieces (rs.set i (usedUp rs[i])) fs)).bind _
      rw [C94_updateReader _ c _ hsound, inTurn]
      cases hu : update c (rs[i].base + rs[i].reader.position) (unread rs[i].reader) with
      | ok c' =>
        have := ih c' (rs.set i (usedUp rs[i])) (by
          intro s hm
          rcases List.mem_or_eq_of_mem_set hm with hm | rfl
          · exact hrs s hm
          · exact usedUp_sound hsound) (by
          intro k hk
          rw [List.length_set]
          exact hfs k (List.mem_cons_of_mem _ hk))
        rw [finals_reader rs i _ hs] at this
        exact this
      | throws => rfl
      | terminate => rfl
      | ub => rfl

/-- The digest of a new object fed this way. -/
def Md5.ofFeeds (h : Host) (rs : List Source) (fs : List Feed) : Outcome (List Byte) :=
  (feed (blockUpdate (Md5.process h)) (Md5.init h) rs fs).bind fun x => (Md5.digest h x.1).bind fun d => .ok d.1

def Sha1.ofFeeds (h : Host) (rs : List Source) (fs : List Feed) : Outcome (List Byte) :=
  (feed (blockUpdate (Sha1.process h)) (Sha1.init h) rs fs).bind fun x => (Sha1.digest h x.1).bind fun d => .ok d.1

def Sha2.ofFeeds (h : Host) (rs : List Source) (fs : List Feed) : Outcome (List Byte) :=
  (feed (blockUpdate (Sha2.process h)) Sha2.init rs fs).bind fun x => (Sha2.digest h x.1).bind fun d => .ok d.1

def Sha3.ofFeeds (h : Host) (rs : List Source) (fs : List Feed) : Outcome (List Byte) :=
  (feed Sha3.feedUpdate Sha3.init rs fs).bind fun x => .ok (Sha3.digest h x.1).1

theorem bind_bind_ok {α β γ : Type} (o : Outcome α) (r : β) (f : α → Outcome γ) :
    (o.bind fun a => Outcome.ok (a, r)).bind (fun x => f x.1) = o.bind f := by
  cases o <;> rfl

/-- **C94** (partial: pieces below 4 GiB, as in C58-C60): the digest of views and readers in any order and any repetition is the
published digest of the message they make. -/
theorem C94_digest_partial (h : Host) (rs : List Source) (fs : List Feed) (hrs : ∀ s ∈ rs, Sound s.reader)
    (hfs : ∀ i, Feed.reader i ∈ fs → i < rs.length)
    (hp : ∀ p ∈ contributions (rs.map fun s => unread s.reader) fs, p.length < 2 ^ 32) :
    Md5.ofFeeds h rs fs = .ok (Spec.Md5.md5 (contributions (rs.map fun s => unread s.reader) fs).flatten) ∧
    Sha1.ofFeeds h rs fs = .ok (Spec.Sha1.sha1 (contributions (rs.map fun s => unread s.reader) fs).flatten) ∧
    Sha2.ofFeeds h rs fs = .ok (Sha256.sha256 (contributions (rs.map fun s => unread s.reader) fs).flatten) := by
  refine ⟨?_, ?_, ?_⟩
  · rw [← Md5.C58_md5_partial h _ hp, Md5.ofFeeds, C94_feed _ _ _ _ hrs hfs, bind_bind_ok _ _ fun c => (Md5.digest h c).bind _]
    rfl
  · rw [← Sha1.C59_sha1_partial h _ hp, Sha1.ofFeeds, C94_feed _ _ _ _ hrs hfs, bind_bind_ok _ _ fun c => (Sha1.digest h c).bind _]
    rfl
  · rw [← Sha2.C60_sha256_partial h _ hp, Sha2.ofFeeds, C94_feed _ _ _ _ hrs hfs, bind_bind_ok _ _ fun c => (Sha2.digest h c).bind _]
    rfl

/-- **C94**, the stub of SHA-3: the digest is zero, but the readers are used up. -/
theorem C94_sha3 (h : Host) (fs : List Feed) (rs : List Source) (hrs : ∀ s ∈ rs, Sound s.reader)
    (hfs : ∀ i, Feed.reader i ∈ fs → i < rs.length) :
    feed Sha3.feedUpdate Sha3.init rs fs = .ok (Sha3.init, finals rs fs) ∧
    Sha3.ofFeeds h rs fs = .ok (List.replicate 32 0#8) := by
  have key : ∀ (fs : List Feed) (rs : List Source), (∀ s ∈ rs, Sound s.reader) → (∀ i, Feed.reader i ∈ fs → i < rs.length) →
      feed Sha3.feedUpdate Sha3.init rs fs = .ok (Sha3.init, finals rs fs) := by
    intro fs
    induction fs with
    | nil => intro rs _ _; rw [finals_nil]; rfl
    | cons f fs ih =>
      intro rs hrs hfs
      cases f with
      | view a b =>
        rw [finals_view]
        exact ih rs hrs fun i hi => hfs i (List.mem_cons_of_mem _ hi)
      | reader i =>
        have hi := hfs i List.mem_cons_self
        have hs : rs[i]? = some rs[i] := List.getElem?_eq_getElem hi
        have hsound := hrs _ (List.getElem_mem hi)
        rw [feed, hs]
        show (updateReader Sha3.feedUpdate Sha3.init rs[i]).bind (fun x => feed Sha3.feedUpdate x.1 (rs.set i x.2) fs) = _
        rw [C94_updateReader _ _ _ hsound]
        have := ih (rs.set i (usedUp rs[i])) (by
          intro s hm
          rcases List.mem_or_eq_of_mem_set hm with hm | rfl
          · exact hrs s hm
          · exact usedUp_sound hsound) (by
          intro k hk
          rw [List.length_set]
          exact hfs k (List.mem_cons_of_mem _ hk))
        rw [finals_reader rs i _ hs] at this
        exact this
  refine ⟨key fs rs hrs hfs, ?_⟩
  rw [Sha3.ofFeeds, key fs rs hrs hfs]
  exact congrArg Outcome.ok (C62_sha3 h [])

/-- **C94, negation** for Murmur3: giving a reader a second time replaces the hash by that of the empty message. -/
theorem C94_murmur_twice (h : Host) (hh : h.big = false) (c : Murmur.M32) (s : Source) (hs : Sound s.reader)
    (ha : (s.base + s.reader.position) % 4 = 0) (hb : (s.base + max s.reader.position s.reader.limit) % 4 = 0)
    (hl : (unread s.reader).length < 2 ^ 31) :
    ∃ c', feed (fun c a b => Murmur.M32.update h c a b) c [s] [.reader 0, .reader 0] = .ok (c', [usedUp s]) ∧
      (c'.digest h).1 = beBytes 4 (Murmur3.x86_32 c.seed []).toNat := by
  obtain ⟨c1, h1, s1, -⟩ := Murmur.C63_murmur32_partial h hh c _ _ ha hl
  obtain ⟨c2, h2, -, d2⟩ := Murmur.C63_murmur32_partial h hh c1 _ ([] : List Byte) hb (by decide)
  refine ⟨c2, ?_, by rw [d2, s1]⟩
  show (updateReader _ c s).bind (fun x => (updateReader _ x.1 x.2).bind fun y => .ok (y.1, [y.2])) = _
  rw [C94_updateReader _ c s hs, h1]
  show (updateReader _ c1 (usedUp s)).bind (fun y => Outcome.ok (y.1, [y.2])) = _
  rw [C94_updateReader _ c1 _ (usedUp_sound hs), unread_usedUp, usedUp_usedUp]
  show ((Murmur.M32.update h c1 (s.base + max s.reader.position s.reader.limit) []).bind fun c' => .ok (c', usedUp s)).bind
    (fun y => Outcome.ok (y.1, [y.2])) = _
  rw [h2]

/-- **C94, negation** for Murmur3: a reader at a position that is not a multiple of four, over aligned memory, is undefined
behaviour. -/
theorem C94_murmur_position (h : Host) (c : Murmur.M32) (s : Source) (hs : Sound s.reader) (hb : s.base % 4 = 0)
    (hp : s.reader.position % 4 ≠ 0) (h4 : 4 ≤ (unread s.reader).length) (hl : (unread s.reader).length < 2 ^ 31) :
    updateReader (fun c a b => Murmur.M32.update h c a b) c s = .ub := by
  rw [C94_updateReader _ c s hs, Murmur.C63_misaligned h c _ _ (by omega) h4 hl]

/-- Ten bytes, of which those from 2 to 7 are read; the reader is given twice, with a view in between. -/
def someSource : Source := ⟨64, ⟨(List.range 10).map (BitVec.ofNat 8), 2, 7⟩⟩

example : Sound someSource.reader ∧ ∀ i, Feed.reader i ∈ [Feed.reader 0, .view 8 [0xAA#8], .reader 0] → i < [someSource].length := by
  refine ⟨by decide, ?_⟩
  intro i hi
  simp at hi
  simp [hi]

example : contributions ([someSource].map fun s => unread s.reader) [.reader 0, .view 8 [0xAA#8], .reader 0] =
    [[2, 3, 4, 5, 6], [0xAA#8], []] := by decide

example : pieces [someSource] [.reader 0, .view 8 [0xAA#8], .reader 0] =
    [(66, [2, 3, 4, 5, 6]), (8, [0xAA#8]), (71, [])] := by decide

example : (finals [someSource] [.reader 0, .view 8 [0xAA#8], .reader 0]).map (·.reader.position) = [7] := by decide

/-- `C94_murmur_twice` and `C94_murmur_position` have instances. -/
example : Sound (⟨64, ⟨List.replicate 8 1#8, 4, 8⟩⟩ : Source).reader ∧ (64 + 4) % 4 = 0 ∧ (64 + max 4 8) % 4 = 0 := by decide
example : Sound someSource.reader ∧ someSource.base % 4 = 0 ∧ someSource.reader.position % 4 ≠ 0 ∧
    4 ≤ (unread someSource.reader).length := by decide

end Solace.Hash
