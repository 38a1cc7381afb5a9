import Verif.Props.C61_C62_Hashing
/-
C118: the digest of MD5, SHA-1 and SHA-256 is the whole state of the computation (/repo/src/hashing/md5.cpp:183-236,
sha1.cpp:219-272, sha2.cpp:185-244). Whoever has the digest of a message and its length, and not the message, can go on: an
object with the words of the digest as its state and the padded length in its counters gives the digest of the message, its
padding and whatever is appended. The objects have no way to be set up like that from outside, so this is a statement about
the digests and not about a function of the library: `resume` below is what an attacker writes, and `update` and `digest` are
the library's.
-/
namespace Solace.Hash

open Spec

/-- What is appended to a message of `n` bytes before its last block is processed (RFC 1321, 3.1 and 3.2; FIPS 180-4, 5.1.1):
it depends on the length only. -/
def paddingFor (le : Bool) (n : Nat) : List Byte :=
  [0x80#8] ++ List.replicate ((119 - n % 64) % 64) 0#8 ++ (if le then leBytes 8 (8 * n) else beBytes 8 (8 * n))

/-- The counters of an object that has seen `n` bytes. -/
def countersFor (n : Nat) : Word × Word := (BitVec.ofNat 32 n, BitVec.ofNat 32 (n / 2 ^ 32))

/-- An object with the state taken from a digest. -/
def Md5.resume (d : List Byte) (n : Nat) (buffer : List Byte) : Ctx Md5.Regs :=
  ⟨(countersFor n).1, (countersFor n).2, ⟨leWord d 0, leWord d 1, leWord d 2, leWord d 3⟩, buffer⟩

def Sha1.resume (d : List Byte) (n : Nat) (buffer : List Byte) : Ctx Sha1.Regs :=
  ⟨(countersFor n).1, (countersFor n).2, ⟨beWord d 0, beWord d 1, beWord d 2, beWord d 3, beWord d 4⟩, buffer⟩

def Sha2.resume (d : List Byte) (n : Nat) (buffer : List Byte) : Ctx (List Word) :=
  ⟨(countersFor n).1, (countersFor n).2, (List.range 8).map (beWord d), buffer⟩

/-- The digest of what follows, from the digest `d` of a message of `n` bytes. -/
def Md5.extend (h : Host) (d : List Byte) (n : Nat) (more : List (List Byte)) : Outcome (List Byte) := do
  let c ← updates (Md5.process h) (Md5.resume d (n + (paddingFor true n).length) (h.bytes 64).val) more
  let r ← Md5.digest h c
  pure r.1

def Sha1.extend (h : Host) (d : List Byte) (n : Nat) (more : List (List Byte)) : Outcome (List Byte) := do
  let c ← updates (Sha1.process h) (Sha1.resume d (n + (paddingFor false n).length) (h.bytes 64).val) more
  let r ← Sha1.digest h c
  pure r.1

def Sha2.extend (h : Host) (d : List Byte) (n : Nat) (more : List (List Byte)) : Outcome (List Byte) := do
  let c ← updates (Sha2.process h) (Sha2.resume d (n + (paddingFor false n).length) (h.bytes 64).val) more
  let r ← Sha2.digest h c
  pure r.1

/-! ### Words of a digest -/

theorem leBytes4 (v : Nat) : leBytes 4 v =
    [BitVec.ofNat 8 v, BitVec.ofNat 8 (v / 256), BitVec.ofNat 8 (v / 65536), BitVec.ofNat 8 (v / 16777216)] := by
  simp [leBytes, List.range_succ]

theorem byteAt_skip4 (a b c d : Byte) (rest : List Byte) (k i : Nat) :
    byteAt (a :: b :: c :: d :: rest) (4 * (k + 1) + i) = byteAt rest (4 * k + i) := by
  have : 4 * (k + 1) + i = (4 * k + i) + 1 + 1 + 1 + 1 := by omega
  rw [byteAt, byteAt, this]
  simp only [List.getElem?_cons_succ]

theorem leWord_flatMap (ws : List Word) : ∀ k, leWord (ws.flatMap fun w => leBytes 4 w.toNat) k = ws[k]?.getD 0 := by
  induction ws with
  | nil => intro k; simp [leWord, byteAt]
  | cons w ws ih =>
    intro k
    rw [List.flatMap_cons, leBytes4]
    cases k with
    | zero =>
      apply BitVec.eq_of_toNat_eq
      simp [leWord, byteAt]
      have := w.isLt
      omega
    | succ k =>
      rw [List.getElem?_cons_succ, ← ih k, leWord, leWord]
      simp only [List.cons_append, List.nil_append, byteAt_skip4]
      have := byteAt_skip4 (BitVec.ofNat 8 w.toNat) (BitVec.ofNat 8 (w.toNat / 256)) (BitVec.ofNat 8 (w.toNat / 65536))
        (BitVec.ofNat 8 (w.toNat / 16777216)) (ws.flatMap fun w => leBytes 4 w.toNat) k 0
      simp only [Nat.add_zero] at this
      rw [this]

theorem beWord_flatMap (ws : List Word) : ∀ k, beWord (ws.flatMap fun w => beBytes 4 w.toNat) k = ws[k]?.getD 0 := by
  induction ws with
  | nil => intro k; simp [beWord, byteAt]
  | cons w ws ih =>
    intro k
    rw [List.flatMap_cons, beBytes, leBytes4]
    simp only [List.reverse_cons, List.reverse_nil, List.nil_append, List.cons_append]
    cases k with
    | zero =>
      apply BitVec.eq_of_toNat_eq
      simp [beWord, byteAt]
      have := w.isLt
      omega
    | succ k =>
      rw [List.getElem?_cons_succ, ← ih k, beWord, beWord]
      simp only [byteAt_skip4]
      have := byteAt_skip4 (BitVec.ofNat 8 (w.toNat / 16777216)) (BitVec.ofNat 8 (w.toNat / 65536)) (BitVec.ofNat 8 (w.toNat / 256))
        (BitVec.ofNat 8 w.toNat) (ws.flatMap fun w => beBytes 4 w.toNat) k 0
      simp only [Nat.add_zero] at this
      rw [this]

/-! ### Padding -/

theorem paddingFor_padded (le : Bool) (m : List Byte) : m ++ paddingFor le m.length = padded (lengthField le m.length) m := by
  rw [paddingFor, padded, lengthField]
  simp only [List.append_assoc]

theorem paddingFor_length (le : Bool) (n : Nat) : (paddingFor le n).length ≤ 72 := by
  rw [paddingFor]
  cases le <;> simp [beBytes, leBytes_length] <;> omega

theorem counters_toNat (n : Nat) : (countersFor n).1.toNat + 2 ^ 32 * (countersFor n).2.toNat = n % 2 ^ 64 := by
  simp only [countersFor, BitVec.toNat_ofNat]
  omega

/-- An object with the state after whole blocks and the right counters is as good as one that has seen them, whatever its
buffer. -/
theorem inv_resume {S : Type} (process : S → List Byte → S) {init : S} {c : Ctx S} {m : List Byte} (hi : Inv process init c m)
    (hm : m.length % 64 = 0) (buffer : List Byte) (hb : buffer.length = 64) :
    Inv process init ⟨(countersFor m.length).1, (countersFor m.length).2, c.state, buffer⟩ m := by
  refine ⟨hb, ?_, by simp [countersFor]⟩
  have := hi.state
  rw [hm] at this ⊢
  simpa using this

/-- The second counter of such an object after more pieces below 4 GiB. -/
theorem resume_total (n : Nat) (more : List (List Byte)) (hm : ∀ p ∈ more, p.length < 2 ^ 32) :
    (carries n (countersFor n).2 (more.map List.length)).toNat = (n + more.flatten.length) / 2 ^ 32 % 2 ^ 32 := by
  rw [carries_small _ _ _ (by simpa using hm) (by simp [countersFor]), ← List.length_flatten]

/-- The generic part: after more pieces and the padding, the state is the chaining value of everything. -/
theorem resume_chain {S : Type} (process : S → List Byte → S) (h : Host) (le : Bool) {init : S} {c : Ctx S} {m : List Byte}
    (hi : Inv process init c m) (hm : m.length % 64 = 0) (buffer : List Byte) (hb : buffer.length = 64)
    (more : List (List Byte)) (hs : ∀ p ∈ more, p.length < 2 ^ 32) :
    ∃ c1 c2, updates process ⟨(countersFor m.length).1, (countersFor m.length).2, c.state, buffer⟩ more = .ok c1 ∧
      pad h le process c1 = .ok c2 ∧
      c2.state = chain process init (lengthField le (m ++ more.flatten).length) (m ++ more.flatten) := by
  obtain ⟨c1, e1, i1, t1⟩ := updates_inv process more (inv_resume process hi hm buffer hb)
  obtain ⟨c2, e2, s2, -⟩ := pad_chain process h le i1
  refine ⟨c1, c2, e1, e2, ?_⟩
  rw [s2, i1.total0, t1]
  simp only
  rw [resume_total _ _ hs, ← lengthField_mod le (m ++ more.flatten).length]
  congr 2
  rw [List.length_append]
  omega

theorem small_parts {pieces more : List (List Byte)} {p : List Byte} (hp : ∀ q ∈ pieces, q.length < 2 ^ 32)
    (hm : ∀ q ∈ more, q.length < 2 ^ 32) (h : p.length ≤ 72) : ∀ q ∈ pieces ++ p :: more, q.length < 2 ^ 32 := by
  intro q hq
  rcases List.mem_append.mp hq with h1 | h1
  · exact hp q h1
  · rcases List.mem_cons.mp h1 with h2 | h2
    · rw [h2]; omega
    · exact hm q h2

/-- Some object has seen exactly the padded message, and its state is the chaining value of the message. -/
theorem padded_object {S : Type} (process : S → List Byte → S) (h : Host) (le : Bool) (init : S) (pieces : List (List Byte))
    (hp : ∀ p ∈ pieces, p.length < 2 ^ 32) :
    ∃ c : Ctx S, Inv process init c (pieces.flatten ++ paddingFor le pieces.flatten.length) ∧
      c.state = chain process init (lengthField le pieces.flatten.length) pieces.flatten := by
  obtain ⟨c, e, i, t⟩ := updates_inv process pieces (inv_init process init (h.bytes 64).val (h.bytes 64).property)
  obtain ⟨c', e', s', i'⟩ := pad_chain process h le i
  have ht : c.total0.toNat + 2 ^ 32 * c.total1.toNat = counted pieces := by
    rw [counted, i.total0, t, List.nil_append]
    rfl
  rw [ht, counted_eq le pieces hp, List.nil_append] at s' i'
  exact ⟨c', by rw [paddingFor_padded]; exact i', s'⟩

theorem extended_length (le : Bool) (m : List Byte) : (m ++ paddingFor le m.length).length % 64 = 0 := by
  rw [paddingFor_padded, padded_length]

theorem Md5.resume_state (s : Md5.Regs) (n : Nat) (buffer : List Byte) :
    Md5.resume (Spec.Md5.out (Md5.view 0 s)) n buffer = ⟨(countersFor n).1, (countersFor n).2, s, buffer⟩ := by
  rw [Md5.resume, Spec.Md5.out]
  simp only [leWord_flatMap]
  rfl

/-- **C118** (partial: pieces below 4 GiB, as `C58_md5_partial`): the digest of a message, its padding and more pieces is
computed from the digest of the message and its length. -/
theorem C118_md5_partial (h : Host) (pieces more : List (List Byte)) (hp : ∀ p ∈ pieces, p.length < 2 ^ 32)
    (hm : ∀ p ∈ more, p.length < 2 ^ 32) :
    Md5.hash h (pieces ++ paddingFor true pieces.flatten.length :: more) = (do
      let d ← Md5.hash h pieces
      Md5.extend h d pieces.flatten.length more) := by
  rw [Md5.C58_md5_partial h _ (small_parts hp hm (paddingFor_length _ _)), Md5.C58_md5_partial h pieces hp, Outcome.bind_ok,
    List.flatten_append, List.flatten_cons, ← List.append_assoc]
  obtain ⟨c, i, hc⟩ := padded_object (Md5.process h) h true (Md5.init h).state pieces hp
  have hl : leBytes 8 (8 * pieces.flatten.length) = lengthField true pieces.flatten.length := rfl
  have hd : Spec.Md5.md5 pieces.flatten = Spec.Md5.out (Md5.view 0 c.state) := by
    have hi : Spec.Md5.init = Md5.view 0 (Md5.init h).state := rfl
    rw [Spec.Md5.md5, Spec.Md5.md5WithLength, hc, Md5.chain_view, hl, hi]
  obtain ⟨c1, c2, e1, e2, hs⟩ := resume_chain (Md5.process h) h true i (extended_length _ _) (h.bytes 64).val (h.bytes 64).property
    more hm
  rw [hd, Md5.extend, Md5.resume_state, ← List.length_append, e1, Outcome.bind_ok, Md5.digest, e2, Outcome.bind_ok, Outcome.pure_def,
    Outcome.bind_ok, Outcome.pure_def]
  refine congrArg Outcome.ok ?_
  simp only
  rw [output_eq h true 16 _ rfl (by decide), hs, Spec.Md5.md5, Spec.Md5.md5WithLength]
  generalize pieces.flatten ++ paddingFor true pieces.flatten.length ++ more.flatten = m
  have hl : leBytes 8 (8 * m.length) = lengthField true m.length := rfl
  have hi : Spec.Md5.init = Md5.view 0 (Md5.init h).state := rfl
  rw [hl, hi, ← Md5.chain_view, Spec.Md5.out]
  rfl

theorem Sha1.resume_state (s : Sha1.Regs) (n : Nat) (buffer : List Byte) :
    Sha1.resume (Spec.Sha1.out (Sha1.view 0 s)) n buffer = ⟨(countersFor n).1, (countersFor n).2, s, buffer⟩ := by
  rw [Sha1.resume, Spec.Sha1.out]
  simp only [beWord_flatMap]
  rfl

/-- **C118** (partial: pieces below 4 GiB, as `C59_sha1_partial`): the digest of a message, its padding and more pieces is
computed from the digest of the message and its length. -/
theorem C118_sha1_partial (h : Host) (pieces more : List (List Byte)) (hp : ∀ p ∈ pieces, p.length < 2 ^ 32)
    (hm : ∀ p ∈ more, p.length < 2 ^ 32) :
    Sha1.hash h (pieces ++ paddingFor false pieces.flatten.length :: more) = (do
      let d ← Sha1.hash h pieces
      Sha1.extend h d pieces.flatten.length more) := by
  rw [Sha1.C59_sha1_partial h _ (small_parts hp hm (paddingFor_length _ _)), Sha1.C59_sha1_partial h pieces hp, Outcome.bind_ok,
    List.flatten_append, List.flatten_cons, ← List.append_assoc]
  obtain ⟨c, i, hc⟩ := padded_object (Sha1.process h) h false (Sha1.init h).state pieces hp
  have hl : beBytes 8 (8 * pieces.flatten.length) = lengthField false pieces.flatten.length := rfl
  have hd : Spec.Sha1.sha1 pieces.flatten = Spec.Sha1.out (Sha1.view 0 c.state) := by
    have hi : Spec.Sha1.init = Sha1.view 0 (Sha1.init h).state := rfl
    rw [Spec.Sha1.sha1, Spec.Sha1.sha1WithLength, hc, Sha1.chain_view, hl, hi]
  obtain ⟨c1, c2, e1, e2, hs⟩ := resume_chain (Sha1.process h) h false i (extended_length _ _) (h.bytes 64).val (h.bytes 64).property
    more hm
  rw [hd, Sha1.extend, Sha1.resume_state, ← List.length_append, e1, Outcome.bind_ok, Sha1.digest, e2, Outcome.bind_ok, Outcome.pure_def,
    Outcome.bind_ok, Outcome.pure_def]
  refine congrArg Outcome.ok ?_
  simp only
  rw [output_eq h false 20 _ rfl (by decide), hs, Spec.Sha1.sha1, Spec.Sha1.sha1WithLength]
  generalize pieces.flatten ++ paddingFor false pieces.flatten.length ++ more.flatten = m
  have hl : beBytes 8 (8 * m.length) = lengthField false m.length := rfl
  have hi : Spec.Sha1.init = Sha1.view 0 (Sha1.init h).state := rfl
  rw [hl, hi, ← Sha1.chain_view, Spec.Sha1.out]
  rfl

theorem Sha2.resume_state (s : List Word) (hs : s.length = 8) (n : Nat) (buffer : List Byte) :
    Sha2.resume (Spec.Sha256.out (Sha2.bufOf s)) n buffer = ⟨(countersFor n).1, (countersFor n).2, s, buffer⟩ := by
  rw [Sha2.resume, Spec.Sha256.out, ← Sha2.list8 s hs]
  rw [List.map_congr_left fun k _ => beWord_flatMap s k]
  congr 1
  match s, hs with
  | [_, _, _, _, _, _, _, _], _ => rfl

/-- **C118** (partial: pieces below 4 GiB, as `C60_sha256_partial`): the digest of a message, its padding and more pieces is
computed from the digest of the message and its length. -/
theorem C118_sha256_partial (h : Host) (pieces more : List (List Byte)) (hp : ∀ p ∈ pieces, p.length < 2 ^ 32)
    (hm : ∀ p ∈ more, p.length < 2 ^ 32) :
    Sha2.hash h (pieces ++ paddingFor false pieces.flatten.length :: more) = (do
      let d ← Sha2.hash h pieces
      Sha2.extend h d pieces.flatten.length more) := by
  rw [Sha2.C60_sha256_partial h _ (small_parts hp hm (paddingFor_length _ _)), Sha2.C60_sha256_partial h pieces hp, Outcome.bind_ok,
    List.flatten_append, List.flatten_cons, ← List.append_assoc]
  obtain ⟨c, i, hc⟩ := padded_object (Sha2.process h) h false Sha2.init.state pieces hp
  have hi : Spec.Sha256.init = Sha2.bufOf Sha2.init.state := by decide +kernel
  have hl : beBytes 8 (8 * pieces.flatten.length) = lengthField false pieces.flatten.length := rfl
  obtain ⟨hv, hlen⟩ := Sha2.chain_view h pieces.flatten false pieces.flatten.length Sha2.init.state rfl
  have hd : Spec.Sha256.sha256 pieces.flatten = Spec.Sha256.out (Sha2.bufOf c.state) := by
    rw [Spec.Sha256.sha256, Spec.Sha256.sha256WithLength, hc, hv, hl, hi]
  obtain ⟨c1, c2, e1, e2, hs⟩ := resume_chain (Sha2.process h) h false i (extended_length _ _) (h.bytes 64).val (h.bytes 64).property
    more hm
  rw [hd, Sha2.extend, Sha2.resume_state _ (by rw [hc]; exact hlen), ← List.length_append, e1, Outcome.bind_ok, Sha2.digest, e2,
    Outcome.bind_ok, Outcome.pure_def, Outcome.bind_ok, Outcome.pure_def]
  refine congrArg Outcome.ok ?_
  simp only
  generalize pieces.flatten ++ paddingFor false pieces.flatten.length ++ more.flatten = m at hs
  obtain ⟨hv2, hlen2⟩ := Sha2.chain_view h m false m.length Sha2.init.state rfl
  rw [← hs] at hv2 hlen2
  rw [output_eq h false 32 _ (by rw [hlen2]) (by decide), Spec.Sha256.sha256, Spec.Sha256.sha256WithLength]
  have hl : beBytes 8 (8 * m.length) = lengthField false m.length := rfl
  rw [hl, hi, ← hv2, Spec.Sha256.out, ← Sha2.list8 _ hlen2]
  rfl

/-- **C118, collisions go on** (MD5): two messages of one length with one digest have one digest after every continuation of
their padded forms. -/
theorem C118_collision_md5_partial (h : Host) (pieces pieces' more : List (List Byte)) (hp : ∀ p ∈ pieces, p.length < 2 ^ 32)
    (hp' : ∀ p ∈ pieces', p.length < 2 ^ 32) (hm : ∀ p ∈ more, p.length < 2 ^ 32)
    (hl : pieces.flatten.length = pieces'.flatten.length) (hd : Md5.hash h pieces = Md5.hash h pieces') :
    Md5.hash h (pieces ++ paddingFor true pieces.flatten.length :: more) =
      Md5.hash h (pieces' ++ paddingFor true pieces.flatten.length :: more) := by
  rw [C118_md5_partial h pieces more hp hm, hl, C118_md5_partial h pieces' more hp' hm, hd]

/-- **C118, a digest of a secret and a message is no signature** (MD5): one function of the digest, the lengths and the
appended text, and of nothing else, gives the digest of the secret with a longer message, for every secret and message. -/
theorem C118_forge_md5_partial (h : Host) : ∃ forge : List Byte → Nat → List Byte → Outcome (List Byte),
    ∀ secret message more : List Byte, secret.length < 2 ^ 32 → message.length < 2 ^ 32 → more.length < 2 ^ 32 →
      ∀ d, Md5.hash h [secret, message] = .ok d →
        Md5.hash h [secret, message, paddingFor true (secret.length + message.length), more] =
          forge d (secret.length + message.length) more := by
  refine ⟨fun d n more => Md5.extend h d n [more], fun secret message more h1 h2 h3 d hd => ?_⟩
  have := C118_md5_partial h [secret, message] [more] (by intro p hp; simp at hp; rcases hp with r | r <;> rw [r] <;> assumption)
    (by intro p hp; simp at hp; rw [hp]; exact h3)
  rw [hd, Outcome.bind_ok] at this
  simpa using this

/-- **C118, collisions go on** (SHA-1): two messages of one length with one digest have one digest after every continuation of
their padded forms. -/
theorem C118_collision_sha1_partial (h : Host) (pieces pieces' more : List (List Byte)) (hp : ∀ p ∈ pieces, p.length < 2 ^ 32)
    (hp' : ∀ p ∈ pieces', p.length < 2 ^ 32) (hm : ∀ p ∈ more, p.length < 2 ^ 32)
    (hl : pieces.flatten.length = pieces'.flatten.length) (hd : Sha1.hash h pieces = Sha1.hash h pieces') :
    Sha1.hash h (pieces ++ paddingFor false pieces.flatten.length :: more) =
      Sha1.hash h (pieces' ++ paddingFor false pieces.flatten.length :: more) := by
  rw [C118_sha1_partial h pieces more hp hm, hl, C118_sha1_partial h pieces' more hp' hm, hd]

/-- **C118, a digest of a secret and a message is no signature** (SHA-1): one function of the digest, the lengths and the
appended text, and of nothing else, gives the digest of the secret with a longer message, for every secret and message. -/
theorem C118_forge_sha1_partial (h : Host) : ∃ forge : List Byte → Nat → List Byte → Outcome (List Byte),
    ∀ secret message more : List Byte, secret.length < 2 ^ 32 → message.length < 2 ^ 32 → more.length < 2 ^ 32 →
      ∀ d, Sha1.hash h [secret, message] = .ok d →
        Sha1.hash h [secret, message, paddingFor false (secret.length + message.length), more] =
          forge d (secret.length + message.length) more := by
  refine ⟨fun d n more => Sha1.extend h d n [more], fun secret message more h1 h2 h3 d hd => ?_⟩
  have := C118_sha1_partial h [secret, message] [more] (by intro p hp; simp at hp; rcases hp with r | r <;> rw [r] <;> assumption)
    (by intro p hp; simp at hp; rw [hp]; exact h3)
  rw [hd, Outcome.bind_ok] at this
  simpa using this

/-- **C118, collisions go on** (SHA-256): two messages of one length with one digest have one digest after every continuation of
their padded forms. -/
theorem C118_collision_sha256_partial (h : Host) (pieces pieces' more : List (List Byte)) (hp : ∀ p ∈ pieces, p.length < 2 ^ 32)
    (hp' : ∀ p ∈ pieces', p.length < 2 ^ 32) (hm : ∀ p ∈ more, p.length < 2 ^ 32)
    (hl : pieces.flatten.length = pieces'.flatten.length) (hd : Sha2.hash h pieces = Sha2.hash h pieces') :
    Sha2.hash h (pieces ++ paddingFor false pieces.flatten.length :: more) =
      Sha2.hash h (pieces' ++ paddingFor false pieces.flatten.length :: more) := by
  rw [C118_sha256_partial h pieces more hp hm, hl, C118_sha256_partial h pieces' more hp' hm, hd]

/-- **C118, a digest of a secret and a message is no signature** (SHA-256): one function of the digest, the lengths and the
appended text, and of nothing else, gives the digest of the secret with a longer message, for every secret and message. -/
theorem C118_forge_sha256_partial (h : Host) : ∃ forge : List Byte → Nat → List Byte → Outcome (List Byte),
    ∀ secret message more : List Byte, secret.length < 2 ^ 32 → message.length < 2 ^ 32 → more.length < 2 ^ 32 →
      ∀ d, Sha2.hash h [secret, message] = .ok d →
        Sha2.hash h [secret, message, paddingFor false (secret.length + message.length), more] =
          forge d (secret.length + message.length) more := by
  refine ⟨fun d n more => Sha2.extend h d n [more], fun secret message more h1 h2 h3 d hd => ?_⟩
  have := C118_sha256_partial h [secret, message] [more] (by intro p hp; simp at hp; rcases hp with r | r <;> rw [r] <;> assumption)
    (by intro p hp; simp at hp; rw [hp]; exact h3)
  rw [hd, Outcome.bind_ok] at this
  simpa using this

/-! Examples: the hypotheses of the theorems above are met by "ab", "c" and one more byte. -/

example : Md5.hash Md5.someHost [[97, 98], [99], paddingFor true 3, [100]] = (do
    let d ← Md5.hash Md5.someHost [[97, 98], [99]]
    Md5.extend Md5.someHost d 3 [[100]]) :=
  C118_md5_partial Md5.someHost [[97, 98], [99]] [[100]] (by simp) (by simp)

example : Sha1.hash Md5.someHost [[97, 98], [99], paddingFor false 3, [100]] = (do
    let d ← Sha1.hash Md5.someHost [[97, 98], [99]]
    Sha1.extend Md5.someHost d 3 [[100]]) :=
  C118_sha1_partial Md5.someHost [[97, 98], [99]] [[100]] (by simp) (by simp)

example : Sha2.hash Md5.someHost [[97, 98], [99], paddingFor false 3, [100]] = (do
    let d ← Sha2.hash Md5.someHost [[97, 98], [99]]
    Sha2.extend Md5.someHost d 3 [[100]]) :=
  C118_sha256_partial Md5.someHost [[97, 98], [99]] [[100]] (by simp) (by simp)

/-- The same message in two ways meets the hypotheses of the statements about collisions. -/
example : Md5.hash Md5.someHost ([[97, 98], [99]] ++ paddingFor true 3 :: [[100]]) =
    Md5.hash Md5.someHost ([[97], [98, 99]] ++ paddingFor true 3 :: [[100]]) :=
  C118_collision_md5_partial Md5.someHost [[97, 98], [99]] [[97], [98, 99]] [[100]] (by simp) (by simp) (by simp) rfl
    (by rw [Md5.C58_md5_partial _ _ (by simp), Md5.C58_md5_partial _ _ (by simp)]; rfl)

#guard (match Md5.hash Md5.someHost [[97, 98, 99]] with
  | .ok d => (Md5.extend Md5.someHost d 3 [[100]] matches .ok _) && Md5.extend Md5.someHost d 3 [[100]] ==
      Md5.hash Md5.someHost [[97, 98, 99] ++ paddingFor true 3 ++ [100]]
  | _ => false)

end Solace.Hash
