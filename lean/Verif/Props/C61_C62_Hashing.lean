import Verif.Props.C60_Sha256
import Verif.Props.C63_Murmur3
import Verif.Model.Sha3
/-
C61: digest() is repeatable. C62: hashing is incremental.
-/
namespace Solace.Hash
open Spec

/-- Two digests of the same object. -/
def Md5.twice (h : Host) (pieces : List (List Byte)) : Outcome (List Byte × List Byte) := do
  let c ← updates (Md5.process h) (Md5.init h) pieces
  let a ← Md5.digest h c
  let b ← Md5.digest h a.2
  pure (a.1, b.1)

def Sha1.twice (h : Host) (pieces : List (List Byte)) : Outcome (List Byte × List Byte) := do
  let c ← updates (Sha1.process h) (Sha1.init h) pieces
  let a ← Sha1.digest h c
  let b ← Sha1.digest h a.2
  pure (a.1, b.1)

def Sha2.twice (h : Host) (pieces : List (List Byte)) : Outcome (List Byte × List Byte) := do
  let c ← updates (Sha2.process h) Sha2.init pieces
  let a ← Sha2.digest h c
  let b ← Sha2.digest h a.2
  pure (a.1, b.1)

/-- Padding is two more updates. -/
theorem pad_updates (process : S → List Byte → S) (h : Host) (le : Bool) (init : S) (buffer : List Byte)
    (hb : buffer.length = 64) (pieces : List (List Byte)) :
    ∃ c c' p l, updates process ⟨0, 0, init, buffer⟩ pieces = .ok c ∧ pad h le process c = .ok c' ∧
      updates process ⟨0, 0, init, buffer⟩ (pieces ++ [p, l]) = .ok c' ∧ p.length ≤ 64 ∧ l.length = 8 ∧
      pieces.flatten ++ (p ++ l) = padded (lengthField le (counted pieces)) pieces.flatten := by
  obtain ⟨c, e, i, t⟩ := updates_inv process pieces (inv_init process init buffer hb)
  have ht : c.total0.toNat + 2 ^ 32 * c.total1.toNat = counted pieces := by
    rw [counted, i.total0, t, List.nil_append]
    rfl
  have hm := Nat.mod_lt pieces.flatten.length (show 0 < 64 by decide)
  generalize hn : (if pieces.flatten.length % 64 < 56 then 56 - pieces.flatten.length % 64
    else 120 - pieces.flatten.length % 64) = n
  have hn1 : 1 ≤ n ∧ n ≤ 64 ∧ n - 1 = (119 - pieces.flatten.length % 64) % 64 := by
    rw [← hn]
    split <;> omega
  rw [List.nil_append] at i
  obtain ⟨c1, e1, i1, -⟩ := update_inv process i (padding.take n)
  obtain ⟨c2, e2, i2, -⟩ := update_inv process i1 (lengthField le (counted pieces))
  refine ⟨c, c2, padding.take n, lengthField le (counted pieces), e, ?_, ?_, ?_, lengthField_length _ _, ?_⟩
  · rw [pad]
    simp only [msglen_eq, i.left, hn, ht]
    rw [paddingBytes, if_pos (by simp [padding]; omega), Outcome.bind_ok, e1, Outcome.bind_ok, e2]
  · have app : ∀ (ps qs : List (List Byte)) (x y : Ctx S), updates process x ps = .ok y →
        updates process x (ps ++ qs) = updates process y qs := by
      intro ps qs
      induction ps with
      | nil =>
        intro x y hxy
        rw [updates] at hxy
        cases hxy
        rfl
      | cons p ps ih =>
        intro x y hxy
        rw [updates] at hxy
        rw [List.cons_append, updates]
        cases hu : update process x p with
        | ok z => rw [hu, Outcome.bind_ok] at hxy; rw [Outcome.bind_ok]; exact ih z y hxy
        | throws => rw [hu] at hxy; cases hxy
        | terminate => rw [hu] at hxy; cases hxy
        | ub => rw [hu] at hxy; cases hxy
    rw [app pieces _ _ c e, updates, e1, Outcome.bind_ok, updates, e2, Outcome.bind_ok, updates]
  · rw [List.length_take]; omega
  · rw [padding_take n hn1.1 hn1.2.1, hn1.2.2, padded]
    simp

/-- The second digest is the digest of the message that was padded for the first. -/
theorem Md5.twice_eq (h : Host) (pieces : List (List Byte)) :
    ∃ p l a b, p.length ≤ 64 ∧ l.length = 8 ∧
      pieces.flatten ++ (p ++ l) = padded (lengthField true (counted pieces)) pieces.flatten ∧
      hash h pieces = .ok a ∧ hash h (pieces ++ [p, l]) = .ok b ∧ twice h pieces = .ok (a, b) := by
  obtain ⟨c, c', p, l, e1, e2, e3, hp, hl, hm⟩ := pad_updates (process h) h true (init h).state _ (h.bytes 64).property pieces
  have e1' : updates (process h) (init h) pieces = .ok c := e1
  have e3' : updates (process h) (init h) (pieces ++ [p, l]) = .ok c' := e3
  have hd1 := hash_eq h pieces
  have hd2 := hash_eq h (pieces ++ [p, l])
  refine ⟨p, l, _, _, hp, hl, hm, hd1, hd2, ?_⟩
  rw [hash, e1', Outcome.bind_ok, digest, e2, Outcome.bind_ok, Outcome.pure_def, Outcome.bind_ok, Outcome.pure_def] at hd1
  rw [hash, e3', Outcome.bind_ok] at hd2
  rw [twice, e1', Outcome.bind_ok, digest, e2, Outcome.bind_ok, Outcome.pure_def, Outcome.bind_ok]
  cases hb : digest h c' with
  | ok b =>
    rw [hb, Outcome.bind_ok, Outcome.pure_def] at hd2
    rw [Outcome.ok.inj hd1]
    rw [← Outcome.ok.inj hd2]
    rfl
  | throws => rw [hb] at hd2; cases hd2
  | terminate => rw [hb] at hd2; cases hd2
  | ub => rw [hb] at hd2; cases hd2

theorem Sha1.twice_eq (h : Host) (pieces : List (List Byte)) :
    ∃ p l a b, p.length ≤ 64 ∧ l.length = 8 ∧
      pieces.flatten ++ (p ++ l) = padded (lengthField false (counted pieces)) pieces.flatten ∧
      hash h pieces = .ok a ∧ hash h (pieces ++ [p, l]) = .ok b ∧ twice h pieces = .ok (a, b) := by
  obtain ⟨c, c', p, l, e1, e2, e3, hp, hl, hm⟩ := pad_updates (process h) h false (init h).state _ (h.bytes 64).property pieces
  have e1' : updates (process h) (init h) pieces = .ok c := e1
  have e3' : updates (process h) (init h) (pieces ++ [p, l]) = .ok c' := e3
  have hd1 := hash_eq h pieces
  have hd2 := hash_eq h (pieces ++ [p, l])
  refine ⟨p, l, _, _, hp, hl, hm, hd1, hd2, ?_⟩
  rw [hash, e1', Outcome.bind_ok, digest, e2, Outcome.bind_ok, Outcome.pure_def, Outcome.bind_ok, Outcome.pure_def] at hd1
  rw [hash, e3', Outcome.bind_ok] at hd2
  rw [twice, e1', Outcome.bind_ok, digest, e2, Outcome.bind_ok, Outcome.pure_def, Outcome.bind_ok]
  cases hb : digest h c' with
  | ok b =>
    rw [hb, Outcome.bind_ok, Outcome.pure_def] at hd2
    rw [Outcome.ok.inj hd1]
    rw [← Outcome.ok.inj hd2]
    rfl
  | throws => rw [hb] at hd2; cases hd2
  | terminate => rw [hb] at hd2; cases hd2
  | ub => rw [hb] at hd2; cases hd2

theorem Sha2.twice_eq (h : Host) (pieces : List (List Byte)) :
    ∃ p l a b, p.length ≤ 64 ∧ l.length = 8 ∧
      pieces.flatten ++ (p ++ l) = padded (lengthField false (counted pieces)) pieces.flatten ∧
      hash h pieces = .ok a ∧ hash h (pieces ++ [p, l]) = .ok b ∧ twice h pieces = .ok (a, b) := by
  obtain ⟨c, c', p, l, e1, e2, e3, hp, hl, hm⟩ := pad_updates (process h) h false init.state (List.replicate 64 0#8) (by simp) pieces
  have e1' : updates (process h) init pieces = .ok c := e1
  have e3' : updates (process h) init (pieces ++ [p, l]) = .ok c' := e3
  have hd1 := hash_eq h pieces
  have hd2 := hash_eq h (pieces ++ [p, l])
  refine ⟨p, l, _, _, hp, hl, hm, hd1, hd2, ?_⟩
  rw [hash, e1', Outcome.bind_ok, digest, e2, Outcome.bind_ok, Outcome.pure_def, Outcome.bind_ok, Outcome.pure_def] at hd1
  rw [hash, e3', Outcome.bind_ok] at hd2
  rw [twice, e1', Outcome.bind_ok, digest, e2, Outcome.bind_ok, Outcome.pure_def, Outcome.bind_ok]
  cases hb : digest h c' with
  | ok b =>
    rw [hb, Outcome.bind_ok, Outcome.pure_def] at hd2
    rw [Outcome.ok.inj hd1]
    rw [← Outcome.ok.inj hd2]
    rfl
  | throws => rw [hb] at hd2; cases hd2
  | terminate => rw [hb] at hd2; cases hd2
  | ub => rw [hb] at hd2; cases hd2

theorem counted_eq (le : Bool) (pieces : List (List Byte)) (hp : ∀ p ∈ pieces, p.length < 2 ^ 32) :
    lengthField le (counted pieces) = lengthField le pieces.flatten.length := by
  rw [counted_small pieces hp, lengthField_mod]

theorem more_pieces {pieces : List (List Byte)} (hp : ∀ p ∈ pieces, p.length < 2 ^ 32) {p l : List Byte} (h1 : p.length ≤ 64)
    (h2 : l.length = 8) : ∀ q ∈ pieces ++ [p, l], q.length < 2 ^ 32 := by
  intro q hq
  rcases List.mem_append.mp hq with h | h
  · exact hp q h
  · rcases List.mem_cons.mp h with h | h
    · rw [h]; omega
    · rw [List.mem_singleton.mp h]; omega

/-- **C61, what the second digest is**: the first is the digest of the message, the second that of the padded message,
because `digest` pads the object's own state. -/
theorem C61_second_md5 (h : Host) (pieces : List (List Byte)) (hp : ∀ p ∈ pieces, p.length < 2 ^ 32) :
    Md5.twice h pieces = .ok (Spec.Md5.md5 pieces.flatten,
      Spec.Md5.md5 (padded (leBytes 8 (8 * pieces.flatten.length)) pieces.flatten)) := by
  obtain ⟨p, l, a, b, h1, h2, hm, ha, hb, ht⟩ := Md5.twice_eq h pieces
  rw [Md5.C58_md5_partial h pieces hp] at ha
  rw [Md5.C58_md5_partial h _ (more_pieces hp h1 h2), List.flatten_append, List.flatten_cons, List.flatten_cons, List.flatten_nil,
    List.append_nil, hm, counted_eq true pieces hp] at hb
  rw [ht, ← Outcome.ok.inj ha, ← Outcome.ok.inj hb]
  rfl

theorem C61_second_sha1 (h : Host) (pieces : List (List Byte)) (hp : ∀ p ∈ pieces, p.length < 2 ^ 32) :
    Sha1.twice h pieces = .ok (Spec.Sha1.sha1 pieces.flatten,
      Spec.Sha1.sha1 (padded (beBytes 8 (8 * pieces.flatten.length)) pieces.flatten)) := by
  obtain ⟨p, l, a, b, h1, h2, hm, ha, hb, ht⟩ := Sha1.twice_eq h pieces
  rw [Sha1.C59_sha1_partial h pieces hp] at ha
  rw [Sha1.C59_sha1_partial h _ (more_pieces hp h1 h2), List.flatten_append, List.flatten_cons, List.flatten_cons, List.flatten_nil,
    List.append_nil, hm, counted_eq false pieces hp] at hb
  rw [ht, ← Outcome.ok.inj ha, ← Outcome.ok.inj hb]
  rfl

theorem C61_second_sha256 (h : Host) (pieces : List (List Byte)) (hp : ∀ p ∈ pieces, p.length < 2 ^ 32) :
    Sha2.twice h pieces = .ok (Sha256.sha256 pieces.flatten,
      Sha256.sha256 (padded (beBytes 8 (8 * pieces.flatten.length)) pieces.flatten)) := by
  obtain ⟨p, l, a, b, h1, h2, hm, ha, hb, ht⟩ := Sha2.twice_eq h pieces
  rw [Sha2.C60_sha256_partial h pieces hp] at ha
  rw [Sha2.C60_sha256_partial h _ (more_pieces hp h1 h2), List.flatten_append, List.flatten_cons, List.flatten_cons, List.flatten_nil,
    List.append_nil, hm, counted_eq false pieces hp] at hb
  rw [ht, ← Outcome.ok.inj ha, ← Outcome.ok.inj hb]
  rfl

def differ : Outcome (List Byte × List Byte) → Bool
  | .ok (a, b) => a != b
  | _ => false

theorem differ_of {x y : Outcome (List Byte × List Byte)} {a b : List Byte} (hx : x = .ok (a, b)) (hy : y = .ok (a, b))
    (hd : differ y = true) : ∃ a b, x = .ok (a, b) ∧ a ≠ b := by
  refine ⟨a, b, hx, ?_⟩
  rw [hy] at hd
  intro h
  rw [h] at hd
  simp [differ] at hd

/-- **C61, negation**: of a new object the two digests differ, for each of the three algorithms on every machine. -/
theorem C61_md5 (h : Host) : ∃ a b, Md5.twice h [] = .ok (a, b) ∧ a ≠ b :=
  differ_of (C61_second_md5 h [] (by simp)) (C61_second_md5 Md5.someHost [] (by simp)) (by decide +kernel)

theorem C61_sha1 (h : Host) : ∃ a b, Sha1.twice h [] = .ok (a, b) ∧ a ≠ b :=
  differ_of (C61_second_sha1 h [] (by simp)) (C61_second_sha1 Md5.someHost [] (by simp)) (by decide +kernel)

theorem C61_sha256 (h : Host) : ∃ a b, Sha2.twice h [] = .ok (a, b) ∧ a ≠ b :=
  differ_of (C61_second_sha256 h [] (by simp)) (C61_second_sha256 Md5.someHost [] (by simp)) (by decide +kernel)

/-- **C61** (partial: Murmur3 and the stub Sha3 only): a second digest of any object is the same as the first. -/
theorem C61_others_partial (h : Host) (m : Murmur.M32) (n : Murmur.M128) (s : Ctx (List Word)) :
    ((m.digest h).2.digest h).1 = (m.digest h).1 ∧ ((n.digest h).2.digest h).1 = (n.digest h).1 ∧
    (Sha3.digest h (Sha3.digest h s).2).1 = (Sha3.digest h s).1 := ⟨rfl, rfl, rfl⟩

/-- **C62** (partial: MD5, SHA-1 and SHA-256, with pieces below 4 GiB; for longer pieces the length counted depends on the
pieces, see C58-C60): the digest does not depend on how the message is cut. -/
theorem C62_incremental_partial (h : Host) (before after : List (List Byte)) (a b : List Byte)
    (hp : ∀ p ∈ before ++ after, p.length < 2 ^ 32) (hab : a.length + b.length < 2 ^ 32) :
    Md5.hash h (before ++ a :: b :: after) = Md5.hash h (before ++ (a ++ b) :: after) ∧
    Sha1.hash h (before ++ a :: b :: after) = Sha1.hash h (before ++ (a ++ b) :: after) ∧
    Sha2.hash h (before ++ a :: b :: after) = Sha2.hash h (before ++ (a ++ b) :: after) := by
  have h1 : ∀ p ∈ before ++ a :: b :: after, p.length < 2 ^ 32 := by
    intro p h
    rcases List.mem_append.mp h with h | h
    · exact hp p (List.mem_append_left _ h)
    · rcases List.mem_cons.mp h with h | h
      · rw [h]; omega
      · rcases List.mem_cons.mp h with h | h
        · rw [h]; omega
        · exact hp p (List.mem_append_right _ h)
  have h2 : ∀ p ∈ before ++ (a ++ b) :: after, p.length < 2 ^ 32 := by
    intro p h
    rcases List.mem_append.mp h with h | h
    · exact hp p (List.mem_append_left _ h)
    · rcases List.mem_cons.mp h with h | h
      · rw [h, List.length_append]; exact hab
      · exact hp p (List.mem_append_right _ h)
  have hf : (before ++ a :: b :: after).flatten = (before ++ (a ++ b) :: after).flatten := by simp
  rw [Md5.C58_md5_partial h _ h1, Md5.C58_md5_partial h _ h2, Sha1.C59_sha1_partial h _ h1, Sha1.C59_sha1_partial h _ h2,
    Sha2.C60_sha256_partial h _ h1, Sha2.C60_sha256_partial h _ h2, hf]
  exact ⟨rfl, rfl, rfl⟩

/-- The same for the stub Sha3, whose digest is 32 zero bytes for every message: incremental, but no hash. -/
theorem C62_sha3 (h : Host) (pieces : List (List Byte)) : Sha3.hash h pieces = List.replicate 32 0#8 := by
  have : pieces.foldl Sha3.update Sha3.init = Sha3.init := by
    induction pieces with
    | nil => rfl
    | cons p ps ih => exact ih
  rw [Sha3.hash, this, Sha3.digest, output_eq h false 32 _ (by simp [Sha3.init]) (by decide)]
  decide

/-- Murmur3 objects after a list of updates (an address and bytes each). -/
def Murmur.M32.updates (h : Host) : Murmur.M32 → List (Nat × List Byte) → Outcome Murmur.M32
  | c, [] => .ok c
  | c, p :: ps => do
    let c' ← c.update h p.1 p.2
    updates h c' ps

/-- **C62, negation**: Murmur3 objects keep only the last update, at every aligned address. -/
theorem C62_murmur_last (h : Host) (hh : h.big = false) (seed : Word) (x y : Nat) (a b : List Byte) (hx : x % 4 = 0)
    (hy : y % 4 = 0) (ha : a.length < 2 ^ 31) (hb : b.length < 2 ^ 31) :
    (Murmur.M32.new seed).updates h [(x, a), (y, b)] = (Murmur.M32.new seed).updates h [(y, b)] := by
  simp only [Murmur.M32.updates, Murmur.M32.update, hh, Murmur.x86_32_eq x a _ hx ha, Outcome.bind_ok, Outcome.pure_def,
    Murmur.M32.new, Murmur.x86_32_eq y b _ hy hb]

def Murmur.M128.updates (h : Host) : Murmur.M128 → List (Nat × List Byte) → Outcome Murmur.M128
  | c, [] => .ok c
  | c, p :: ps => do
    let c' ← c.update h p.1 p.2
    updates h c' ps

theorem C62_murmur128_last (h : Host) (hh : h.big = false) (seed : Word) (x y : Nat) (a b : List Byte) (hx : x % 8 = 0)
    (hy : y % 8 = 0) (ha : a.length < 2 ^ 31) (hb : b.length < 2 ^ 31) :
    (Murmur.M128.new seed).updates h [(x, a), (y, b)] = (Murmur.M128.new seed).updates h [(y, b)] := by
  simp only [Murmur.M128.updates, Murmur.M128.update, hh, Murmur.x64_128_eq x a _ hx ha, Outcome.bind_ok, Outcome.pure_def,
    Murmur.M128.new, Murmur.x64_128_eq y b _ hy hb]

/-- So "ab" in two pieces is hashed as "b", not as "ab". -/
theorem C62_murmur : ∃ a b, Murmur.hash32 Murmur.little 0 8 (Md5.bytesOf [97, 98]) = .ok a ∧
    ((Murmur.M32.new 0).updates Murmur.little [(8, Md5.bytesOf [97]), (12, Md5.bytesOf [98])] >>= fun c =>
      pure (c.digest Murmur.little).1) = .ok b ∧ a ≠ b :=
  ⟨Md5.bytesOf [0x9b, 0xbf, 0xd7, 0x5f], Md5.bytesOf [0x95, 0xde, 0x7e, 0x03], by decide +kernel, by decide +kernel, by decide +kernel⟩

/-- The message of three pieces has a digest, and all hypotheses hold. -/
example : ∀ p ∈ [Md5.bytesOf [97]] ++ [Md5.bytesOf [100]], p.length < 2 ^ 32 := by decide +kernel
example : Md5.hash Md5.someHost ([Md5.bytesOf [97]] ++ Md5.bytesOf [98] :: Md5.bytesOf [99] :: []) =
    Md5.hash Md5.someHost ([Md5.bytesOf [97]] ++ (Md5.bytesOf [98] ++ Md5.bytesOf [99]) :: []) :=
  (C62_incremental_partial _ _ _ _ _ (by decide +kernel) (by decide +kernel)).1

/-! ### Digest lengths -/

/-- `getDigestLength()` of the classes: md5.cpp:199-201, sha1.cpp:237-239, sha2.cpp:209-211, sha3.cpp:46-49, murmur3.cpp:325-328,
358-360. -/
def Md5.digestLength : Nat := 128
def Sha1.digestLength : Nat := 160
def Sha2.digestLength : Nat := 256
def Sha3.digestLength : Nat := 256
def Murmur.digestLength32 : Nat := 32
def Murmur.digestLength128 : Nat := 128

theorem flatMap_bytes (f : Word → List Byte) (ws : List Word) (hf : ∀ w, (f w).length = 4) : (ws.flatMap f).length = 4 * ws.length := by
  induction ws with
  | nil => rfl
  | cons w ws ih => rw [List.flatMap_cons, List.length_append, hf, ih, List.length_cons]; omega

/-- **C75**: the digest of every algorithm has the length in bits that the algorithm declares, whatever was hashed. -/
theorem C75_digest_length (h : Host) (pieces : List (List Byte)) (m : Murmur.M32) (n : Murmur.M128) :
    (∃ d, Md5.hash h pieces = .ok d ∧ d.length * 8 = Md5.digestLength) ∧
    (∃ d, Sha1.hash h pieces = .ok d ∧ d.length * 8 = Sha1.digestLength) ∧
    (∃ d, Sha2.hash h pieces = .ok d ∧ d.length * 8 = Sha2.digestLength) ∧
    (Sha3.hash h pieces).length * 8 = Sha3.digestLength ∧
    (m.digest h).1.length * 8 = Murmur.digestLength32 ∧ (n.digest h).1.length * 8 = Murmur.digestLength128 := by
  have le4 : ∀ w : Word, (leBytes 4 w.toNat).length = 4 := fun w => leBytes_length _ _
  have be4 : ∀ w : Word, (beBytes 4 w.toNat).length = 4 := fun w => by rw [beBytes, List.length_reverse, leBytes_length]
  refine ⟨⟨_, Md5.hash_eq h pieces, ?_⟩, ⟨_, Sha1.hash_eq h pieces, ?_⟩, ⟨_, Sha2.hash_eq h pieces, ?_⟩, ?_, ?_, ?_⟩
  · rw [Spec.Md5.md5WithLength, Spec.Md5.out, flatMap_bytes _ _ le4]; rfl
  · rw [Spec.Sha1.sha1WithLength, Spec.Sha1.out, flatMap_bytes _ _ be4]; rfl
  · rw [Sha256.sha256WithLength, Sha256.out, flatMap_bytes _ _ be4]; rfl
  · rw [C62_sha3, List.length_replicate]; rfl
  · rw [Murmur.M32.digest, output_eq h false 4 _ rfl (by decide)]
    simp only [Bool.false_eq_true, if_false]
    rw [flatMap_bytes _ _ be4]
    rfl
  · rw [Murmur.M128.digest, hostRepr, hostRepr, leRepr_eq, leRepr_eq]
    cases h.big <;> simp [leBytes_length, Murmur.digestLength128]

end Solace.Hash
