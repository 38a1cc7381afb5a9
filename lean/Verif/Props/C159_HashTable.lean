import Verif.Spec.HashTable
import Verif.Props.C21_C28_StringView
import Verif.Props.C21_Collisions
/-
C159: strings as keys of hash tables.
-/
namespace Solace.HashTable

structure Inv (bs : List (List Key)) : Prop where
  some_bucket : 0 < bs.length
  chain : ∀ i b, bs[i]? = some b → b.Nodup ∧ ∀ x ∈ b, bucketOf bs.length x = i

def Has (bs : List (List Key)) (x : Key) : Prop := ∃ b, bs[bucketOf bs.length x]? = some b ∧ x ∈ b

theorem bucket_lt {n : Nat} (hn : 0 < n) (k : Key) : bucketOf n k < n := Nat.mod_lt _ hn

theorem search_eq (k : Key) (b : List Key) : search k b = if k ∈ b then some k else none := by
  induction b with
  | nil => simp [search]
  | cons x xs ih =>
    rw [search]
    by_cases h : k = x
    · subst h
      rw [if_pos ((StringView.C21_equals_iff k k).mpr rfl), if_pos List.mem_cons_self]
    · rw [if_neg fun e => h ((StringView.C21_equals_iff k x).mp e), ih]
      simp [h]

theorem unlink_spec (k : Key) (b : List Key) (hb : b.Nodup) : (unlink k b).Nodup ∧ ∀ x, x ∈ unlink k b ↔ x ∈ b ∧ x ≠ k := by
  induction b with
  | nil => simp [unlink]
  | cons y ys ih =>
    obtain ⟨h1, h2⟩ := List.nodup_cons.mp hb
    obtain ⟨i1, i2⟩ := ih h2
    rw [unlink]
    by_cases h : k = y
    · subst h
      rw [if_pos ((StringView.C21_equals_iff k k).mpr rfl)]
      refine ⟨h2, fun x => ?_⟩
      constructor
      · exact fun hx => ⟨List.mem_cons_of_mem _ hx, fun e => h1 (e ▸ hx)⟩
      · rintro ⟨hx, hn⟩
        rcases List.mem_cons.mp hx with e | hx
        · exact absurd e hn
        · exact hx
    · rw [if_neg fun e => h ((StringView.C21_equals_iff k y).mp e)]
      refine ⟨List.nodup_cons.mpr ⟨fun hy => h1 ((i2 y).mp hy).1, i1⟩, fun x => ?_⟩
      rw [List.mem_cons, List.mem_cons, i2]
      constructor
      · rintro (rfl | ⟨a, b⟩)
        · exact ⟨.inl rfl, fun e => h e.symm⟩
        · exact ⟨.inr a, b⟩
      · rintro ⟨rfl | a, b⟩
        · exact .inl rfl
        · exact .inr ⟨a, b⟩

/-- One chain is replaced. -/
theorem set_spec {bs : List (List Key)} (h : Inv bs) (k : Key) (c : List Key) (hc : c.Nodup)
    (hm : ∀ x ∈ c, bucketOf bs.length x = bucketOf bs.length k) :
    Inv (bs.set (bucketOf bs.length k) c) ∧ ∀ x, Has (bs.set (bucketOf bs.length k) c) x ↔
      if bucketOf bs.length x = bucketOf bs.length k then x ∈ c else Has bs x := by
  have hl := bucket_lt h.some_bucket k
  constructor
  · refine ⟨by rw [List.length_set]; exact h.some_bucket, fun i d hd => ?_⟩
    rw [List.length_set]
    by_cases hi : bucketOf bs.length k = i
    · rw [← hi, List.getElem?_set_self hl] at hd
      obtain rfl := Option.some.inj hd
      exact ⟨hc, fun x hx => (hm x hx).trans hi⟩
    · rw [List.getElem?_set_ne hi] at hd
      exact h.chain i d hd
  · intro x
    unfold Has
    rw [List.length_set]
    split
    · rename_i he
      rw [he, List.getElem?_set_self hl]
      simp
    · rename_i he
      rw [List.getElem?_set_ne (Ne.symm he)]

theorem bucket_some {bs : List (List Key)} (h : Inv bs) (k : Key) : ∃ b, bs[bucketOf bs.length k]? = some b :=
  ⟨_, List.getElem?_eq_getElem (bucket_lt h.some_bucket k)⟩

theorem find_spec {bs : List (List Key)} (h : Inv bs) (k : Key) [Decidable (Has bs k)] : find bs k = .ok (if Has bs k then some k else none) := by
  obtain ⟨b, hb⟩ := bucket_some h k
  rw [find, hb]
  dsimp only
  rw [search_eq]
  have : Has bs k ↔ k ∈ b := by
    unfold Has
    rw [hb]
    simp
  simp only [this]

theorem place_spec {bs : List (List Key)} (h : Inv bs) (k : Key) (hk : ¬Has bs k) :
    ∃ cs, place bs k = .ok cs ∧ Inv cs ∧ ∀ x, Has cs x ↔ Has bs x ∨ k = x := by
  obtain ⟨b, hb⟩ := bucket_some h k
  obtain ⟨n, m⟩ := h.chain _ b hb
  obtain ⟨s1, s2⟩ := set_spec h k (k :: b) (List.nodup_cons.mpr ⟨fun hm => hk ⟨b, hb, hm⟩, n⟩) (fun x hx => by
    rcases List.mem_cons.mp hx with rfl | hx
    · rfl
    · exact m x hx)
  refine ⟨_, by rw [place, hb], s1, fun x => ?_⟩
  rw [s2]
  split
  · rename_i he
    have : Has bs x ↔ x ∈ b := by
      unfold Has
      rw [he, hb]
      simp
    rw [List.mem_cons, this]
    exact ⟨fun o => o.elim (fun e => .inr e.symm) .inl, fun o => o.elim .inr fun e => .inl e.symm⟩
  · rename_i he
    exact ⟨.inl, fun o => o.elim id fun e => absurd (by rw [e]) he⟩

theorem erase_spec {bs : List (List Key)} (h : Inv bs) (k : Key) : ∃ cs, erase bs k = .ok cs ∧ Inv cs ∧ ∀ x, Has cs x ↔ Has bs x ∧ k ≠ x := by
  obtain ⟨b, hb⟩ := bucket_some h k
  obtain ⟨n, m⟩ := h.chain _ b hb
  obtain ⟨u1, u2⟩ := unlink_spec k b n
  obtain ⟨s1, s2⟩ := set_spec h k (unlink k b) u1 fun x hx => m x ((u2 x).mp hx).1
  refine ⟨_, by rw [erase, hb], s1, fun x => ?_⟩
  rw [s2]
  split
  · rename_i he
    have : Has bs x ↔ x ∈ b := by
      unfold Has
      rw [he, hb]
      simp
    rw [u2, this]
    exact ⟨fun o => ⟨o.1, fun e => o.2 e.symm⟩, fun o => ⟨o.1, fun e => o.2 e.symm⟩⟩
  · rename_i he
    exact ⟨fun o => ⟨o, fun e => he (by rw [e])⟩, And.left⟩

theorem placeAll_spec (ks : List Key) : ∀ bs : List (List Key), Inv bs → ks.Nodup → (∀ k ∈ ks, ¬Has bs k) →
    ∃ cs, placeAll bs ks = .ok cs ∧ Inv cs ∧ ∀ x, Has cs x ↔ Has bs x ∨ x ∈ ks := by
  induction ks with
  | nil => exact fun bs h _ _ => ⟨bs, rfl, h, fun x => by simp⟩
  | cons k ks ih =>
    intro bs h hn hd
    obtain ⟨n1, n2⟩ := List.nodup_cons.mp hn
    obtain ⟨cs, e, i, m⟩ := place_spec h k (hd k List.mem_cons_self)
    obtain ⟨ds, e', i', m'⟩ := ih cs i n2 fun x hx hc => by
      rcases (m x).mp hc with hb | rfl
      · exact hd x (List.mem_cons_of_mem _ hx) hb
      · exact n1 hx
    refine ⟨ds, by rw [placeAll, e, Outcome.bind_ok, e'], i', fun x => ?_⟩
    rw [m', m, List.mem_cons, or_assoc]
    exact or_congr Iff.rfl (or_congr eq_comm Iff.rfl)

theorem flatten_spec {bs : List (List Key)} (h : Inv bs) : bs.flatten.Nodup ∧ ∀ x, x ∈ bs.flatten ↔ Has bs x := by
  constructor
  · rw [List.Nodup, List.pairwise_flatten]
    refine ⟨fun b hb => ?_, ?_⟩
    · obtain ⟨i, hi⟩ := List.mem_iff_getElem?.mp hb
      exact (h.chain i b hi).1
    · rw [List.pairwise_iff_getElem]
      intro i j hi hj hij x hx y hy e
      subst e
      have h1 := (h.chain i _ (List.getElem?_eq_getElem hi)).2 x hx
      have h2 := (h.chain j _ (List.getElem?_eq_getElem hj)).2 x hy
      omega
  · intro x
    rw [List.mem_flatten]
    constructor
    · rintro ⟨b, hb, hx⟩
      obtain ⟨i, hi⟩ := List.mem_iff_getElem?.mp hb
      exact ⟨b, by rw [(h.chain i b hi).2 x hx]; exact hi, hx⟩
    · rintro ⟨b, hb, hx⟩
      exact ⟨b, List.mem_of_getElem? hb, hx⟩

theorem empty_inv (m : Nat) : Inv (List.replicate (m + 1) []) ∧ ∀ x, ¬Has (List.replicate (m + 1) []) x := by
  have key : ∀ (i : Nat) (b : List Key), (List.replicate (m + 1) ([] : List Key))[i]? = some b → b = [] :=
    fun i b hb => List.eq_of_mem_replicate (List.mem_of_getElem? hb)
  refine ⟨⟨by simp, fun i b hb => ?_⟩, ?_⟩
  · rw [key i b hb]
    exact ⟨List.nodup_nil, nofun⟩
  · rintro x ⟨b, hb, hx⟩
    rw [key _ b hb] at hx
    cases hx

theorem step_spec {bs : List (List Key)} (h : Inv bs) (o : Op) : ∃ cs, step bs o = .ok cs ∧ Inv cs ∧ ∀ x, Has cs x ↔ Present x (Has bs x) [o] := by
  classical
  cases o with
  | insert k =>
    rw [step, insert, find_spec h k, Outcome.bind_ok]
    by_cases hk : Has bs k
    · rw [if_pos hk]
      exact ⟨bs, rfl, h, fun x => ⟨.inl, fun o => o.elim id fun e => e ▸ hk⟩⟩
    · rw [if_neg hk]
      obtain ⟨cs, e, i, m⟩ := place_spec h k hk
      exact ⟨cs, by simp only [e, Outcome.bind_ok, Outcome.pure_def], i, m⟩
  | erase k => exact erase_spec h k
  | rehash m =>
    obtain ⟨f1, f2⟩ := flatten_spec h
    obtain ⟨e1, e2⟩ := empty_inv m
    obtain ⟨cs, e, i, hc⟩ := placeAll_spec bs.flatten _ e1 f1 fun k _ => e2 k
    exact ⟨cs, e, i, fun x => by rw [hc, f2]; exact ⟨fun o => o.elim (fun a => absurd a (e2 x)) id, .inr⟩⟩

theorem run_spec (os : List Op) : ∀ bs : List (List Key), Inv bs → ∃ cs, run bs os = .ok cs ∧ Inv cs ∧ ∀ x, Has cs x ↔ Present x (Has bs x) os := by
  induction os with
  | nil => exact fun bs h => ⟨bs, rfl, h, fun x => Iff.rfl⟩
  | cons o os ih =>
    intro bs h
    obtain ⟨cs, e, i, m⟩ := step_spec h o
    obtain ⟨ds, e', i', m'⟩ := ih cs i
    refine ⟨ds, by rw [run, e, Outcome.bind_ok, e'], i', fun x => ?_⟩
    rw [m', propext (m x)]
    cases o <;> rfl

/-- **C159** (full): after every program of insertions, erasures and changes of the number of buckets the table holds each key at most once, and finds exactly the keys that
were put in and not erased since, whatever strings they are: empty ones, with NULs and with bytes from 128 on. -/
theorem C159_table (os : List Op) : ∃ bs, run [[]] os = .ok bs ∧ bs.flatten.Nodup ∧ (∀ k, k ∈ bs.flatten ↔ Present k False os) ∧
    ∀ k, (Present k False os → find bs k = .ok (some k)) ∧ (¬Present k False os → find bs k = .ok none) := by
  classical
  obtain ⟨i0, n0⟩ := empty_inv 0
  obtain ⟨bs, e, i, m⟩ := run_spec os [[]] i0
  have m' : ∀ x, Has bs x ↔ Present x False os := fun x => by
    have : Has [[]] x = False := eq_false (n0 x)
    rw [m x, this]
  obtain ⟨f1, f2⟩ := flatten_spec i
  refine ⟨bs, e, f1, fun k => (f2 k).trans (m' k), fun k => ⟨fun h => ?_, fun h => ?_⟩⟩
  · rw [find_spec i k, if_pos ((m' k).mpr h)]
  · rw [find_spec i k, if_neg fun x => h ((m' k).mp x)]

/-- **C159** (full): `insert` tells whether the key is new. -/
theorem C159_insert (os : List Op) (bs : List (List Key)) (h : run [[]] os = .ok bs) (k : Key) :
    ∃ cs b, insert bs k = .ok (cs, b) ∧ (b = true ↔ ¬Present k False os) := by
  obtain ⟨bs', e, _, _, hf⟩ := C159_table os
  rw [h] at e
  obtain rfl : bs = bs' := by injection e
  obtain ⟨i0, _⟩ := empty_inv 0
  obtain ⟨cs, e, i, m⟩ := run_spec os [[]] i0
  rw [show run [[]] os = .ok bs from h] at e
  obtain rfl : bs = cs := by injection e
  by_cases hp : Present k False os
  · exact ⟨bs, false, by rw [insert, (hf k).1 hp]; rfl, by simp [hp]⟩
  · have e1 := (hf k).2 hp
    classical
    have hk : ¬Has bs k := fun hh => by
      rw [find_spec i k, if_pos hh] at e1
      cases e1
    obtain ⟨ds, e2, _⟩ := place_spec i k hk
    exact ⟨ds, true, by rw [insert, e1, Outcome.bind_ok]; simp only [e2, Outcome.bind_ok, Outcome.pure_def], by simp [hp]⟩

/-- **C159**, what the hash does to the table: there are keys, as many as one likes, that are in one bucket whatever the number of buckets. -/
theorem C159_flood (n m : Nat) : ∃ ks : List Key, ks.length = n ∧ ks.Nodup ∧ ∀ k ∈ ks, bucketOf (m + 1) k = 0 := by
  refine ⟨(List.range n).map fun i => List.replicate i 0#8, by simp, ?_, ?_⟩
  · exact List.Pairwise.map _ (fun a b hab e => hab (by simpa using congrArg List.length e)) List.nodup_range
  · intro k hk
    obtain ⟨i, _, rfl⟩ := List.mem_map.mp hk
    have := StringView.C21_hash_leading_zeros i []
    rw [List.append_nil] at this
    rw [bucketOf, this]
    simp [StringView.hashCode]

/-- "a" and the empty string are put in, the table grows to three buckets, "a" is erased. -/
example : run [[]] [.insert [0x61#8], .insert [], .insert [], .rehash 2, .erase [0x61#8]] = .ok [[[]], [], []] ∧
    Present [] False [.insert [0x61#8], .insert [], .insert [], .rehash 2, .erase [0x61#8]] := by
  refine ⟨by decide +kernel, ?_⟩
  simp [Present]

end Solace.HashTable
