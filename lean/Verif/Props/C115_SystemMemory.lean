import Verif.Model.SystemMemory
import Verif.Props.C88_Exact
/-
C115: a memory manager comes to exist exactly when the machine has more memory than it may hand out.
-/
namespace Solace.SysMem
open Exn (lit)
open Memory (Mgr)

/-- Values `sysconf` can return. -/
def Long (v : Int) : Prop := -2 ^ 63 ≤ v ∧ v < 2 ^ 63

theorem toSize_of_nonneg {v : Int} (hv : Long v) (h : 0 ≤ v) : (toSize v : Int) = v := by
  obtain ⟨-, h2⟩ := hv
  rw [toSize, Int.emod_eq_of_lt h (by omega), Int.toNat_of_nonneg h]

theorem assertErrno_pos (c : Bool) (e : Int) (t : List Byte) (h : c = true) : Assert.assertErrno c e t = .ok () := by
  subst h; rfl

theorem assertErrno_neg (c : Bool) (e : Int) (t : List Byte) (h : c = false) :
    Assert.assertErrno c e t = .error (Assert.failErrno e t) := by
  subst h; rfl

theorem bind_ok_iff {ε α β : Type} (r : Except ε α) (f : α → Except ε β) (b : β) :
    r.bind f = .ok b ↔ ∃ a, r = .ok a ∧ f a = .ok b := by
  cases r with
  | error e => simp [Except.bind]
  | ok a => simp [Except.bind]

theorem errno_ok_iff (c : Prop) [Decidable c] (e : Int) (t : List Byte) : Assert.assertErrno (decide c) e t = .ok () ↔ c := by
  by_cases h : c
  · simp [Assert.assertErrno, h]
  · simp [Assert.assertErrno, h]

theorem true_ok_iff (c : Prop) [Decidable c] (t : List Byte) : Assert.assertTrue (decide c) t = .ok () ↔ c := by
  by_cases h : c
  · simp [Assert.assertTrue, h]
  · simp [Assert.assertTrue, h]

theorem page_ok_iff (s : Machine) (n : Nat) : getPageSize s = .ok n ↔ 0 ≤ s.pageSize ∧ n = toSize s.pageSize := by
  rw [getPageSize, bind_ok_iff]
  constructor
  · rintro ⟨⟨⟩, h1, h2⟩
    exact ⟨(errno_ok_iff _ _ _).mp h1, (Except.ok.inj h2).symm⟩
  · rintro ⟨h1, rfl⟩
    exact ⟨(), (errno_ok_iff _ _ _).mpr h1, rfl⟩

theorem pages_ok_iff (s : Machine) (n : Nat) : getNbPages s = .ok n ↔ 0 ≤ s.pages ∧ n = toSize s.pages := by
  rw [getNbPages, bind_ok_iff]
  constructor
  · rintro ⟨⟨⟩, h1, h2⟩
    exact ⟨(errno_ok_iff _ _ _).mp h1, (Except.ok.inj h2).symm⟩
  · rintro ⟨h1, rfl⟩
    exact ⟨(), (errno_ok_iff _ _ _).mpr h1, rfl⟩

/-- **C115** (queries): each query returns the system's answer when that is not negative and otherwise throws an I/O exception
that carries the error number; where the number of available pages cannot be asked for, it is 0. -/
theorem C115_queries (s : Machine) (h1 : Long s.pageSize) (h2 : Long s.pages) (h3 : Long s.available) :
    (∀ n : Nat, getPageSize s = .ok n ↔ (n : Int) = s.pageSize) ∧
    (∀ n : Nat, getNbPages s = .ok n ↔ (n : Int) = s.pages) ∧
    (∀ n : Nat, getNbAvailablePages true s = .ok n ↔ (n : Int) = s.available) ∧
    (∀ n : Nat, getNbAvailablePages false s = .ok n ↔ n = 0) ∧
    (s.pageSize < 0 → ∃ e, getPageSize s = .error e ∧ Assert.errorCode e = some s.pageSizeErrno) ∧
    (s.pages < 0 → ∃ e, getNbPages s = .error e ∧ Assert.errorCode e = some s.pagesErrno) ∧
    (s.available < 0 → ∃ e, getNbAvailablePages true s = .error e ∧ Assert.errorCode e = some s.availableErrno) := by
  have av : ∀ n, getNbAvailablePages true s = .ok n ↔ 0 ≤ s.available ∧ n = toSize s.available := by
    intro n
    rw [getNbAvailablePages, if_pos rfl, bind_ok_iff]
    constructor
    · rintro ⟨⟨⟩, h1, h2⟩
      exact ⟨(errno_ok_iff _ _ _).mp h1, (Except.ok.inj h2).symm⟩
    · rintro ⟨h1, rfl⟩
      exact ⟨(), (errno_ok_iff _ _ _).mpr h1, rfl⟩
  have key : ∀ (v : Int), Long v → ∀ n : Nat, (0 ≤ v ∧ n = toSize v) ↔ (n : Int) = v := by
    intro v hv n
    constructor
    · rintro ⟨h, rfl⟩
      exact toSize_of_nonneg hv h
    · intro h
      have h0 : 0 ≤ v := by omega
      have := toSize_of_nonneg hv h0
      exact ⟨h0, by omega⟩
  refine ⟨fun n => (page_ok_iff s n).trans (key _ h1 n), fun n => (pages_ok_iff s n).trans (key _ h2 n),
    fun n => (av n).trans (key _ h3 n), fun n => ?_, fun h => ?_, fun h => ?_, fun h => ?_⟩
  · simp [getNbAvailablePages, eq_comm]
  · exact ⟨_, by rw [getPageSize, assertErrno_neg _ _ _ (decide_eq_false (by omega))]; rfl, rfl⟩
  · exact ⟨_, by rw [getNbPages, assertErrno_neg _ _ _ (decide_eq_false (by omega))]; rfl, rfl⟩
  · exact ⟨_, by rw [getNbAvailablePages, if_pos rfl, assertErrno_neg _ _ _ (decide_eq_false (by omega))]; rfl, rfl⟩

theorem total_ok_iff (o : Bool) (s : Machine) (h1 : Long s.pageSize) (h2 : Long s.pages) (t : Nat) :
    totalMemory o s = .ok t ↔ 0 ≤ s.pageSize ∧ 0 ≤ s.pages ∧ (t : Int) = s.pageSize * s.pages % 2 ^ 64 := by
  have hw : ∀ a b : Nat, ((wrap64 (a * b) : Nat) : Int) = (a : Int) * (b : Int) % 2 ^ 64 := by
    intro a b
    rw [wrap64_def, Int.natCast_emod, Int.natCast_mul]
    rfl
  have fin : (∃ p n, (0 ≤ s.pageSize ∧ p = toSize s.pageSize) ∧ (0 ≤ s.pages ∧ n = toSize s.pages) ∧ wrap64 (p * n) = t) ↔
      0 ≤ s.pageSize ∧ 0 ≤ s.pages ∧ (t : Int) = s.pageSize * s.pages % 2 ^ 64 := by
    constructor
    · rintro ⟨_, _, ⟨a, rfl⟩, ⟨b, rfl⟩, rfl⟩
      exact ⟨a, b, by rw [hw, toSize_of_nonneg h1 a, toSize_of_nonneg h2 b]⟩
    · rintro ⟨a, b, h⟩
      refine ⟨_, _, ⟨a, rfl⟩, ⟨b, rfl⟩, ?_⟩
      have := hw (toSize s.pageSize) (toSize s.pages)
      rw [toSize_of_nonneg h1 a, toSize_of_nonneg h2 b, ← h] at this
      exact Int.ofNat.inj this
  rw [← fin, totalMemory]
  cases o with
  | true =>
    rw [if_pos rfl, bind_ok_iff]
    constructor
    · rintro ⟨n, hn, h⟩
      obtain ⟨p, hp, h⟩ := (bind_ok_iff _ _ _).mp h
      exact ⟨p, n, (page_ok_iff s p).mp hp, (pages_ok_iff s n).mp hn, Except.ok.inj h⟩
    · rintro ⟨p, n, hp, hn, rfl⟩
      exact ⟨n, (pages_ok_iff s n).mpr hn, (bind_ok_iff _ _ _).mpr ⟨p, (page_ok_iff s p).mpr hp, rfl⟩⟩
  | false =>
    rw [if_neg (by decide), bind_ok_iff]
    constructor
    · rintro ⟨p, hp, h⟩
      obtain ⟨n, hn, h⟩ := (bind_ok_iff _ _ _).mp h
      exact ⟨p, n, (page_ok_iff s p).mp hp, (pages_ok_iff s n).mp hn, Except.ok.inj h⟩
    · rintro ⟨p, n, hp, hn, rfl⟩
      exact ⟨p, (page_ok_iff s p).mpr hp, (bind_ok_iff _ _ _).mpr ⟨n, (pages_ok_iff s n).mpr hn, rfl⟩⟩

/-- **C115** (creation, exactly): whatever the order of the queries, the constructor succeeds if and only if both answers are
not negative and the capacity is below their product modulo 2^64; the new manager has that capacity, nothing allocated, and is
not locked. -/
theorem C115_create_exact (o : Bool) (s : Machine) (h1 : Long s.pageSize) (h2 : Long s.pages) (self cap : Nat) (m : Mgr) :
    create o s self cap = .ok m ↔
      (0 ≤ s.pageSize ∧ 0 ≤ s.pages ∧ (cap : Int) < s.pageSize * s.pages % 2 ^ 64) ∧
      m.capacity = cap ∧ m.size = 0 ∧ m.locked = false ∧ m.self = self := by
  rw [create, bind_ok_iff]
  constructor
  · rintro ⟨t, ht, h⟩
    obtain ⟨⟨⟩, hu, h⟩ := (bind_ok_iff _ _ _).mp h
    obtain ⟨a, b, c⟩ := (total_ok_iff o s h1 h2 t).mp ht
    have hu := (true_ok_iff _ _).mp hu
    cases h
    exact ⟨⟨a, b, by omega⟩, rfl, rfl, rfl, rfl⟩
  · rintro ⟨⟨a, b, c⟩, h3, h4, h5, h6⟩
    have hnn : 0 ≤ s.pageSize * s.pages % 2 ^ 64 := Int.emod_nonneg _ (by decide)
    refine ⟨(s.pageSize * s.pages % 2 ^ 64).toNat, (total_ok_iff o s h1 h2 _).mpr ⟨a, b, Int.toNat_of_nonneg hnn⟩, ?_⟩
    refine (bind_ok_iff _ _ _).mpr ⟨(), (true_ok_iff _ _).mpr (by omega), ?_⟩
    obtain ⟨_, _, _, _⟩ := m
    simp only at h3 h4 h5 h6
    subst h3 h4 h5 h6
    rfl

example : create false ⟨4096, 0, 2048, 0, 100, 0⟩ 3 100 = .ok ⟨100, 0, false, 3⟩ :=
  (C115_create_exact false _ ⟨by decide, by decide⟩ ⟨by decide, by decide⟩ _ _ _).mpr ⟨⟨by decide, by decide, by decide⟩, rfl, rfl, rfl, rfl⟩

/-- **C115** (never too much): every manager that exists may hand out less than the memory of the machine. -/
theorem C115_never_more (o : Bool) (s : Machine) (h1 : Long s.pageSize) (h2 : Long s.pages) (self cap : Nat) (m : Mgr)
    (h : create o s self cap = .ok m) : (m.capacity : Int) < s.pageSize * s.pages := by
  obtain ⟨⟨a, b, c⟩, d, -⟩ := (C115_create_exact o s h1 h2 self cap m).mp h
  have hm : 0 ≤ s.pageSize * s.pages := Int.mul_nonneg a b
  rw [d]
  omega

example : ∃ m, create true ⟨4096, 0, 2048, 0, 100, 0⟩ 3 100 = .ok m :=
  ⟨⟨100, 0, false, 3⟩,
   (C115_create_exact true _ ⟨by decide, by decide⟩ ⟨by decide, by decide⟩ _ _ _).mpr ⟨⟨by decide, by decide, by decide⟩, rfl, rfl, rfl, rfl⟩⟩

/-- **C115** (creation): on a machine with less than 2^64 bytes of memory, a manager is made exactly for the
capacities below the memory of the machine. -/
theorem C115_create (o : Bool) (s : Machine) (h1 : Long s.pageSize) (h2 : Long s.pages) (self cap : Nat)
    (ha : 0 ≤ s.pageSize) (hb : 0 ≤ s.pages) (hs : s.pageSize * s.pages < 2 ^ 64) :
    (∃ m, create o s self cap = .ok m) ↔ (cap : Int) < s.pageSize * s.pages := by
  have hm : 0 ≤ s.pageSize * s.pages := Int.mul_nonneg ha hb
  have he := Int.emod_eq_of_lt hm hs
  constructor
  · rintro ⟨m, h⟩
    have := ((C115_create_exact o s h1 h2 self cap m).mp h).1.2.2
    omega
  · intro h
    exact ⟨⟨cap, 0, false, self⟩, (C115_create_exact o s h1 h2 self cap _).mpr ⟨⟨ha, hb, by omega⟩, rfl, rfl, rfl, rfl⟩⟩

example : (∃ m, create false ⟨4096, 0, 2048, 0, 0, 0⟩ 0 8388607 = .ok m) :=
  (C115_create false ⟨4096, 0, 2048, 0, 0, 0⟩ ⟨by decide, by decide⟩ ⟨by decide, by decide⟩ 0 8388607
    (by decide) (by decide) (by decide)).mpr (by decide)

/-- **C115** (the limit of the last theorem is needed): the product is computed modulo 2^64, so on a machine that reports
2^52 pages of 4096 bytes no manager can be made at all. -/
theorem C115_product_wraps (o : Bool) (self cap : Nat) (m : Mgr) :
    create o ⟨4096, 0, 2 ^ 52, 0, 0, 0⟩ self cap ≠ .ok m := by
  intro h
  have := ((C115_create_exact o _ ⟨by decide, by decide⟩ ⟨by decide, by decide⟩ self cap m).mp h).1.2.2
  have e : (4096 : Int) * 2 ^ 52 % 2 ^ 64 = 0 := by decide
  simp only at this
  omega

/-- **C115** (refusals): when the constructor throws, it throws the I/O exception of a failed query, and which one is
unspecified only if both fail; if neither fails, it throws an exception with the text of the assertion. -/
theorem C115_refusals (o : Bool) (s : Machine) (h1 : Long s.pageSize) (h2 : Long s.pages) (self cap : Nat) (strerror : Int → List Byte) :
    (s.pageSize < 0 → 0 ≤ s.pages →
      create o s self cap = .error (Assert.failErrno s.pageSizeErrno (lit "sysconf(_SC_PAGESIZE)"))) ∧
    (0 ≤ s.pageSize → s.pages < 0 →
      create o s self cap = .error (Assert.failErrno s.pagesErrno (lit "sysconf(_SC_PHYS_PAGES)"))) ∧
    (s.pageSize < 0 → s.pages < 0 →
      create o s self cap = .error (if o then Assert.failErrno s.pagesErrno (lit "sysconf(_SC_PHYS_PAGES)")
        else Assert.failErrno s.pageSizeErrno (lit "sysconf(_SC_PAGESIZE)"))) ∧
    (0 ≤ s.pageSize → 0 ≤ s.pages → s.pageSize * s.pages % 2 ^ 64 ≤ cap →
      Assert.Raises strerror (create o s self cap) (lit "allowedCapacity can't be more then total system's memory")) := by
  have p1 : s.pageSize < 0 → getPageSize s = .error (Assert.failErrno s.pageSizeErrno (lit "sysconf(_SC_PAGESIZE)")) := fun h => by
    rw [getPageSize, assertErrno_neg _ _ _ (decide_eq_false (by omega))]; rfl
  have p2 : s.pages < 0 → getNbPages s = .error (Assert.failErrno s.pagesErrno (lit "sysconf(_SC_PHYS_PAGES)")) := fun h => by
    rw [getNbPages, assertErrno_neg _ _ _ (decide_eq_false (by omega))]; rfl
  have q1 : 0 ≤ s.pageSize → getPageSize s = .ok (toSize s.pageSize) := fun h => (page_ok_iff s _).mpr ⟨h, rfl⟩
  have q2 : 0 ≤ s.pages → getNbPages s = .ok (toSize s.pages) := fun h => (pages_ok_iff s _).mpr ⟨h, rfl⟩
  refine ⟨fun a b => ?_, fun a b => ?_, fun a b => ?_, fun a b c => ?_⟩
  · cases o <;> simp [create, totalMemory, p1 a, q2 b, Except.bind]
  · cases o <;> simp [create, totalMemory, q1 a, p2 b, Except.bind]
  · cases o <;> simp [create, totalMemory, p1 a, p2 b, Except.bind]
  · have hnn : 0 ≤ s.pageSize * s.pages % 2 ^ 64 := Int.emod_nonneg _ (by decide)
    have ht := (total_ok_iff o s h1 h2 (s.pageSize * s.pages % 2 ^ 64).toNat).mpr ⟨a, b, Int.toNat_of_nonneg hnn⟩
    refine ⟨Assert.fail (lit "allowedCapacity can't be more then total system's memory"), ?_, ?_⟩
    · rw [create, ht]
      simp only [Except.bind]
      rw [Assert.assertTrue, if_pos (by simp; omega)]
    · exact Assert.fail_complete strerror _ (by decide +kernel)

example : create true ⟨-1, 22, -1, 38, 0, 0⟩ 0 0 = .error (Assert.failErrno 38 (lit "sysconf(_SC_PHYS_PAGES)")) :=
  (C115_refusals true ⟨-1, 22, -1, 38, 0, 0⟩ ⟨by decide, by decide⟩ ⟨by decide, by decide⟩ 0 0 (fun _ => [])).2.2.1 (by decide) (by decide)

/-- The machine has more than 16 MiB, as the code computes it. -/
def Enough (s : Machine) : Prop :=
  Long s.pageSize ∧ Long s.pages ∧ 0 ≤ s.pageSize ∧ 0 ≤ s.pages ∧ 16777216 < s.pageSize * s.pages % 2 ^ 64

/-- Answers of `sysconf` in the range of `long`. -/
def Proper : Act → Prop
  | .call _ s => Long s.pageSize ∧ Long s.pages
  | .use _ => True

/-- Calls that can make the object. -/
def Makes : Act → Prop
  | .call _ s => Enough s
  | .use _ => False

/-- What is done to the object by an action other than a call. -/
def effect : Act → Mgr → Mgr
  | .call _ _ => id
  | .use f => f

theorem create_system (o : Bool) (s : Machine) (h : Long s.pageSize ∧ Long s.pages) :
    (Enough s → create o s 0 (16 * 1024 * 1024) = .ok ⟨16777216, 0, false, 0⟩) ∧
    (¬ Enough s → ∃ e, create o s 0 (16 * 1024 * 1024) = .error e) := by
  constructor
  · rintro ⟨a, b, c, d, e⟩
    exact (C115_create_exact o s h.1 h.2 _ _ _).mpr ⟨⟨c, d, by omega⟩, rfl, rfl, rfl, rfl⟩
  · intro hn
    cases hc : create o s 0 (16 * 1024 * 1024) with
    | error e => exact ⟨e, rfl⟩
    | ok m =>
      obtain ⟨⟨a, b, c⟩, -⟩ := (C115_create_exact o s h.1 h.2 _ _ _).mp hc
      exact absurd ⟨h.1, h.2, a, b, by omega⟩ hn

theorem foldl_some (acts : List Act) (m : Mgr) :
    acts.foldl (fun g a => (act g a).1) (some m) = some (acts.foldl (fun m a => effect a m) m) := by
  induction acts generalizing m with
  | nil => rfl
  | cons a rest ih =>
    rw [List.foldl_cons, List.foldl_cons, ← ih]
    cases a <;> rfl

theorem foldl_none (acts : List Act) (hp : ∀ a ∈ acts, Proper a) (h : ∀ a ∈ acts, ¬ Makes a) :
    acts.foldl (fun g a => (act g a).1) none = none := by
  induction acts with
  | nil => rfl
  | cons a rest ih =>
    rw [List.foldl_cons]
    have h0 : (act none a).1 = none := by
      cases a with
      | use f => rfl
      | call o s =>
        obtain ⟨e, he⟩ := (create_system o s (hp _ (List.mem_cons_self ..))).2 (h _ (List.mem_cons_self ..))
        simp only [act, he]
    rw [h0]
    exact ih (fun a ha => hp a (List.mem_cons_of_mem _ ha)) (fun a ha => h a (List.mem_cons_of_mem _ ha))

/-- **C115** (the system's manager): after every history of calls and of uses of the object, a call of
`getSystemHeapMemoryManager` throws if no earlier call nor this one could make the object. Otherwise it returns the object that
the first such call made, with a capacity of 16 MiB, as the uses since then have left it: calls change nothing. -/
theorem C115_system_manager (acts : List Act) (hp : ∀ a ∈ acts, Proper a) (o : Bool) (s : Machine)
    (hs : Long s.pageSize ∧ Long s.pages) :
    ((∀ a ∈ acts, ¬ Makes a) → ¬ Enough s → ∃ e, (act (history acts) (.call o s)).2 = some (.error e)) ∧
    ((∀ a ∈ acts, ¬ Makes a) → Enough s → (act (history acts) (.call o s)).2 = some (.ok ⟨16777216, 0, false, 0⟩)) ∧
    (∀ before first after, acts = before ++ first :: after → (∀ a ∈ before, ¬ Makes a) → Makes first →
      (act (history acts) (.call o s)).2 = some (.ok (after.foldl (fun m a => effect a m) ⟨16777216, 0, false, 0⟩))) := by
  refine ⟨fun h hn => ?_, fun h he => ?_, ?_⟩
  · obtain ⟨e, he⟩ := (create_system o s hs).2 hn
    rw [history, foldl_none acts hp h]
    exact ⟨e, by simp only [act, he]⟩
  · rw [history, foldl_none acts hp h]
    simp only [act, (create_system o s hs).1 he]
  · rintro before first after rfl hb hf
    rw [history, List.foldl_append, foldl_none before (fun a ha => hp a (List.mem_append_left _ ha)) hb, List.foldl_cons]
    have h1 : (act none first).1 = some ⟨16777216, 0, false, 0⟩ := by
      cases first with
      | use f => exact hf.elim
      | call o' s' =>
        simp only [act, (create_system o' s' ⟨hf.1, hf.2.1⟩).1 hf]
    rw [h1, foldl_some]
    rfl

example : Enough ⟨4096, 0, 8192, 0, 0, 0⟩ ∧ ¬ Enough ⟨4096, 0, 4096, 0, 0, 0⟩ := by
  constructor
  · exact ⟨⟨by decide, by decide⟩, ⟨by decide, by decide⟩, by decide, by decide, by decide⟩
  · rintro ⟨-, -, -, -, h⟩
    exact absurd h (by decide)

end Solace.SysMem
