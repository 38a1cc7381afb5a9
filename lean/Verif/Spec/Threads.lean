import Verif.Model.Threads
/-
C153: what the C++ standard calls a data race, and what calls do one at a time.
-/
namespace Solace.Threads

/-- An event happens before a later one of the same thread, a release of the mutex before every later acquisition, and so on (C++ standard 6.9.2.2). -/
inductive HB (tr : List Event) : Nat → Nat → Prop where
  | po {i j : Nat} {e f : Event} : i < j → tr[i]? = some e → tr[j]? = some f → e.tid = f.tid → HB tr i j
  | sync {i j t u : Nat} : i < j → tr[i]? = some ⟨t, .rel⟩ → tr[j]? = some ⟨u, .acq⟩ → HB tr i j
  | trans {i j k : Nat} : HB tr i j → HB tr j k → HB tr i k

/-- The event reads or writes the object. -/
def Event.On (e : Event) (l : Loc) : Prop := e.act = .rd l ∨ e.act = .wr l

/-- Two threads use an object, one of them changes it, and neither access happens before the other. -/
def Race (tr : List Event) : Prop :=
  ∃ i j e f l, i < j ∧ tr[i]? = some e ∧ tr[j]? = some f ∧ e.tid ≠ f.tid ∧ e.On l ∧ f.On l ∧ (e.act = .wr l ∨ f.act = .wr l) ∧ ¬ HB tr i j

/-- The registry has room for 128 domains: what a registration does when nothing comes between. -/
def registered (m : Mem) (id domain : Nat) : Mem :=
  ((m.put (.value (m .valuesPos)) domain).put .valuesPos (m .valuesPos + 1) |>.put (.key (m .keysPos)) id).put .keysPos (m .keysPos + 1)

/-- The first of the keys `i, ..., i + left - 1` that is `id`. -/
def search (m : Mem) (id : Nat) : Nat → Nat → Option Nat
  | 0, _ => none
  | left + 1, i => if m (.key i) = id then some (m (.value i)) else search m id left (i + 1)

/-- A call that nothing comes between: the state after it, and what it tells. -/
def alone (m : Mem) : Call → Mem × Res
  | .allocate n given =>
    if sub64 (m .capacity) (m .size) < n then (m, .nomem)
    else if m .locked ≠ 0 then (m, .perm)
    else if given = false ∧ n ≠ 0 then (m, .nomem)
    else (m.put .size (wrap64 (m .size + n)), .granted)
  | .free n => (m.put .size (sub64 (m .size) n), .freed)
  | .lock => (m.put .locked 1, .done)
  | .unlock => (m.put .locked 0, .done)
  | .isLocked => (m, .num (m .locked))
  | .limit => (m, .num (sub64 (m .capacity) (m .size)))
  | .size => (m, .num (m .size))
  | .register id domain =>
    if 128 ≤ m .valuesPos then (m, .num (wrap32 (m .valuesPos)))
    else if 128 ≤ m .keysPos then (m.put (.value (m .valuesPos)) domain, .num (wrap32 (m .valuesPos)))
    else (registered m id domain, .num (m .valuesPos + 1))
  | .find id => (m, .found (search m id (m .keysPos) 0))
  | .own r => (m, .num r)

/-- Calls one at a time, by several threads: the state at the end, and what the threads are told, in order. -/
def serial (m : Mem) : List (Nat × Call) → Mem × List (Nat × Res)
  | [] => (m, [])
  | (t, c) :: cs => ((serial (alone m c).1 cs).1, (t, (alone m c).2) :: (serial (alone m c).1 cs).2)

/-- The part of a list that is about thread `t`. -/
def of {α : Type} (t : Nat) (xs : List (Nat × α)) : List α := (xs.filter (·.1 = t)).map (·.2)

/-- The objects that a call may read, and those that it may change. -/
def Call.Reads : Call → Loc → Prop
  | .allocate .., l => l = .capacity ∨ l = .size ∨ l = .locked
  | .free _, l => l = .size
  | .isLocked, l => l = .locked
  | .limit, l => l = .capacity ∨ l = .size
  | .size, l => l = .size
  | .register .., l => l = .valuesPos ∨ l = .keysPos
  | .find _, l => l = .valuesPos ∨ l = .keysPos ∨ (∃ i, l = .key i) ∨ ∃ i, l = .value i
  | _, _ => False

def Call.Writes : Call → Loc → Prop
  | .allocate .., l | .free _, l => l = .size
  | .lock, l | .unlock, l => l = .locked
  | .register .., l => l = .valuesPos ∨ l = .keysPos ∨ (∃ i, l = .key i) ∨ ∃ i, l = .value i
  | _, _ => False

/-- One call may change what the other uses. -/
def Call.Disturbs (c d : Call) : Prop := ∃ l, c.Writes l ∧ (d.Reads l ∨ d.Writes l)

end Solace.Threads
