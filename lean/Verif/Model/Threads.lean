import Verif.Model.Basic
/-
What the functions of the library do to the state that all threads share: the system's memory manager (/repo/src/memoryManager.cpp:132-138, one object
for the whole program) and the registry of error domains (/repo/src/errorDomain.cpp:42). Nothing in the library is atomic or locked, so a call is a
sequence of single reads and writes of plain objects, which the calls of other threads may come between.

Modelled: the accesses to these objects one by one, in the order the functions make them; any number of threads; one mutex that the user of the library
may hold around a call; executions as interleavings of the accesses (which is what an execution without data races is, C++ standard 6.9.2.2; one with a
data race is undefined). `malloc` and `free` may be called by threads at the same time. The construction of the manager (memoryManager.cpp:135, a static
of a function) and of the registry is over when the threads start. The objects that threads have to themselves - strings, views, readers - are not
modelled: calls on them show up here only by the memory they ask for and give back. A domain registered is a number.
-/
namespace Solace.Threads

/-- The objects shared. `_capacity`, `_size`, `_isLocked`: memoryManager.hpp:171-177. Each vector of the registry has a position, vector.hpp:294, and 128
elements, errorDomain.cpp:29-33. -/
inductive Loc where
  | capacity | size | locked | valuesPos | keysPos
  | value (i : Nat)
  | key (i : Nat)
deriving DecidableEq, Repr

abbrev Mem := Loc → Nat

def Mem.put (m : Mem) (l : Loc) (v : Nat) : Mem := fun x => if x = l then v else m x

/-- What a call tells the thread. -/
inductive Res where
  | granted | freed | nomem | perm | done
  | num (n : Nat)
  | found (d : Option Nat)
deriving DecidableEq, Repr

/-- What a thread still has to do. -/
inductive Code where
  | stop
  | rd (l : Loc) (k : Nat → Code)
  | wr (l : Loc) (v : Nat) (k : Code)
  | acq (k : Code)
  | rel (k : Code)
  | out (r : Res) (k : Code)

inductive Call where
  /-- `allocate(n)`; `given`: whether `malloc` has the bytes -/
  | allocate (n : Nat) (given : Bool)
  /-- a `MemoryResource` of `n` bytes is destroyed -/
  | free (n : Nat)
  | lock | unlock | isLocked | limit | size
  | register (id domain : Nat)
  | find (id : Nat)
  /-- a call that uses only objects of the thread -/
  | own (r : Nat)
deriving DecidableEq, Repr

/-- `Vector::emplace_back`, vector.hpp:210-228: `size()` is asked for twice, and once more by `+= 1`. -/
def emplace (pos : Loc) (slot : Nat → Loc) (v : Nat) (full done : Code) : Code :=
  .rd pos fun p => if 128 ≤ p then full else
  .rd pos fun p => if 128 ≤ p then full else
  .wr (slot p) v (.rd pos fun p => .wr pos (wrap64 (p + 1)) done)

/-- The loop of `Dictionary::find`, dictionary.hpp:181-187: `left` elements from index `i`. -/
def findFrom (id : Nat) (k : Code) : Nat → Nat → Code
  | 0, _ => .out (.found none) k
  | left + 1, i => .rd (.key i) fun x => if x = id then .rd (.value i) fun d => .out (.found (some d)) k else findFrom id k left (i + 1)

/-- The accesses of a call, and then `k`. -/
def code : Call → Code → Code
  -- memoryManager.cpp:97-115, limit() memoryManager.hpp:96-98, isLocked() memoryManager.cpp:122-124
  | .allocate n given, k =>
    .rd .capacity fun c => .rd .size fun s => if sub64 c s < n then .out .nomem k else
    .rd .locked fun l => if l ≠ 0 then .out .perm k else
    if given = false ∧ n ≠ 0 then .out .nomem k else
    .rd .size fun s => .wr .size (wrap64 (s + n)) (.out .granted k)
  -- memoryManager.cpp:83-94
  | .free n, k => .rd .size fun s => .wr .size (sub64 s n) (.out .freed k)
  -- memoryManager.cpp:118-129
  | .lock, k => .wr .locked 1 (.out .done k)
  | .unlock, k => .wr .locked 0 (.out .done k)
  | .isLocked, k => .rd .locked fun l => .out (.num l) k
  -- memoryManager.hpp:82-84, 96-98
  | .limit, k => .rd .capacity fun c => .rd .size fun s => .out (.num (sub64 c s)) k
  | .size, k => .rd .size fun s => .out (.num s) k
  -- errorDomain.cpp:48-53, dictionary.hpp:145-158, pop_back vector.hpp:244-253
  | .register id domain, k =>
    emplace .valuesPos .value domain (.rd .valuesPos fun p => .out (.num (wrap32 p)) k)
      (emplace .keysPos .key id
        (.rd .valuesPos fun p => if p < 1 then .rd .valuesPos fun p => .out (.num (wrap32 p)) k else
          .rd .valuesPos fun p => .wr .valuesPos (sub64 p 1) (.rd .valuesPos fun _ => .rd .valuesPos fun p => .out (.num (wrap32 p)) k))
        (.rd .valuesPos fun p => .out (.num (wrap32 p)) k))
  -- errorDomain.cpp:56-65, dictionary.hpp:179-190, begin() and end() vector.hpp:149-171
  | .find id, k => .rd .valuesPos fun _ => .rd .keysPos fun _ => .rd .keysPos fun n => findFrom id k n 0
  | .own r, k => .out (.num r) k

/-- A thread that makes calls one after the other, each as it is or under the mutex. -/
def compile : List (Bool × Call) → Code
  | [] => .stop
  | (false, c) :: cs => code c (compile cs)
  | (true, c) :: cs => .acq (code c (.rel (compile cs)))

inductive Act where
  | rd (l : Loc)
  | wr (l : Loc)
  | acq | rel
deriving DecidableEq, Repr

structure Event where
  tid : Nat
  act : Act
deriving DecidableEq, Repr

/-- The shared state, who holds the mutex, and the threads. -/
structure Config where
  mem : Mem
  owner : Option Nat
  codes : Nat → Code
  outs : Nat → List Res

def upd {α : Type} (f : Nat → α) (t : Nat) (x : α) : Nat → α := fun u => if u = t then x else f u

/-- One access of thread `t`; a thread that has ended or waits for the mutex stays where it is. -/
def step (c : Config) (t : Nat) : Config × List Event :=
  match c.codes t with
  | .stop => (c, [])
  | .rd l k => ({ c with codes := upd c.codes t (k (c.mem l)) }, [⟨t, .rd l⟩])
  | .wr l v k => ({ c with mem := c.mem.put l v, codes := upd c.codes t k }, [⟨t, .wr l⟩])
  | .acq k => if c.owner = none then ({ c with owner := some t, codes := upd c.codes t k }, [⟨t, .acq⟩]) else (c, [])
  | .rel k => ({ c with owner := none, codes := upd c.codes t k }, [⟨t, .rel⟩])
  | .out r k => ({ c with codes := upd c.codes t k, outs := upd c.outs t (c.outs t ++ [r]) }, [])

/-- An execution: the threads take turns as the list says. -/
def run : Config → List Nat → Config × List Event
  | c, [] => (c, [])
  | c, t :: ts => ((run (step c t).1 ts).1, (step c t).2 ++ (run (step c t).1 ts).2)

/-- The threads before they start. -/
def start (m : Mem) (progs : Nat → List (Bool × Call)) : Config := ⟨m, none, fun t => compile (progs t), fun _ => []⟩

end Solace.Threads
