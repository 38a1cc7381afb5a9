import Verif.Model.Basic
/-
`MemoryView::lock` and `MemoryView::Lock` (/repo/src/memoryView.cpp:62-79, /repo/include/solace/memoryView.hpp:236-254): keeping
memory in RAM with `mlock`.

The operating system's part is stated here as an assumption (mlock(2)): locks are per page and do not nest. `mlock` of some
bytes locks every page that has one of them, or fails and changes nothing; `munlock` unlocks all these pages however often they
were locked; zero bytes are no page. That `munlock` succeeds on memory locked before is assumed (its result is ignored by the
code).
-/
namespace Solace.MemLock

/-- The address and size of a view. -/
structure Range where
  addr : Nat
  size : Nat
deriving DecidableEq, Repr

/-- The view without memory. -/
def Range.none : Range := ⟨0, 0⟩

/-- Does the page `p` (pages have `ps` bytes) hold a byte of the range? From the page of the first to the page of the last
byte. -/
def Range.touches (ps : Nat) (r : Range) (p : Nat) : Bool :=
  r.size != 0 && (decide (r.addr / ps ≤ p) && decide (p ≤ (r.addr + r.size - 1) / ps))

/-- The pages that are locked, and the `Lock` objects; `none` for destroyed ones. -/
structure World where
  locked : Nat → Bool
  objs : List (Option Range)

def mlock (ps : Nat) (locked : Nat → Bool) (r : Range) : Nat → Bool := fun p => locked p || r.touches ps p

def munlock (ps : Nat) (locked : Nat → Bool) (r : Range) : Nat → Bool := fun p => locked p && !r.touches ps p

/-- `MemoryView::lock`, memoryView.cpp:62-69: on success a `Lock` object is made from a copy of the view (memoryView.hpp:240-244).
`works`: does the system lock the memory? -/
def lock (ps : Nat) (w : World) (r : Range) (works : Bool) : World × Except Err Unit :=
  if works then (⟨mlock ps w.locked r, w.objs ++ [some r]⟩, .ok ()) else (w, .error .errno)

/-- `Lock(Lock&&)`, memoryView.hpp:246: by the move constructor of `MemoryView`, memoryView.hpp:109-113. -/
def move (w : World) (v : Nat) : World :=
  match w.objs[v]? with
  | some (some r) => { w with objs := w.objs.set v (some .none) ++ [some r] }
  | _ => w

/-- `operator=(Lock&&)`, memoryView.hpp:250: by `MemoryView::operator=(MemoryView&&)`, memoryView.hpp:116-127, which swaps. -/
def assign (w : World) (v u : Nat) : World :=
  match w.objs[v]?, w.objs[u]? with
  | some (some a), some (some b) => { w with objs := (w.objs.set v (some b)).set u (some a) }
  | _, _ => w

/-- `~Lock`, memoryView.cpp:72-79. -/
def destroy (ps : Nat) (w : World) (v : Nat) : World :=
  match w.objs[v]? with
  | some (some r) => ⟨munlock ps w.locked r, w.objs.set v none⟩
  | _ => w

inductive Op where
  | lock (r : Range) (works : Bool)
  | move (v : Nat)
  | assign (v u : Nat)
  | destroy (v : Nat)
deriving DecidableEq, Repr

def step (ps : Nat) (w : World) : Op → World
  | .lock r works => (lock ps w r works).1
  | .move v => move w v
  | .assign v u => assign w v u
  | .destroy v => destroy ps w v

def run (ps : Nat) (w : World) (ops : List Op) : World := ops.foldl (step ps) w

def World.init : World := ⟨fun _ => false, []⟩

end Solace.MemLock
