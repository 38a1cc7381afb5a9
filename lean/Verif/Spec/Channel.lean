import Verif.Model.Channel
/-
What a writer and a reader over the same memory are to be: a queue of bytes.
-/
namespace Solace.Channel

/-- The bytes on their way, in order; the reader may see the first `visible` of them. `used` is the room lost to bytes that were taken and not yet
made free again; `bound` is the limit set for the writer. -/
structure Queue where
  items : List Byte
  visible : Nat
  used : Nat
  bound : Nat
  cap : Nat
deriving DecidableEq, Repr

/-- There is room for `n` bytes more. (A limit below what has been written already is not one: see C78.) -/
def Queue.room (q : Queue) (n : Nat) : Prop :=
  n = 0 ∨ q.used + q.items.length + n ≤ q.cap ∧ (q.used + q.items.length ≤ q.bound → q.used + q.items.length + n ≤ q.bound)

instance (q : Queue) (n : Nat) : Decidable (q.room n) := by unfold Queue.room; infer_instance

/-- Remove the first `n` bytes. -/
def Queue.pop (q : Queue) (n : Nat) : Queue := ⟨q.items.drop n, q.visible - n, q.used + n, q.bound, q.cap⟩

def Queue.step (q : Queue) : Call → Queue × Reply
  | .put bytes => if q.room bytes.length then ({ q with items := q.items ++ bytes }, ⟨true, []⟩) else (q, ⟨false, []⟩)
  | .bound n => if n ≤ q.cap then ({ q with bound := n }, ⟨true, []⟩) else (q, ⟨false, []⟩)
  | .publish => ({ q with visible := q.items.length }, ⟨true, []⟩)
  | .take dest => if dest.length ≤ q.visible then (q.pop dest.length, ⟨true, q.items.take dest.length⟩) else (q, ⟨false, dest⟩)
  | .get => if 1 ≤ q.visible then (q.pop 1, ⟨true, q.items.take 1⟩) else (q, ⟨false, []⟩)
  | .skip n => if n ≤ q.visible then (q.pop n, ⟨true, []⟩) else (q, ⟨false, []⟩)
  | .compact => (⟨q.items, q.items.length, 0, q.cap, q.cap⟩, ⟨true, []⟩)

def Queue.run (q : Queue) : List Call → Queue × List Reply
  | [] => (q, [])
  | k :: ks => ((q.step k).1.run ks |>.1, (q.step k).2 :: ((q.step k).1.run ks).2)

/-- The bytes that the writer took. -/
def sent : List Call → List Reply → List Byte
  | .put bytes :: ks, r :: rs => (if r.good then bytes else []) ++ sent ks rs
  | _ :: ks, _ :: rs => sent ks rs
  | _, _ => []

/-- The bytes that the reader gave. -/
def got : List Call → List Reply → List Byte
  | .take _ :: ks, r :: rs => (if r.good then r.bytes else []) ++ got ks rs
  | .get :: ks, r :: rs => (if r.good then r.bytes else []) ++ got ks rs
  | _ :: ks, _ :: rs => got ks rs
  | _, _ => []

/-- Send a text through the memory, byte by byte. -/
def pump (text : List Byte) : List Call := text.flatMap fun b => [.put [b], .publish, .get, .compact]

end Solace.Channel
