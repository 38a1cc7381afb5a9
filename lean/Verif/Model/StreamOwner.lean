import Verif.Model.ByteWriter
/-
Memory resources, byte readers and byte writers as objects that own, borrow, hand over and give back memory:
/repo/include/solace/memoryResource.hpp, /repo/include/solace/byteReader.hpp, /repo/include/solace/byteWriter.hpp.

Memory comes in blocks; an object views a whole block or nothing. Which manager a block comes from, and its accounting, is
C17-C20; a disposer here just frees the block. An operation that names a variable that does not exist, is destroyed or has
the wrong type is not a C++ program; the model leaves the world unchanged for it.
-/
namespace Solace.Streams

/-- A block of memory: what it holds, and whether it has not been freed. -/
structure Block where
  bytes : List Byte
  alive : Bool
deriving DecidableEq, Repr

inductive Kind where
  | resource | reader | writer
deriving DecidableEq, Repr

/-- A variable. A reader or a writer is `_position`, `_limit` and a resource (byteReader.hpp:260-263, byteWriter.hpp:262-265);
a resource is the block its `_data` shows (`none`: null, size 0) and whether it has a `_disposer`
(memoryResource.hpp:116-119). Position and limit of a resource are 0 and not used. -/
structure Obj where
  kind : Kind
  position : Nat
  limit : Nat
  view : Option Nat
  owns : Bool
deriving DecidableEq, Repr

structure World where
  blocks : List Block
  vars : List (Option Obj)
deriving DecidableEq, Repr

def World.init : World := ⟨[], []⟩

/-- The variable of that number, unless it is destroyed. -/
def World.obj (w : World) (v : Nat) : Option Obj := (w.vars[v]?).join

/-- The memory an object shows. A freed block keeps its size, which is stored in the view. -/
def World.bytes (w : World) (o : Obj) : List Byte :=
  match o.view with
  | none => []
  | some b => match w.blocks[b]? with | some k => k.bytes | none => []

/-- Is it memory that may be accessed? -/
def World.alive (w : World) (o : Obj) : Bool :=
  match o.view with
  | none => true
  | some b => match w.blocks[b]? with | some k => k.alive | none => false

/-- An object that has been moved from: memoryResource.hpp:70-74 with memoryView.hpp:109-113, byteReader.hpp:58-62,
byteWriter.hpp:54-58. -/
def Obj.moved (o : Obj) : Obj := { o with position := 0, limit := 0, view := none, owns := false }

/-- A new variable. -/
def World.push (w : World) (o : Obj) : World := { w with vars := w.vars ++ [some o] }

def World.put (w : World) (v : Nat) (o : Option Obj) : World := { w with vars := w.vars.set v o }

/-- Memory from a manager, memoryManager.cpp:97-117, whatever it holds. -/
def alloc (w : World) (bytes : List Byte) : World :=
  World.push { w with blocks := w.blocks ++ [⟨bytes, true⟩] } ⟨.resource, 0, 0, some w.blocks.length, true⟩

/-- `ByteReader(MemoryResource&)`, byteReader.hpp:71-75, and `ByteWriter(MemoryResource&)`, byteWriter.hpp:60-63: a stream
over the memory of a resource that keeps it. -/
def lend (w : World) (v : Nat) (k : Kind) : World :=
  match w.obj v with
  | some o => if o.kind = .resource ∧ k ≠ .resource then w.push ⟨k, 0, (w.bytes o).length, o.view, false⟩ else w
  | none => w

/-- `ByteReader(MemoryResource&&)`, byteReader.hpp:81-85, and `ByteWriter(MemoryResource&&)`, byteWriter.hpp:65-68. -/
def give (w : World) (v : Nat) (k : Kind) : World :=
  match w.obj v with
  | some o =>
    if o.kind = .resource ∧ k ≠ .resource then
      (w.put v (some o.moved)).push ⟨k, 0, (w.bytes o).length, o.view, o.owns⟩
    else w
  | none => w

/-- Move construction of each of the three, memoryResource.hpp:70-74, byteReader.hpp:58-62, byteWriter.hpp:54-58. -/
def move (w : World) (v : Nat) : World :=
  match w.obj v with
  | some o => (w.put v (some o.moved)).push o
  | none => w

/-- `swap`, and move assignment which is `swap`: memoryResource.hpp:76-78 and 90-96, byteReader.hpp:98-111,
byteWriter.hpp:80-92. -/
def swap (w : World) (u v : Nat) : World :=
  match w.obj u, w.obj v with
  | some a, some b => if a.kind = b.kind then (w.put u (some b)).put v (some a) else w
  | _, _ => w

/-- `ByteWriter::moveResource`, byteWriter.hpp:100-105. -/
def moveResource (w : World) (v : Nat) : World :=
  match w.obj v with
  | some o =>
    if o.kind = .writer then (w.put v (some o.moved)).push ⟨.resource, 0, 0, o.view, o.owns⟩ else w
  | none => w

/-- Destructor, memoryResource.hpp:57-61 (streams destroy their resource): a disposer is called with the view. Freeing null
does nothing. -/
def destroy (w : World) (v : Nat) : Outcome World :=
  match w.obj v with
  | none => .ok w
  | some o =>
    if o.owns then
      match o.view with
      | none => .ok (w.put v none)
      | some b =>
        match w.blocks[b]? with
        | some k => if k.alive then .ok (World.put { w with blocks := w.blocks.set b { k with alive := false } } v none) else .ub
        | none => .ub
    else .ok (w.put v none)

/-- Does the call move bytes out of the memory? -/
def reads (r : ReadCall) (op : ByteReader.Op) : Bool :=
  r.ret.toBool &&
  match op with
  | .get => true
  | .getAt _ => true
  | .read d => !d.isEmpty
  | .readAt _ d => !d.isEmpty
  | .readLE d => !d.isEmpty
  | .readBE d => !d.isEmpty
  | _ => false

/-- A call of a reader, with what it returns. -/
def readerCall (big : Bool) (w : World) (v : Nat) (op : ByteReader.Op) : Outcome (World × Option ReadCall) :=
  match w.obj v with
  | none => .ok (w, none)
  | some o =>
    if o.kind = .reader then
      (ByteReader.step big ⟨w.bytes o, o.position, o.limit⟩ op).bind fun r =>
        if reads r op && !w.alive o then .ub
        else .ok (w.put v (some { o with position := r.reader.position, limit := r.reader.limit }), some r)
    else .ok (w, none)

/-- Does the call store bytes? `write` copies before it looks at the limit, byteWriter.cpp:66-81. -/
def stores (big : Bool) (s : ByteWriter) (op : ByteWriter.Op) : Bool :=
  let src := match op with
    | .write d => d
    | .writeLE d => if big then ByteReader.swapBytes d else d
    | .writeBE d => if !big then ByteReader.swapBytes d else d
    | _ => []
  !src.isEmpty && !((MutableMemoryView.slice s.data.length s.position (wrap64 (s.position + src.length))).2 < src.length)

/-- A call of a writer, with what it returns: the block holds what the writer left. -/
def writerCall (big : Bool) (w : World) (v : Nat) (op : ByteWriter.Op) : Outcome (World × Option (Except Err Unit)) :=
  match w.obj v with
  | none => .ok (w, none)
  | some o =>
    if o.kind = .writer then
      let s : ByteWriter := ⟨w.bytes o, o.position, o.limit⟩
      if stores big s op && !w.alive o then .ub
      else
        let r := ByteWriter.step big s op
        let blocks := match o.view with
          | none => w.blocks
          | some b => match w.blocks[b]? with
            | some k => w.blocks.set b { k with bytes := r.1.data }
            | none => w.blocks
        .ok (World.put { w with blocks := blocks } v (some { o with position := r.1.position, limit := r.1.limit }), some r.2)
    else .ok (w, none)

inductive Op where
  | alloc (bytes : List Byte)
  | lend (v : Nat) (k : Kind)
  | give (v : Nat) (k : Kind)
  | move (v : Nat)
  | swap (u v : Nat)
  | moveResource (v : Nat)
  | destroy (v : Nat)
  | read (v : Nat) (op : ByteReader.Op)
  | write (v : Nat) (op : ByteWriter.Op)
deriving DecidableEq, Repr

def step (big : Bool) (w : World) : Op → Outcome World
  | .alloc b => .ok (alloc w b)
  | .lend v k => .ok (lend w v k)
  | .give v k => .ok (give w v k)
  | .move v => .ok (move w v)
  | .swap u v => .ok (swap w u v)
  | .moveResource v => .ok (moveResource w v)
  | .destroy v => destroy w v
  | .read v op => (readerCall big w v op).bind fun x => .ok x.1
  | .write v op => (writerCall big w v op).bind fun x => .ok x.1

def run (big : Bool) (w : World) : List Op → Outcome World
  | [] => .ok w
  | op :: ops => (step big w op).bind fun w' => run big w' ops

end Solace.Streams
