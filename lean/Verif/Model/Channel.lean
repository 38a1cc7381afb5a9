import Verif.Model.ByteWriter
/-
A `ByteWriter` and a `ByteReader` over the same memory: what the writer puts there is what the reader finds. The models of the two classes take the
memory as a part of the object; here it is one, and each call is given the memory as it is then.

The program of the caller is a list of the calls below. The bytes given to `put` and the destinations of `take` are outside of the memory.
-/
namespace Solace.Channel

/-- The memory, `_position` and `_limit` of the writer (byteWriter.hpp:262-265) and of the reader (byteReader.hpp:260-263). -/
structure Chan where
  mem : List Byte
  wpos : Nat
  wlim : Nat
  rpos : Nat
  rlim : Nat
deriving DecidableEq, Repr

def Chan.writer (c : Chan) : ByteWriter := ⟨c.mem, c.wpos, c.wlim⟩
def Chan.reader (c : Chan) : ByteReader := ⟨c.mem, c.rpos, c.rlim⟩

/-- After a call of the writer, which may change the memory. -/
def Chan.written (c : Chan) (w : ByteWriter) : Chan := ⟨w.data, w.position, w.limit, c.rpos, c.rlim⟩

/-- After a call of the reader, which does not write. -/
def Chan.readBy (c : Chan) (r : ByteReader) : Chan := ⟨c.mem, c.wpos, c.wlim, r.position, r.limit⟩

/-- `ByteWriter w{view}; ByteReader r{view}; r.limit(0);`: byteWriter.hpp:73-76, byteReader.hpp:91-95, byteReader.cpp:29-38. -/
def start (mem : List Byte) : Chan :=
  let w := ByteWriter.ofBuffer mem
  let r := ((ByteReader.ofView mem).setLimit 0).reader
  ⟨mem, w.position, w.limit, r.position, r.limit⟩

/-- What the caller learns: whether the call succeeded and the bytes it got. -/
structure Reply where
  good : Bool
  bytes : List Byte
deriving DecidableEq, Repr

inductive Call where
  /-- `w.write(view)` or `w.write(value)` -/
  | put (bytes : List Byte)
  /-- `w.limit(n)` -/
  | bound (n : Nat)
  /-- `r.limit(w.position())`: let the reader see what has been written. -/
  | publish
  /-- `r.read(dest)`, `dest` as it was -/
  | take (dest : List Byte)
  /-- `r.get()` -/
  | get
  /-- `r.advance(n)` -/
  | skip (n : Nat)
  /-- Make room: `r.limit(w.position()); auto rest = r.viewRemaining(); w.clear(); w.write(rest); r.rewind(); r.limit(w.position());`. The bytes are
  moved within the memory with `memmove` (byteWriter.cpp:78), which takes all of them before it stores any. -/
  | compact
deriving DecidableEq, Repr

/-- `r.limit(w.position())`. -/
def publish (c : Chan) : Chan × Bool :=
  let r := c.reader.setLimit c.wpos
  (c.readBy r.reader, r.ret.toBool)

def compact (c : Chan) : Chan × Reply :=
  let (c, a) := publish c
  let rest := c.reader.viewRemaining
  let c := c.written c.writer.clear.1
  let (w, b) := c.writer.write rest
  let c := c.written w
  let c := c.readBy c.reader.rewind.reader
  let (c, d) := publish c
  (c, ⟨a && b.toBool && d, []⟩)

/-- One call. -/
def step (c : Chan) : Call → Outcome (Chan × Reply)
  | .put bytes =>
    let (w, r) := c.writer.write bytes
    .ok (c.written w, ⟨r.toBool, []⟩)
  | .bound n =>
    let (w, r) := c.writer.setLimit n
    .ok (c.written w, ⟨r.toBool, []⟩)
  | .publish =>
    let (c, r) := publish c
    .ok (c, ⟨r, []⟩)
  | .take dest =>
    let r := c.reader.read dest
    .ok (c.readBy r.reader, ⟨r.ret.toBool, r.dest⟩)
  | .get => do
    let r ← c.reader.get
    pure (c.readBy r.reader, match r.ret with
      | .ok b => ⟨true, b.toList⟩
      | .error _ => ⟨false, []⟩)
  | .skip n =>
    let r := c.reader.advance n
    .ok (c.readBy r.reader, ⟨r.ret.toBool, []⟩)
  | .compact => .ok (compact c)

/-- A program, with all replies. -/
def run (c : Chan) : List Call → Outcome (Chan × List Reply)
  | [] => .ok (c, [])
  | k :: ks => do
    let (c, r) ← step c k
    let (c, rs) ← run c ks
    pure (c, r :: rs)

end Solace.Channel
