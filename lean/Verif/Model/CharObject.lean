import Verif.Model.Char
/-
`Char` as an object, /repo/include/solace/char.hpp and /repo/src/char.cpp: its five bytes, copying, swapping and the C string.

Model/Char represents a character by the four bytes of `_value`. The union (char.hpp:266-269) has a fifth byte, `_bytes[4]`, which is not
part of `_value`: constructors that write `_value` leave it as it was, `none` here (reading it is undefined).
-/
namespace Solace.CharObj

structure Obj where
  chr : Chr
  fifth : Option Byte
deriving DecidableEq, Repr

/-- `Char()`, char.hpp:45-48. -/
def ofNothing : Obj := ⟨⟨[0#8, 0#8, 0#8, 0#8]⟩, none⟩

/-- `Char(byte)`, char.hpp:51-56. -/
def ofByte (c : Byte) : Obj := ⟨.ofByte c, none⟩

/-- `Char(char)`, src/char.cpp:42-45: `memset` of all five bytes. -/
def ofChar (c : Byte) : Obj := ⟨.ofByte c, some 0#8⟩

/-- `Char(value_type)`, src/char.cpp:36-40. -/
def ofValue (big : Bool) (v : Nat) : Obj := ⟨.ofValue big v, none⟩

/-- `Char(MemoryView)`, src/char.cpp:48-56. -/
def ofBytes (bs : List Byte) : Outcome Obj := do
  let c ← Chr.ofBytes bs
  pure ⟨c, some ((bs[4]?).getD 0#8)⟩

/-- `Char(Char const&)` and `Char(Char&&)`, char.hpp:65-74: the value only; the source keeps its value. -/
def copy (o : Obj) : Obj := ⟨o.chr, none⟩

/-- Reading `c_str()`, src/char.cpp:77-79, as a C string: up to the first zero byte; behind `_bytes[4]` is not the object's memory. -/
def cStr (o : Obj) : Outcome (List Byte) :=
  if 0#8 ∈ o.chr.bytes then .ok (o.chr.bytes.takeWhile (· ≠ 0#8))
  else
    match o.fifth with
    | some b => if b = 0#8 then .ok o.chr.bytes else .ub
    | none => .ub

/-- Variables. -/
abbrev Store := List Obj

/-- `swap`, src/char.cpp:59-63: `std::swap` of the values. -/
def swap (s : Store) (i j : Nat) : Store :=
  match s[i]?, s[j]? with
  | some a, some b => (s.set i { a with chr := b.chr }).modify j fun o => { o with chr := a.chr }
  | _, _ => s

/-- `operator=(Char const&)`, char.hpp:179-183: a temporary copy is swapped in. -/
def assignCopy (s : Store) (i j : Nat) : Store :=
  match s[i]?, s[j]? with
  | some _, some b => s.modify i fun o => { o with chr := (copy b).chr }
  | _, _ => s

/-- `operator=(Char&&)`, char.hpp:186-188. -/
def assignMove (s : Store) (i j : Nat) : Store := swap s i j

inductive Op where
  | nothing
  | byte (c : Byte)
  | char (c : Byte)
  | value (v : Nat)
  | bytes (bs : List Byte)
  | copy (i : Nat)
  | swap (i j : Nat)
  | assignCopy (i j : Nat)
  | assignMove (i j : Nat)
deriving DecidableEq, Repr

def step (big : Bool) (s : Store) : Op → Outcome Store
  | .nothing => .ok (s ++ [ofNothing])
  | .byte c => .ok (s ++ [ofByte c])
  | .char c => .ok (s ++ [ofChar c])
  | .value v => .ok (s ++ [ofValue big v])
  | .bytes bs => do
    let o ← ofBytes bs
    pure (s ++ [o])
  | .copy i =>
    match s[i]? with
    | some o => .ok (s ++ [CharObj.copy o])
    | none => .ok s
  | .swap i j => .ok (CharObj.swap s i j)
  | .assignCopy i j => .ok (CharObj.assignCopy s i j)
  | .assignMove i j => .ok (CharObj.assignMove s i j)

def run (big : Bool) (s : Store) : List Op → Outcome Store
  | [] => .ok s
  | op :: ops => step big s op >>= fun s' => run big s' ops

end Solace.CharObj
