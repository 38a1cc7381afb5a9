import Verif.Model.Uuid
/-
Random UUIDs and UUIDs as values (/repo/src/uuid.cpp, /repo/include/solace/uuid.hpp).
-/
namespace Solace.Uuid

/-- `std::linear_congruential_engine<uint_fast32_t, a, 0, 2147483647>` (C++ standard [rand.eng.lcong]), of which
`std::default_random_engine` is an instance in libstdc++ (`minstd_rand0`, `a = 16807`) and libc++ (`minstd_rand`,
`a = 48271`). The state is the last value. -/
def modulus : Nat := 2147483647

/-- The state made from a seed. -/
def lcgSeed (seed : Nat) : Nat := if seed % modulus = 0 then 1 else seed % modulus

/-- `randomGen()`: the new state, which is also the value. -/
def lcgNext (a x : Nat) : Nat := a * x % modulus

/-- The object representation of an unsigned number of `w` bytes, the lowest byte first. -/
def leBytes : Nat → Nat → List Byte
  | 0, _ => []
  | w + 1, n => BitVec.ofNat 8 n :: leBytes w (n / 256)

/-- ... in the byte order of the host. -/
def wordBytes (big : Bool) (w n : Nat) : List Byte := if big then (leBytes w n).reverse else leBytes w n

/-- `memcpy(bytes + i, source, n)`: `none` outside of the array. -/
def copyTo (bytes : List Byte) (i : Nat) (source : List Byte) : Option (List Byte) :=
  if i + source.length ≤ bytes.length then some (bytes.take i ++ source ++ bytes.drop (i + source.length)) else none

/-- The loop of `makeRandomUUID`, uuid.cpp:195-199; `draw` advances the state of the engine and gives the object representation
of the value, of which `step` bytes are copied. The result is the place, the state and the array; running out of fuel is
`none`, a copy out of bounds `some .ub`. -/
def fillLoop {σ : Type} (draw : σ → σ × List Byte) (step : Nat) : Nat → Nat → σ → List Byte →
    Option (Outcome (Nat × σ × List Byte))
  | 0, _, _, _ => none
  | fuel + 1, i, s, bytes =>
    if i + step ≤ staticSize then
      match copyTo bytes i ((draw s).2.take step) with
      | none => some .ub
      | some b => fillLoop draw step fuel (i + step) (draw s).1 b
    else some (.ok (i, s, bytes))

/-- The rest of the array after the loop, uuid.cpp:201-204. -/
def fillRest {σ : Type} (draw : σ → σ × List Byte) : Nat × σ × List Byte → Outcome (List Byte)
  | (i, s, bytes) =>
    if i < staticSize then
      match copyTo bytes i ((draw s).2.take (staticSize - i)) with
      | none => .ub
      | some b => .ok b
    else .ok bytes

/-- The body of `makeRandomUUID` after the engine has been made, uuid.cpp:191-206; `stack` is the previous content of the local
array. -/
def fill {σ : Type} (draw : σ → σ × List Byte) (step fuel : Nat) (s : σ) (stack : List Byte) : Option (Outcome (List Byte)) :=
  (fillLoop draw step fuel 0 s stack).map fun o => o.bind (fillRest draw)

/-- `makeRandomUUID`, uuid.cpp:186-207: `device` is what the random device gives (`none`: it throws, which ends the program as
the function is `noexcept`), `w` is the size of `uint_fast32_t`. -/
def makeRandom (big : Bool) (a w fuel : Nat) (device : Option Nat) (stack : List Byte) : Option (Outcome (List Byte)) :=
  match device with
  | none => some .terminate
  | some seed => fill (fun x => (lcgNext a x, wordBytes big w (lcgNext a x))) w fuel (lcgSeed seed) stack

/-- UUID variables: the arrays `_bytes`, uuid.hpp:163. -/
abbrev Vars := List (List Byte)

/-- `vars[v]._bytes[k]`. -/
def cell (s : Vars) (v k : Nat) : Option Byte := (s[v]?).bind (·[k]?)

def put (s : Vars) (v k : Nat) (b : Byte) : Vars := s.modify v (·.set k b)

/-- `std::swap` of two arrays, used by `UUID::swap`, uuid.cpp:51-55: element by element (C++ standard [utility.swap] with
`swap_ranges`). The arguments are the number of elements left and the first of them. -/
def swapLoop : Nat → Nat → Vars → Nat → Nat → Option Vars
  | 0, _, s, _, _ => some s
  | n + 1, k, s, v, v' =>
    match cell s v k, cell s v' k with
    | some x, some y => swapLoop n (k + 1) (put (put s v k y) v' k x) v v'
    | _, _ => none

def swap (s : Vars) (v v' : Nat) : Option Vars := swapLoop staticSize 0 s v v'

/-- `UUID(rhs)`, uuid.cpp:36-43, copying and moving alike: a new variable at the end. -/
def construct (s : Vars) (v : Nat) : Option Vars := (s[v]?).map fun b => s ++ [b.take staticSize]

/-- `operator=(UUID&&)`, uuid.hpp:83-85. -/
def moveAssign (s : Vars) (v v' : Nat) : Option Vars := swap s v v'

/-- `operator=(UUID const&)`, uuid.hpp:87-91: a copy is made, swapped with the variable and destroyed. -/
def copyAssign (s : Vars) (v v' : Nat) : Option Vars :=
  match construct s v' with
  | none => none
  | some s' => (swap s' s.length v).map List.dropLast

/-- `operator[]`, uuid.cpp:72-84. -/
def index (u : List Byte) (i : Nat) : Outcome Byte :=
  if staticSize ≤ i then .throws
  else
    match u[i]? with
    | some b => .ok b
    | none => .ub

/-- `for (b : uuid)` with `begin` and `end`, uuid.hpp:118-134; the arguments are the number of elements left and the next. -/
def iterate (u : List Byte) : Nat → Nat → Outcome (List Byte)
  | 0, _ => .ok []
  | n + 1, i =>
    match u[i]? with
    | some b => (iterate u n (i + 1)).bind fun bs => .ok (b :: bs)
    | none => .ub

/-- `first` and `last`, uuid.hpp:136-137. -/
def first (u : List Byte) : Option Byte := u[0]?
def last (u : List Byte) : Option Byte := u[staticSize - 1]?

end Solace.Uuid
