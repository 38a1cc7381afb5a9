import Verif.Model.ErrorDomain
/-
The start of a program, as far as the error domain registry is concerned: the dynamic initialisers of the translation units run in
an order that C++ leaves open ([basic.start.dynamic]). `kErrorDomainMap` (/repo/src/errorDomain.cpp:43) has one of them, `rego`
(/repo/src/systemErrorDomain.cpp:54) another, and every translation unit of the program that registers a domain of its own has
further ones. `kSystemCatergory` (systemErrorDomain.cpp:30) is initialised by a constant expression before all of them.

Until its initialiser has run the map is memory filled with zeros and its lifetime has not begun: by the letter a call of its
member functions is undefined behaviour (`start`). What the zeros amount to is the second reading (`startZeroed`): two vectors
without memory, in which every `put` fails, and which the initialiser then overwrites.
-/
namespace Solace.Startup
open ErrorDomains
variable {D : Type}

/-- A dynamic initialiser: of the map (errorDomain.cpp:43), or one that registers a domain (systemErrorDomain.cpp:54). -/
inductive Init (D : Type) where
  | map
  | register (id : BitVec 64) (d : D)
deriving DecidableEq, Repr

/-- One initialiser; `none` as long as the map's lifetime has not begun. -/
def step (s : Option (Dict (BitVec 64) D)) : Init D → Outcome (Option (Dict (BitVec 64) D))
  | .map => .ok (some registry)
  | .register id d =>
    match s with
    | none => .ub
    | some m =>
      match register m id d with
      | (m', .ok _) => .ok (some m')
      | (_, .throws) => .throws
      | (_, .terminate) => .terminate
      | (_, .ub) => .ub

/-- The initialisers in the order in which they run. -/
def start : Option (Dict (BitVec 64) D) → List (Init D) → Outcome (Option (Dict (BitVec 64) D))
  | s, [] => .ok s
  | s, i :: is => step s i >>= fun s' => start s' is

/-- The map in memory filled with zeros: vector.hpp:293-294 and memoryResource.hpp:98-101 all zero. -/
def zeroed : Dict (BitVec 64) D := ⟨.empty, .empty⟩

/-- One initialiser, the zeros taken for a map. -/
def stepZeroed (m : Dict (BitVec 64) D) : Init D → Dict (BitVec 64) D
  | .map => registry
  | .register id d => (register m id d).1

def startZeroed (is : List (Init D)) : Dict (BitVec 64) D := is.foldl stepZeroed zeroed

end Solace.Startup
