import Verif.Model.Memory
/-
Specification vocabulary for memory: everything here is computed from the log of `malloc`/`free` calls only.
-/
namespace Solace.Memory

/-- Blocks obtained: (serial number, manager that asked, size). -/
def mallocs (log : List Event) : List (Nat × Nat × Nat) :=
  log.filterMap fun e => match e with | .malloc id m n => some (id, m, n) | .free _ => none

/-- Serial numbers passed to `free`, in order. -/
def frees (log : List Event) : List Nat :=
  log.filterMap fun e => match e with | .malloc _ _ _ => none | .free id => some id

/-- Blocks obtained and not yet given back. -/
def live (log : List Event) : List (Nat × Nat × Nat) := (mallocs log).filter fun t => t.1 ∉ frees log

/-- Total size of the blocks that manager `m` obtained and that were not given back. -/
def outstanding (m : Nat) (log : List Event) : Nat :=
  (((live log).filter fun t => t.2.1 = m).map fun t => t.2.2).sum

end Solace.Memory
