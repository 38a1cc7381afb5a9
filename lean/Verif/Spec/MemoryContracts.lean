import Verif.Model.MemoryCalls
/-
The contracts of the memory functions of the C library, for C117.
-/
namespace Solace.MemCalls
open ViewObj (View Mem)

/-- C17 7.24.1p2: the pointers are valid even if the number of bytes is zero; 7.24.2.1: the regions of `memcpy` do not overlap. -/
def Call.Valid (c : Call) : Prop := c.a ≠ 0 ∧ c.b ≠ 0 ∧ (c.fn = .memcpy → c.a + c.n ≤ c.b ∨ c.b + c.n ≤ c.a)

/-- Every call meets its contract. -/
def Meets (cs : List Call) : Prop := ∀ c ∈ cs, c.Valid

/-- A view that the constructors can make: the null pointer has no bytes. -/
def Proper (v : View) : Prop := v.addr = 0 → v.size = 0

instance (v : View) : Decidable (Proper v) := inferInstanceAs (Decidable (v.addr = 0 → v.size = 0))

/-- What a call does to memory (comparisons do nothing); `value` is the byte given to `memset`. -/
def Call.effect (value : Byte) (c : Call) (m : Mem) : Outcome Mem :=
  match c.fn with
  | .memcpy | .memmove => ViewObj.memmove m c.a c.b c.n
  | .memset => ViewObj.memset m c.a value c.n
  | .memcmp | .strncmp => .ok m

def effects (value : Byte) : List Call → Mem → Outcome Mem
  | [], m => .ok m
  | c :: cs, m => c.effect value m >>= effects value cs

end Solace.MemCalls
