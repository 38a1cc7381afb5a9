import Verif.Model.Hashing
/-
`Sha3`, /repo/src/hashing/sha3.cpp: a stub.
-/
namespace Solace.Hash.Sha3

/-- `Sha3::Sha3()`, sha3.cpp:31-37. -/
def init : Ctx (List Word) := ⟨0, 0, List.replicate 8 0#32, List.replicate 64 0#8⟩

/-- `Sha3::update`, sha3.cpp:53-57: "Not implemented yet". -/
def update (c : Ctx (List Word)) (_ : List Byte) : Ctx (List Word) := c

/-- `Sha3::digest`, sha3.cpp:61-70. -/
def digest (h : Host) (c : Ctx (List Word)) : List Byte × Ctx (List Word) := (output h false 32 c.state, c)

/-- A new object, `update` for each piece, `digest`. -/
def hash (h : Host) (pieces : List (List Byte)) : List Byte := (digest h (pieces.foldl update init)).1

end Solace.Hash.Sha3
