import Verif.Model.Basic
/-
`FixedSizeDigest<Size>` (/repo/include/solace/hashing/fixedSizeDigest.hpp:29-54): the sizes it reports. Its bytes are private and
nothing sets or reads them; `hash(uint32)` (line 57-58) is declared and nowhere defined.
-/
namespace Solace.Hash.Fixed

/-- `size()`, fixedSizeDigest.hpp:46-48: a `size_t` given as a `uint32`. -/
def size (n : Nat) : Nat := wrap32 n

/-- `getDigestLength()`, fixedSizeDigest.hpp:38-40: the product of a `uint32` and an `int` is a `uint32`. -/
def digestLength (n : Nat) : Nat := wrap32 (size n * 8)

end Solace.Hash.Fixed
