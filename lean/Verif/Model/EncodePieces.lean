import Verif.Model.Base16
import Verif.Model.Base64
/-
One encoder or decoder object used for several memory views in turn: it keeps a pointer to its destination and nothing else
(/repo/include/solace/encoder.hpp:46-48, 79-81), so each call starts where the previous one left the destination. The caller stops
at the first error.
-/
namespace Solace.Coder

/-- `encode(view)` for each view in turn, with an encoder. -/
def inTurn (enc : ByteWriter → List Byte → ByteWriter.Call) : ByteWriter → List (List Byte) → ByteWriter.Call
  | dest, [] => (dest, .ok ())
  | dest, p :: ps =>
    match enc dest p with
    | (dest', .ok _) => inTurn enc dest' ps
    | (dest', .error e) => (dest', .error e)

/-- The same with a decoder, whose calls may be undefined. -/
def inTurnO (dec : ByteWriter → List Byte → Outcome ByteWriter.Call) : ByteWriter → List (List Byte) → Outcome ByteWriter.Call
  | dest, [] => .ok (dest, .ok ())
  | dest, p :: ps =>
    match dec dest p with
    | .ok (dest', .ok _) => inTurnO dec dest' ps
    | .ok (dest', .error e) => .ok (dest', .error e)
    | .throws => .throws
    | .terminate => .terminate
    | .ub => .ub

end Solace.Coder
