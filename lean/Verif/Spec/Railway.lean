import Verif.Model.ResultVoid
/-
What a chain of handlers should do, without results: the chain is on the value track (with or without a value) or on the error track.
-/
namespace Solace.Railway
open Solace.Res

inductive Track (V E : Type) where
  | good (v : Option V)
  | bad (e : E)
deriving DecidableEq, Repr

/-- The argument a `then` handler gets. -/
def given : Option V → Arg V E
  | none => .unit
  | some v => .value v

def ofRes : Res V E → Track V E
  | .ok v => .good (some v)
  | .err e => .bad e
def ofVoidRes : Option E → Track V E
  | none => .good none
  | some e => .bad e

/-- Where a result is. -/
def of : Any V E → Track V E
  | .val r => ofRes r
  | .void r => ofVoidRes r

/-- Is it the handler for values? -/
def onValues : Stage V E → Bool
  | .thenRes _ | .thenResVoid _ | .thenValue _ | .thenVoid => true
  | _ => false

/-- What the handler of a stage for values returns. -/
def answer : Stage V E → Option V → Track V E
  | .thenRes f, v => ofRes (f v)
  | .thenResVoid f, v => ofVoidRes (f v)
  | .thenValue f, v => .good (some (f v))
  | _, _ => .good none

/-- What the handler of a stage for errors returns; `valued`: does the result it belongs to have a value type? -/
def remedy (valued : Bool) : Stage V E → E → Track V E
  | .orElseRes f g, e => if valued then ofRes (f e) else ofVoidRes (g e)
  | .orElseValue f, e => if valued then .good (some (f e)) else .good none
  | .mapError f, e => .bad (f e)
  | _, e => .bad e

/-- Does the result of the stage have a value type? -/
def valuedAfter (valued : Bool) : Stage V E → Bool
  | .thenRes _ | .thenValue _ => true
  | .thenResVoid _ | .thenVoid => false
  | _ => valued

/-- The chain: stages for values work on the value track, stages for errors on the error track, all others pass on what they get. -/
def ride : Bool → List (Stage V E) → Track V E → Track V E × List (Arg V E)
  | _, [], t => (t, [])
  | b, s :: rest, .good v =>
    if onValues s then let r := ride (valuedAfter b s) rest (answer s v); (r.1, given v :: r.2)
    else ride (valuedAfter b s) rest (.good v)
  | b, s :: rest, .bad e =>
    if onValues s then ride (valuedAfter b s) rest (.bad e)
    else let r := ride (valuedAfter b s) rest (remedy b s e); (r.1, .error e :: r.2)

def isVal : Any V E → Bool
  | .val _ => true
  | .void _ => false

end Solace.Railway
