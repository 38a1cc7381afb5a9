import Verif.Conformance.Basic
import Verif.Model.ResultCompare
import Verif.Model.OptionalLifetime
import Verif.Model.ErrorDomain
/-
/repo/test/test_optional.cpp, test_result.cpp and test_error.cpp. A moved-from `MoveOnlyType` holds 0. The instances that the tests count
are the constructions less the destructions in the log of the model; the values that a test keeps in variables of its own are left out of
these counts.
-/
namespace Solace.Conformance.TestResults
open Solace

abbrev Simple := Int × Int × Int
def eqOf {α : Type} [DecidableEq α] (x y : α) : Bool := x == y
def neOf {α : Type} [DecidableEq α] (x y : α) : Bool := x != y
def pureEq {α : Type} [DecidableEq α] (x y : α) : Outcome Bool := .ok (x == y)
def moved (_ : Int) : Int := 0

/-! Optional -/
-- testSwap: 191-255
def two (a c : Option Int) : Opt.Store (Option Int) := fun i => if i = 0 then a else if i = 1 then c else none
def shown (s : Opt.Store (Option Int)) : Option Int × Option Int := (s 0, s 1)
#guard shown (Opt.swap moved (two none none) 0 1) = (none, none) && shown (Opt.swap moved (two none (some 3)) 0 1) = (some 3, none)
#guard throws (Opt.get (Opt.swap moved (two none (some 998)) 0 1 1)) && val (Opt.get (Opt.swap moved (two none (some 998)) 0 1 0)) = some 998
-- testEquals, testEqualsValues: 283-340
def o1 : Option Simple := some (1, 2, 3)
def o2 : Option Simple := some (3, 1, 1)
#guard Opt.eq eqOf true o1 o1 && Opt.eq eqOf false o1 o1 && !Opt.eq eqOf false o1 o2 && !Opt.eq eqOf false o2 o1
#guard Opt.eq eqOf false (none : Option Simple) none && !Opt.eq eqOf false o1 none && !Opt.eq eqOf false none o1
#guard Opt.ne neOf false o1 o2 && Opt.ne neOf false o2 o1 && Opt.ne neOf false o1 none && Opt.ne neOf false none o1
#guard !Opt.ne neOf true o1 o1 && !Opt.ne neOf false o1 o1
#guard Opt.eqValue eqOf (some (4 : Int)) 4 && Opt.neValue neOf (some (3 : Int)) 4 && Opt.eqValue eqOf (some (33 : Int)) 33 && Opt.neValue neOf (some (27 : Int)) 18
#guard Opt.eqValue eqOf o1 (1, 2, 3) && Opt.neValue neOf o2 (1, 2, 3)
-- testEmpty, testGetFromNoneRaises, testOrElse, testOrElseOperator
#guard throws (Opt.get (none : Option Int)) && Opt.orElse o1 (321, -1, 5) = (1, 2, 3) && Opt.orElse none (321, -1, 5) = ((321, -1, 5) : Simple)
#guard Res.optionalOr (none : Option Simple) (321, -1, 5) = (321, -1, 5) && Res.optionalOr (some ((7762, 2, -21) : Simple)) (321, -1, 5) = (7762, 2, -21)
-- testMap, mapWithFreeFunction, testFlatMap, testFilter, testMoveOnlyMapper
#guard Opt.map Opt.ofValue (fun (x : Int) => ((32 * x, 24, -3212) : Simple)) (some 18) = some (32 * 18, 24, -3212)
#guard Opt.orElse (Opt.map Opt.ofValue (fun (x : Simple) => x.1) none) 48 = 48 && Opt.map Opt.ofValue (· / 2) (some (1024 : Int)) = some 512
#guard Opt.flatMap (fun (x : Simple) => some (x.1 * 2)) (some (32, 72, -312)) = some 64
#guard Opt.orElse (Opt.flatMap (fun (x : Simple) => some (x.1 * 2)) none) 42 = 42
#guard (Opt.filter (fun (t : Int) => t > 20) (some 4412)).isSome && (Opt.filter (fun (t : Int) => t > 0) none).isNone
-- testMoveOnlyMove
#guard Opt.orElse ((Opt.flatMapMoving moved some (some (732 : Int))).2) (-9876) = 0 && (Opt.flatMapMoving moved some (some (732 : Int))).1 = some 732
-- the counts of testMoveConstructionOf, testConstruction, copyConstruct, testSwap, testMoveOnlyResult
open Payload in
def alive (l : List Lifetime.Event) : Int := (l.map fun | .construct _ => (1 : Int) | .destroy _ => -1 | _ => 0).sum
open Payload in
def counts (ops : List Op) : Int × Int := (alive (run ops).log, alive (program ops))
#guard counts [.newSome false] = (1, 0) && counts [.newNone] = (0, 0) && counts [.newSome false, .from 0 false] = (2, 0)
#guard counts [.newNone, .newNone, .swap 0 1] = (0, 0) && counts [.newNone, .newNone, .newSome false, .swap 1 2, .destroy 2] = (1, 0)
#guard counts [.newNone, .newNone, .newSome false, .swap 1 2, .destroy 2, .swap 0 1] = (1, 0)

/-! Result -/
-- testConstruction*, testErrorTypeCoersion, testValueTypeCoersion, testErrorCoersion, test_inpace_construtor
#guard Res.isOk (Res.make (.okOf 10) : Res.Res Int Unit) && Res.isError (Res.make (.errOf 675) : Res.Res Unit Int)
#guard val (Res.getError (Res.make (.errOf 675) : Res.Res Unit Int)) = some 675 && val (Res.unwrap (Res.make (.okOf 8832) : Res.Res Int Unit)) = some 8832
#guard val (Res.getError (Res.make (.error (3, 2, 1)) : Res.Res Unit Simple)) = some (3, 2, 1)
#guard val (Res.unwrap (Res.make (.value (3, 2, 1)) : Res.Res Simple Unit)) = some (3, 2, 1)
-- getResultOnErrorThrows, getErrorOnOkThrows, dereferencing*
#guard throws (Res.unwrap (.err 'e' : Res.Res Int Char)) && throws (Res.getError (.ok 32 : Res.Res Int Char)) && val (Res.unwrap (.ok 32 : Res.Res Int Char)) = some 32
-- testMoveAssignment, testSwap
def cells (a c : Res.Res Int Int) : Opt.Store (Res.Cell Int Int) := fun i => if i = 0 then .live a else if i = 1 then .live c else .dead
def swapped (a c : Res.Res Int Int) : Option (Res.Cell Int Int × Res.Cell Int Int) := (val (Res.swap moved moved (cells a c) 0 1)).map fun s => (s 0, s 1)
#guard swapped (.err 321) (.ok 3) = some (.live (.ok 3), .live (.err 321)) && swapped (.err 112) (.ok 42) = some (.live (.ok 42), .live (.err 112))
#guard counts [.newResult false false, .newResult true false, .swap 0 1] = (2, 0)
-- testVoidResult
#guard Res.voidIsOk (none : Option Int)
#guard Res.voidThen (fun _ => (.ok '!' : Res.Res Char Int)) none = ⟨.ok '!', [()], ()⟩
#guard (Res.voidThen (fun _ => (.err (-5) : Res.Res Char Int)) none).result = .err (-5)
-- testThen, testThenChaining
def f (isOk : Bool) : Res.Res Int String := if isOk then .ok 42 else .err "somthing wrong"
#guard (let r := Res.andThenMoving moved id (fun _ => (.ok 998 : Res.Res Int String)) (f true); r.calls == [42] && val (Res.unwrap r.result) == some 998)
#guard (let r := Res.andThenMoving moved id (fun _ => (.ok (-198) : Res.Res Int String)) (f false)
        let e := Res.orElse moved id (fun _ => (.ok (-776) : Res.Res Int String)) r.result
        r.calls == [] && e.calls == ["somthing wrong"] && val (Res.unwrap e.result) == some (-776))
#guard (Res.andThen (fun r => (.ok (r / 2) : Res.Res Int Simple)) (.ok 42)).result = .ok (42 / 2)
#guard (Res.orElse moved moved (fun x => (.ok (x + 2) : Res.Res Int Int)) (Res.andThen (fun r => .ok (r + 21)) (.err 18)).result).result = .ok 20
-- testThenComposition
def sq (x : Int) : Res.Res Int Int := .ok (x * x)
def er (_ : Int) : Res.Res Int Int := .err 33
def either (g h : Int → Res.Res Int Int) (r : Res.Res Int Int) : Res.Res Int Int := (Res.orElse moved moved h (Res.orElse moved moved g r).result).result
#guard val (Res.eqOk pureEq (either sq sq (.ok 2)) 2) = some true && val (Res.eqOk pureEq (either er sq (.ok 2)) 2) = some true
#guard val (Res.eqOk pureEq (either sq er (.err 33)) (33 * 33)) = some true && val (Res.eqErr pureEq (either er er (.err 33)) 33) = some true
-- testMapError
#guard (Res.mapError (fun x => if x = 112 then "Error is 112" else "Error is unknown") (.err (112 : Int) : Res.Res Int Int)).result = .err "Error is 112"
#guard val (Res.voidEq pureEq (some ((321, 1, 2) : Simple)) (Res.voidMapError (fun (x : Int) => ((x, 1, 2) : Simple)) (some 321)).result) = some true
-- testThenMovesObjects
#guard (Res.thenVoid moved id (.ok 112 : Res.Res Int Simple)).calls = [112] && (Res.thenVoid moved id (.ok 112 : Res.Res Int Simple)).result = none

/-! Error -/
#guard (let e : ErrorValue := ⟨1, Atom.atom (b "test"), b "Test"⟩; e.toBool && e.domain == Atom.atom (b "test") && e.tag == b "Test")

end Solace.Conformance.TestResults
