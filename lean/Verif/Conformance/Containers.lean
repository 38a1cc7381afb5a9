import Verif.Conformance.Basic
import Verif.Model.Dictionary
import Verif.Model.DictionaryIteration
import Verif.Model.Array
import Verif.Model.ArrayFactory
import Verif.Model.ArrayView
import Verif.Model.VariableSpan
/-
/repo/test/test_vector.cpp, test_array.cpp, test_arrayView.cpp, test_dictionary.cpp and test_variableSpan.cpp. The type `SimpleType` of
the tests has three `int` members (12 bytes). The number of instances that the tests count is the number of constructions less the number
of destructions in the log of the model.
-/
namespace Solace.Conformance.TestContainers
open Solace Lifetimes

def plenty (_ : Nat) : Bool := true
abbrev Simple := Int × Int × Int

/-! Vector -/
def vok {α : Type} (r : Except Err α) : Option α := ok? r
def mkv (n : Nat) : Vec Simple := ((ok? (Dict.makeVector plenty 12 n)).getD .empty)
def push (v : Vec Simple) (x : Simple) : Vec Simple × Option Bool :=
  let r := Vec.emplaceBack 12 v (some x); (r.1, (val r.2).map fun e => (ok? e).isSome)
def pushAll (v : Vec Simple) (l : List Simple) : Vec Simple := l.foldl (fun v x => (push v x).1) v

-- testEmptyIntegralVectorIsEmpty, factoryIntergralVectorWithCapacity, emptyVectorEmplaceFails, 29-77
#guard (Vec.empty : Vec Simple).next = 0 && Vec.capacity 4 (Vec.empty : Vec Nat) = 0
#guard (ok? (Dict.makeVector plenty 4 10 : Except Err (Vec Nat))).map (fun v => (Vec.capacity 4 v, v.next)) = some (10, 0)
#guard (push .empty (3, 2, 1)).2 = some false
-- emplaceBackResults, emplaceBack, emplaceOverflowThrows, 79-155
def three : List Simple := [(3, 2, 1), (2, 1, 0), (1, 0, -1)]
#guard (pushAll (mkv 10) three).next = 3 && Vec.capacity 12 (pushAll (mkv 10) three) = 10
#guard val (Vec.index 12 (pushAll (mkv 2) [(3, 2, 1)]) 0) = some (3, 2, 1)
#guard (push (mkv 3) (3, 2, 1)).2 = some true && (push (pushAll (mkv 3) three) (1, 0, -1)).2 = some false
-- constructionFromInitializerList, constructionFromVarArgs, copy, 209-277
#guard ((val (Vec.makeOf plenty 12 three)).bind ok?).map (fun v => (Vec.capacity 12 v, v.next, Vec.shown 12 v)) == some (3, 3, three.map some)
#guard [false, true].all fun memcpy =>
  ((val (Vec.makeVectorFrom plenty memcpy 12 36 three)).bind ok?).map (fun v => (Vec.capacity 12 v, v.next, Vec.shown 12 v)) ==
    some (3, 3, three.map some)
-- interatingOverEmptyVector, interationNoMutation, 279-318
#guard Vec.shown 12 (.empty : Vec Simple) = [] && Vec.shown 12 (pushAll (mkv 3) three) = three.map some
-- popBack, clear, 342-401
def five := pushAll (mkv 10) [(3, 2, 1), (2, 1, 0), (1, 0, -1), (2, 1, 0), (3, 2, 1)]
def pop (v : Vec Simple) : Option (Vec Simple) := (val (Vec.popBack 12 v)).map (·.1)
#guard (pop five).map (fun v => (v.next, val (Vec.index 12 v 3))) = some (4, some (2, 1, 0))
#guard ((pop five).bind pop).map (fun v => (v.next, val (Vec.index 12 v 2))) = some (3, some (1, 0, -1))
#guard ((Vec.clearLoop 12 9 five).bind val).map (fun r => (r.1.next, r.2.length)) = some (0, 5)
-- toArray, 450-507
#guard (Vec.toArray (pushAll (mkv 4) three)).1.next = 3 && (Vec.toArray (pushAll (mkv 4) three)).2 = .empty

/-- The instances alive after some operations, and after the end of the scope. -/
def alive (l : List Lifetime.Event) : Int :=
  (l.map fun | .construct _ => (1 : Int) | .destroy _ => -1 | _ => 0).sum
def legal (w : World) : Bool := !w.log.contains .destroyRaw
def counts (ops : List Op) : Int × Int × Bool :=
  let w := run 12 .init ops
  let e := run 12 w (closing w)
  (alive w.log, alive e.log, legal e)
-- the counts expected in emplaceBackResults, emplaceBack, emplaceOverflowThrows, movedFromVectorIsEmpty, constructionFrom*, copy, popBack,
-- clear, moveOnlyTypes, toArray
#guard counts [.newVector 10] = (0, 0, true)
#guard counts [.newVector 2, .emplaceBack 0 false] = (1, 0, true)
#guard counts [.newVector 10, .emplaceBack 0 false, .emplaceBack 0 false, .emplaceBack 0 false] = (3, 0, true)
#guard counts [.newVector 3, .emplaceBack 0 false, .emplaceBack 0 false, .emplaceBack 0 false, .emplaceBack 0 false] = (3, 0, true)
#guard counts [.newVector 10, .emplaceBack 0 false, .emplaceBack 0 false, .emplaceBack 0 false, .moveCtor 0] = (3, 0, true)
#guard ((run 12 .init [.newVector 10, .emplaceBack 0 false, .moveCtor 0]).vars.map fun v => v.map fun x => (Vec.capacity 12 x.store, x.store.next)) =
  [some (0, 0), some (10, 1)]
#guard counts [.newVectorOf 3 []] = (3, 0, true) && counts [.newVectorOf 3 [], .newVectorOf 3 []] = (6, 0, true)
def fivePushed : List Op := [.newVector 10, .emplaceBack 0 false, .emplaceBack 0 false, .emplaceBack 0 false, .emplaceBack 0 false, .emplaceBack 0 false]
#guard counts fivePushed = (5, 0, true) && counts (fivePushed ++ [.popBack 0]) = (4, 0, true)
#guard counts (fivePushed ++ [.popBack 0, .popBack 0]) = (3, 0, true) && counts (fivePushed ++ [.clear 0]) = (0, 0, true)
#guard counts [.newVectorOf 4 [], .toArray 0] = (4, 0, true)
-- test_array.cpp: testDeallocationWhenElementConstructorThrows, 780-787
#guard counts [.newArray 10 [6]] = (0, 0, true)

/-! Array -/
def arr (l : List Int) : Vec Int := (((val (Vec.makeOf plenty 4 l)).bind ok?).getD .empty)
-- testEmpty, testBasics, testInitializerList, testFromNativeConvertion, 133-390
#guard (ok? (Vec.makeArray plenty 4 0 (0 : Int))).map (fun a => (a.next, Vec.arrayEmpty a)) = some (0, true)
#guard (ok? (Vec.makeArray plenty 4 7 (0 : Int))).map (fun a => (a.next, Vec.shown 4 a)) = some (7, List.replicate 7 (some 0))
#guard Vec.shown 4 (arr [0, 1, 2, 3]) = [some 0, some 1, some 2, some 3] && (arr [0, 1, 2, 3]).next = 4
#guard [false, true].all fun memcpy =>
  ((val (Vec.makeArrayFrom plenty memcpy 4 4 [(0 : Int), 1, 2, 3])).bind ok?).map (Vec.shown 4) == some [some 0, some 1, some 2, some 3]
-- testEquals, 458-620
def same (a c : Vec Int) : Option Bool := val (Vec.equals 4 (· == ·) false a c)
#guard same (arr [1, 2, 3]) (arr [1, 2, 3]) = some true && same (arr [1, 2, 3]) (arr [1, 2]) = some false
#guard same (arr [1, 2, 3]) (arr [1, 2, 4]) = some false && same (arr []) (arr []) = some true
#guard val (Vec.equalsList 4 (· == ·) (arr [1, 2, 3]) [1, 2, 3]) = some true
#guard val (Vec.equalsList 4 (· == ·) (arr [1, 2, 3]) [1, 2]) = some false

/-! ArrayView: the elements are objects of 4 (`int`) or 12 bytes (`SimpleType`) -/
def int (n : Int) : List Byte := hostRepr false 4 (n % 2 ^ 32).toNat
def view (address : Nat) (l : List Int) : ArrayView := ⟨address, l.flatMap int⟩
def eqb (a c : List Byte) : Bool := a == c
def odd (n : Nat) : List Int := (List.range n).map fun (i : Nat) => 2 * (i : Int) - 1
def even (n : Nat) : List Int := (List.range n).map fun (i : Nat) => 2 * (i : Int) + 2928
-- testEmpty, testConstructionFromMemoryResource, dataTypesFitness, dataTypeNotFitting, sizeNarrowing
#guard ArrayView.size 4 ⟨0, []⟩ = 0
#guard ArrayView.size 1 ⟨64, List.replicate 32 0#8⟩ = 32 && ArrayView.size 4 ⟨64, List.replicate 32 0#8⟩ = 8
#guard ArrayView.size 12 ⟨64, List.replicate 12 0#8⟩ = 1 && ArrayView.size 12 ⟨64, List.replicate (12 + 6) 0#8⟩ = 1
#guard ArrayView.size 16 ⟨64, List.replicate (16 * 3 + 8) 0#8⟩ = 3
-- testCopyConstruction, testCopy
#guard (List.range 16).all fun i => val ((view 64 (odd 16)).index 4 i) == some (int (2 * i - 1))
-- testEquals_EmptyArray, testEquals_IntegralType
#guard ArrayView.equals 4 eqb ⟨0, []⟩ ⟨0, []⟩ && !ArrayView.equals 4 eqb (view 64 (odd 32)) ⟨0, []⟩
#guard ArrayView.equals 4 eqb (view 64 (odd 32)) (view 64 (odd 32)) && ArrayView.equals 4 eqb (view 64 (odd 32)) (view 512 (odd 32))
#guard !ArrayView.equals 4 eqb (view 64 (odd 32)) (view 512 (odd 24)) && !ArrayView.equals 4 eqb (view 512 (odd 24)) (view 64 (odd 32))
#guard !ArrayView.equals 4 eqb (view 64 (odd 32)) (view 512 (even 32)) && !ArrayView.equals 4 eqb (view 512 (even 32)) (view 64 (odd 32))
-- testIndexOf, testContains
#guard ArrayView.indexOf 4 eqb (view 64 (odd 16)) (int (2 * 4 - 1)) = some 4
#guard (ArrayView.indexOf 12 eqb (view 64 (odd 16)) (int 5 ++ int 7 ++ int 9)).isSome
#guard ArrayView.indexOf 4 eqb (view 64 (odd 16)) (int (3 * 4 + 128)) = none && ArrayView.indexOf 4 eqb ⟨0, []⟩ (int 5) = none
#guard ArrayView.indexOf 12 eqb (view 64 (odd 16)) (int 3 ++ int 2 ++ int 1) = none
def plus3 : List Int := (List.range 24).map fun (i : Nat) => 2 * (i : Int) + 3
#guard !ArrayView.contains 4 eqb ⟨0, []⟩ (int 5) && ArrayView.contains 4 eqb (view 64 plus3) (int (2 * 9 + 3))
#guard !ArrayView.contains 4 eqb (view 64 plus3) (int (-41)) && ArrayView.contains 12 eqb (view 64 plus3) (int 15 ++ int 17 ++ int 19)
-- testFillWithConstValue, testFillWithGenerator
#guard ArrayView.fill 4 (view 64 plus3) (int 42) = view 64 (List.replicate 24 42)
#guard ArrayView.fillWith 4 (view 64 plus3) (fun i => int (2 * i - 187)) = view 64 ((List.range 24).map fun (i : Nat) => 2 * (i : Int) - 187)
-- slice, for both kinds of views
def upTo : List Int := (List.range 24).map Int.ofNat
#guard [ArrayView.slice, ArrayView.sliceMut].all fun sl =>
  (sl 4 (view 64 upTo) 0 24).size 4 == 24 && ArrayView.equals 4 eqb (view 64 upTo) (sl 4 (view 64 upTo) 0 24) &&
  (sl 4 (view 64 upTo) 12 22).mem == (view 0 ((upTo.drop 12).take 10)).mem &&
  (sl 4 (view 64 upTo) 12 12).size 4 == 0 && (sl 4 (view 64 upTo) 128 300).size 4 == 0 && (sl 4 (view 64 upTo) 10 300).size 4 == 14 &&
  (sl 4 (view 64 upTo) 128 21).size 4 == 0 && (sl 4 (view 64 upTo) 21 7).size 4 == 0
-- testForEach_byMutRef (test_array.cpp), testForEachIndexed
#guard (view 64 [1, 2, 3]).forEach 4 (fun x => if x = int 1 then int 8 else x) = view 64 [8, 2, 3]
#guard ((view 64 [1, 2, 3, 4, 5, 6]).forEachIndexed 4 (fun i x => if x = int (i + 1) then [] else x)).2 = List.replicate 6 []
-- test_array.cpp: testSet, settingOutOfBoundsThrows
#guard ((view 64 [1, 2, 3]).set 4 1 (int 9)).1 = view 64 [1, 9, 3]
#guard throws ((view 64 [1, 2, 3]).set 4 3 (int 9)).2 && throws ((view 64 [1, 2, 3]).index 4 3)

/-! Dictionary -/
def dict (n : Nat) : Dict Int Simple := (ok? (Dict.make plenty plenty 4 12 n)).getD ⟨.empty, .empty⟩
def putAll (d : Dict Int Simple) (l : List (Int × Simple)) : Dict Int Simple :=
  l.foldl (fun d x => (Dict.put 4 12 d (some x.1) (some x.2)).1) d
def entries : List (Int × Simple) := [(-1, (1, 2, 3)), (13, (2, 3, 4)), (17, (3, 4, 5))]
-- testEmptyIntegralDictionaryIsEmpty, factoryIntergralWithCapacity, addIntoEmptyCollectionFails, addIntoNonEmptyCollection, 29-122
#guard Dict.empty (⟨.empty, .empty⟩ : Dict Int Simple) && Dict.capacity 12 (⟨.empty, .empty⟩ : Dict Int Simple) = 0
#guard Dict.capacity 12 (dict 10) = 10 && Dict.empty (dict 10) && Dict.size (dict 10) = 0
#guard ((val (Dict.put 4 12 (⟨.empty, .empty⟩ : Dict Int Simple) (some 212) (some (1, 2, 3))).2).map fun r => (ok? r).isSome) = some false
#guard Dict.size (putAll (dict 10) (entries.take 1)) = 1 && Dict.size (putAll (dict 10) (entries.take 2)) = 2
-- containsDataType, containsUsingCustomKey, 125-166
def threeKeys := putAll (dict 3) [(0, (99888, 2, 3)), (321, (1, 2, 3)), (17, (3, 0, 0))]
#guard val (threeKeys.contains 4 321) = some true && val (threeKeys.contains 4 17) = some true && val (threeKeys.contains 4 18) = some false
-- forEachValue, iterateForeach, find, 169-274
#guard Vec.shown 12 (putAll (dict 3) entries).values = entries.map fun e => some e.2
#guard Vec.shown 4 (putAll (dict 3) entries).lookup = entries.map fun e => some e.1
#guard ((putAll (dict 3) entries).iterate 9 4 12).bind val = some entries
#guard val ((putAll (dict 3) entries).find 4 32) = some none && val ((putAll (dict 3) entries).find 4 13) = some (some (2, 3, 4))
-- constructionThrow, 233-251
#guard (let r := Dict.put 4 12 (putAll (dict 3) [(81, (1, 0, 0))]) (some 12) none; throws r.2 && r.1.lookup.next == 1 && r.1.values.next == 1)

/-! VariableSpan, on hosts of both byte orders; `StringView::size_type` has two bytes -/
def span (host : Bool) (l : List String) (room : Nat) : List Byte :=
  let w := l.foldl (fun w m => ((ByteWriter.write w (hostRepr host 2 (b m).length)).1.write (b m)).1) (ByteWriter.ofBuffer (List.replicate room 0xCD#8))
  w.data
#guard [false, true].all fun host => ((VariableSpan.Iter.mk 0 [0#8]).collect host 2 .natural 9 []).bind val == some []
#guard [false, true].all fun host =>
  ((VariableSpan.Iter.mk 1 (span host ["hello"] 32)).deref host 2 .natural) == .ok (b "hello")
#guard [false, true].all fun host =>
  ((VariableSpan.Iter.mk 3 (span host ["one", "world", "hello"] 128)).collect host 2 .natural 9 []).bind val == some [b "one", b "world", b "hello"]

end Solace.Conformance.TestContainers
