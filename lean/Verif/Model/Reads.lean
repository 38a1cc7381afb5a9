import Verif.Model.StringView
/-
Which characters the functions of StringView look at, and in which order (/repo/src/stringView.cpp, /repo/include/solace/stringView.hpp). The
functions are those of `Verif.Model.StringView`, written out with the list of the accesses `_data[i]`. `here i` is an access to the characters
of the view the function is called for, `there i` to those of its argument. What `strncmp` of the C library reads, and the reads of the
callbacks of `split`, are not recorded.
-/
namespace Solace.Reads
open StringView

inductive Access where
  | here (i : Nat)
  | there (i : Nat)
deriving DecidableEq, Repr

/-- The accesses of `x.equals(s.substring(i, ...))`, seen from `s`: `x` is the argument there. -/
def Access.within (i : Nat) : Access → Access
  | .here j => .there j
  | .there j => .here (i + j)

/-- The loop of `equals` (src/stringView.cpp:45-49), `k` iterations left. -/
def equalsLoop (a b : List Byte) : Nat → Nat → Bool × List Access
  | 0, _ => (true, [])
  | k + 1, i =>
    if a[i]? == b[i]? then ((equalsLoop a b k (i + 1)).1, .here i :: .there i :: (equalsLoop a b k (i + 1)).2)
    else (false, [.here i, .there i])

/-- `StringView::equals`, src/stringView.cpp:38-52. -/
def equals (a b : List Byte) : Bool × List Access :=
  if a.length ≠ b.length then (false, []) else equalsLoop a b a.length 0

/-- `str.equals(substring(from, to))`, called in a function of the view `s`. -/
def equalsWithin (s x : List Byte) (from' to' : Nat) : Bool × List Access :=
  ((equals x (substring s from' to')).1, (equals x (substring s from' to')).2.map (Access.within from'))

/-- `startsWith(StringView)`, src/stringView.cpp:164-172. -/
def startsWith (s p : List Byte) : Bool × List Access :=
  if s.length < p.length then (false, []) else equalsWithin s p 0 p.length

/-- `endsWith(StringView)`, src/stringView.cpp:175-185. -/
def endsWith (s x : List Byte) : Bool × List Access :=
  if s.length < x.length then (false, []) else equalsWithin s x (s.length - x.length) s.length

/-- The loop of `indexOf(char)` (src/stringView.cpp:92-96), `k` iterations left. -/
def indexOfCharLoop (s : List Byte) (c : Byte) : Nat → Nat → Option Nat × List Access
  | 0, _ => (none, [])
  | k + 1, i =>
    if s[i]? = some c then (some i, [.here i])
    else ((indexOfCharLoop s c k (i + 1)).1, .here i :: (indexOfCharLoop s c k (i + 1)).2)

/-- `indexOf(char, fromIndex)`, src/stringView.cpp:85-99. -/
def indexOfChar (s : List Byte) (c : Byte) (from' : Nat) : Option Nat × List Access :=
  if s.length < from' then (none, []) else indexOfCharLoop s c (s.length - from') from'

/-- The loop of `lastIndexOf(char)` (src/stringView.cpp:155-159), `k` iterations left. -/
def lastIndexOfCharLoop (s : List Byte) (c : Byte) : Nat → Nat → Option Nat → Option Nat × List Access
  | 0, _, r => (r, [])
  | k + 1, i, r =>
    let rest := lastIndexOfCharLoop s c k (i + 1) (if s[i]? = some c then some i else r)
    (rest.1, .here i :: rest.2)

/-- `lastIndexOf(char, fromIndex)`, src/stringView.cpp:146-162. -/
def lastIndexOfChar (s : List Byte) (c : Byte) (from' : Nat) : Option Nat × List Access :=
  if s.length < from' then (none, []) else lastIndexOfCharLoop s c (s.length - from') from' none

/-- `_data[i] == str._data[0] && str.equals(substring(i, i + strSize))`, src/stringView.cpp:114-115 and 137-138; `after` and `xAfter` are the
bytes in memory behind the two views. -/
def matchAt (s after x xAfter : List Byte) (i : Nat) : Outcome (Bool × List Access) :=
  match (s ++ after)[i]?, (x ++ xAfter)[0]? with
  | some a, some b =>
    .ok (if a = b then
        ((equalsWithin s x i (wrap16 (i + x.length))).1, .here i :: .there 0 :: (equalsWithin s x i (wrap16 (i + x.length))).2)
      else (false, [.here i, .there 0]))
  | _, _ => .ub

/-- Accesses before those of a call. -/
def prepend (t : List Access) : Outcome (α × List Access) → Outcome (α × List Access)
  | .ok (r, t') => .ok (r, t ++ t')
  | .throws => .throws
  | .terminate => .terminate
  | .ub => .ub

/-- The loop of `indexOf(StringView)` (src/stringView.cpp:113-120), `k` iterations left. -/
def indexOfLoop (s after x xAfter : List Byte) : Nat → Nat → Outcome (Option Nat × List Access)
  | 0, _ => .ok (none, [])
  | k + 1, i =>
    match matchAt s after x xAfter i with
    | .ok (true, t) => .ok (some i, t)
    | .ok (false, t) => prepend t (indexOfLoop s after x xAfter k (i + 1))
    | _ => .ub

/-- `indexOf(StringView, fromIndex)`, src/stringView.cpp:102-123. -/
def indexOf (s after x xAfter : List Byte) (from' : Nat) : Outcome (Option Nat × List Access) :=
  if s.length < from' ∨ s.length < x.length ∨ s.length < from' + x.length then .ok (none, [])
  else indexOfLoop s after x xAfter (wrap16 (s.length - x.length + 1) - from') from'

/-- The loop of `lastIndexOf(StringView)` (src/stringView.cpp:136-141), `k` iterations left. -/
def lastIndexOfLoop (s after x xAfter : List Byte) : Nat → Nat → Option Nat → Outcome (Option Nat × List Access)
  | 0, _, r => .ok (r, [])
  | k + 1, i, r =>
    match matchAt s after x xAfter i with
    | .ok (true, t) => prepend t (lastIndexOfLoop s after x xAfter k (i + 1) (some i))
    | .ok (false, t) => prepend t (lastIndexOfLoop s after x xAfter k (i + 1) r)
    | _ => .ub

/-- `lastIndexOf(StringView, fromIndex)`, src/stringView.cpp:125-144. -/
def lastIndexOf (s after x xAfter : List Byte) (from' : Nat) : Outcome (Option Nat × List Access) :=
  if s.length < from' ∨ s.length < x.length ∨ s.length < from' + x.length then .ok (none, [])
  else lastIndexOfLoop s after x xAfter (wrap16 (s.length - x.length + 1) - from') from' none

/-- First loop of `trim` (src/stringView.cpp:191-193, 207-209), `k` iterations left. -/
def trimFrom (s : List Byte) (p : Byte → Bool) : Nat → Nat → Nat × List Access
  | 0, i => (i, [])
  | k + 1, i =>
    match s[i]? with
    | some c => if p c then ((trimFrom s p k (i + 1)).1, .here i :: (trimFrom s p k (i + 1)).2) else (i, [.here i])
    | none => (i, [])

/-- Second loop of `trim` (src/stringView.cpp:196-199, 212-215). -/
def trimTo (s : List Byte) (p : Byte → Bool) (from' : Nat) : Nat → Nat × List Access
  | 0 => (0, [])
  | t + 1 =>
    if from' + 1 < t + 1 then
      match s[t]? with
      | some c => if p c then ((trimTo s p from' t).1, .here t :: (trimTo s p from' t).2) else (t + 1, [.here t])
      | none => (t + 1, [])
    else (t + 1, [])

/-- Both variants of `trim` (src/stringView.cpp:188-202, 204-218) for the character test `p`. -/
def trimBy (p : Byte → Bool) (s : List Byte) : List Byte × List Access :=
  let f := trimFrom s p s.length 0
  let t := trimTo s p f.1 s.length
  (substring s f.1 t.1, f.2 ++ t.2)

/-- The loop of `hashCode` (src/stringView.cpp:226-229), `k` iterations left. Reading behind the characters does not occur. -/
def hashCodeLoop (s : List Byte) : Nat → Nat → BitVec 64 → BitVec 64 × List Access
  | 0, _, h => (h, [])
  | k + 1, i, h =>
    let rest := hashCodeLoop s k (i + 1) (((s[i]?).getD 0#8).signExtend 64 + h * 31#64)
    (rest.1, .here i :: rest.2)

/-- `hashCode`, src/stringView.cpp:221-232. -/
def hashCode (s : List Byte) : BitVec 64 × List Access := hashCodeLoop s s.length 0 0#64

/-- The scanning loop of `split(StringView, cb(piece))` (stringView.hpp:326-336). Running out of fuel is `none`. -/
def split1Loop (s d : List Byte) : Nat → Nat → Nat → Nat → List (List Byte) → Option ((List (List Byte) × Nat) × List Access)
  | 0, _, _, _, _ => none
  | fuel + 1, to', from', count, acc =>
    if to' + d.length ≤ s.length then
      let e := equalsWithin s d to' (wrap16 (to' + (d.length - 1) + 1))
      if e.1 then
        (split1Loop s d fuel (wrap16 (wrap16 (to' + (d.length - 1)) + 1)) (wrap16 (wrap16 (to' + (d.length - 1)) + 1))
          (wrap16 (count + 1)) (acc ++ [substring s from' to'])).map fun r => (r.1, e.2 ++ r.2)
      else (split1Loop s d fuel (wrap16 (to' + 1)) from' count acc).map fun r => (r.1, e.2 ++ r.2)
    else some ((acc ++ [substring s from' s.length], count), [])

/-- `split(StringView, cb(piece))`, stringView.hpp:303-342. -/
def split1 (fuel : Nat) (s d : List Byte) : Option ((List (List Byte) × Nat) × List Access) :=
  if s.length < d.length then some (([s], 1), [])
  else if d.length = 0 then
    some (((List.range s.length).map fun i => substring s i (wrap16 (i + 1)), s.length), [])
  else split1Loop s d fuel 0 0 1 []

/-- The loop of `split(char, cb)` (stringView.hpp:384-391), `k` iterations left. -/
def splitCharLoop (s : List Byte) (c : Byte) : Nat → Nat → Nat → Nat → List (List Byte) → (List (List Byte) × Nat) × List Access
  | 0, _, from', count, acc => ((acc ++ [substring s from' s.length], count), [])
  | k + 1, to', from', count, acc =>
    let rest :=
      if s[to']? = some c then
        splitCharLoop s c k (to' + 1) (wrap16 (to' + 1)) (wrap16 (count + 1)) (acc ++ [substring s from' to'])
      else splitCharLoop s c k (to' + 1) from' count acc
    (rest.1, .here to' :: rest.2)

/-- `split(char, cb)`, stringView.hpp:379-396. -/
def splitChar (s : List Byte) (c : Byte) : (List (List Byte) × Nat) × List Access := splitCharLoop s c s.length 0 0 1 []

end Solace.Reads
