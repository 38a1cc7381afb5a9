import Verif.Model.Basic
/-
StringView (/repo/include/solace/stringView.hpp, /repo/src/stringView.cpp).

A view is the list of its characters; its size is a `uint16`, so the length of the list is below 2^16 (theorems state
this as a hypothesis). Two functions look at bytes beyond the view; there the bytes that follow the view in memory are
an explicit list and running out of it is undefined behaviour. The null pointer of a default-constructed view matters
only for `startsWith(char)`/`endsWith(char)`, which take it as a flag. `Char::isWhitespace` (src/char.cpp:117-119) is
`isspace` of the "C" locale on a little-endian host.
-/
namespace Solace.StringView

/-- `StringView::equals`, src/stringView.cpp:38-52. -/
def equals (a b : List Byte) : Bool :=
  if a.length ≠ b.length then false
  else (List.range a.length).all fun i => a[i]? == b[i]?

/-- `StringView::charAt`, stringView.hpp:262-266. -/
def charAt (s : List Byte) (i : Nat) : Outcome Byte :=
  match s[i]? with
  | some c => .ok c
  | none => .throws

/-- The sign of `strncmp(a, b, n)` (C standard 7.24.4.4): bytes compared as `unsigned char`, stopping after a null
character. Both arguments have at least `n` characters here. -/
def strncmp : Nat → List Byte → List Byte → Int
  | 0, _, _ => 0
  | _ + 1, [], [] => 0
  | _ + 1, [], _ :: _ => -1
  | _ + 1, _ :: _, [] => 1
  | n + 1, x :: xs, y :: ys =>
    if x.toNat < y.toNat then -1
    else if y.toNat < x.toNat then 1
    else if x = 0#8 then 0
    else strncmp n xs ys

/-- `StringView::compareTo`, src/stringView.cpp:55-68. `xSize - 1` is converted to `uint16`; the function is `noexcept`,
so the exception of `charAt` terminates the program. -/
def compareTo (s x : List Byte) : Outcome Int :=
  if s.length > x.length then
    (do let c ← charAt s (sub16 x.length 1); pure c.toInt).noexcept
  else if s.length < x.length then
    (do let c ← charAt x (sub16 x.length 1); pure (-c.toInt)).noexcept
  else .ok (strncmp s.length s x)

/-- `StringView::substring`, src/stringView.cpp:71-82. -/
def substring (s : List Byte) (from' to' : Nat) : List Byte :=
  let f := min from' s.length
  let t := min s.length (max to' f)
  (s.drop f).take (t - f)

/-- The loop of `indexOf(char)` (src/stringView.cpp:92-96), `k` iterations left. -/
def indexOfCharLoop (s : List Byte) (c : Byte) : Nat → Nat → Option Nat
  | 0, _ => none
  | k + 1, i => if s[i]? = some c then some i else indexOfCharLoop s c k (i + 1)

/-- `StringView::indexOf(char, fromIndex)`, src/stringView.cpp:85-99. -/
def indexOfChar (s : List Byte) (c : Byte) (from' : Nat) : Option Nat :=
  if s.length < from' then none else indexOfCharLoop s c (s.length - from') from'

/-- The loop of `lastIndexOf(char)` (src/stringView.cpp:155-159), `k` iterations left. -/
def lastIndexOfCharLoop (s : List Byte) (c : Byte) : Nat → Nat → Option Nat → Option Nat
  | 0, _, r => r
  | k + 1, i, r => lastIndexOfCharLoop s c k (i + 1) (if s[i]? = some c then some i else r)

/-- `StringView::lastIndexOf(char, fromIndex)`, src/stringView.cpp:146-162. -/
def lastIndexOfChar (s : List Byte) (c : Byte) (from' : Nat) : Option Nat :=
  if s.length < from' then none else lastIndexOfCharLoop s c (s.length - from') from' none

/-- `_data[i] == str._data[0] && str.equals(substring(i, i + strSize))` of src/stringView.cpp:114-115 and 137-138;
`after`/`xAfter` are the bytes in memory behind the view and behind the needle. -/
def matchAt (s after x xAfter : List Byte) (i : Nat) : Outcome Bool :=
  match (s ++ after)[i]?, (x ++ xAfter)[0]? with
  | some a, some b => .ok (if a = b then equals x (substring s i (wrap16 (i + x.length))) else false)
  | _, _ => .ub

/-- The loop of `indexOf(StringView)` (src/stringView.cpp:113-120), `k` iterations left. -/
def indexOfLoop (s after x xAfter : List Byte) : Nat → Nat → Outcome (Option Nat)
  | 0, _ => .ok none
  | k + 1, i =>
    match matchAt s after x xAfter i with
    | .ok true => .ok (some i)
    | .ok false => indexOfLoop s after x xAfter k (i + 1)
    | _ => .ub

/-- `StringView::indexOf(StringView, fromIndex)`, src/stringView.cpp:102-123. `fromIndex + strSize` is an `int`; `rem` is
`uint16`. -/
def indexOf (s after x xAfter : List Byte) (from' : Nat) : Outcome (Option Nat) :=
  if s.length < from' ∨ s.length < x.length ∨ s.length < from' + x.length then .ok none
  else indexOfLoop s after x xAfter (wrap16 (s.length - x.length + 1) - from') from'

/-- The loop of `lastIndexOf(StringView)` (src/stringView.cpp:136-141), `k` iterations left. -/
def lastIndexOfLoop (s after x xAfter : List Byte) : Nat → Nat → Option Nat → Outcome (Option Nat)
  | 0, _, r => .ok r
  | k + 1, i, r =>
    match matchAt s after x xAfter i with
    | .ok true => lastIndexOfLoop s after x xAfter k (i + 1) (some i)
    | .ok false => lastIndexOfLoop s after x xAfter k (i + 1) r
    | _ => .ub

/-- `StringView::lastIndexOf(StringView, fromIndex)`, src/stringView.cpp:125-144. -/
def lastIndexOf (s after x xAfter : List Byte) (from' : Nat) : Outcome (Option Nat) :=
  if s.length < from' ∨ s.length < x.length ∨ s.length < from' + x.length then .ok none
  else lastIndexOfLoop s after x xAfter (wrap16 (s.length - x.length + 1) - from') from' none

/-- `StringView::contains(StringView)`, stringView.hpp:213-214. -/
def contains (s after x xAfter : List Byte) : Outcome Bool := do
  let r ← indexOf s after x xAfter 0
  pure r.isSome

/-- `StringView::startsWith(StringView)`, src/stringView.cpp:164-172. -/
def startsWith (s p : List Byte) : Bool :=
  if s.length < p.length then false else equals p (substring s 0 p.length)

/-- `StringView::endsWith(StringView)`, src/stringView.cpp:175-185. -/
def endsWith (s x : List Byte) : Bool :=
  if s.length < x.length then false else equals x (substring s (s.length - x.length) s.length)

/-- `StringView::startsWith(char)`, stringView.hpp:131-135; `null` tells whether `_data` is the null pointer. -/
def startsWithChar (null : Bool) (s after : List Byte) (c : Byte) : Outcome Bool :=
  if null then .ok (c == 0#8)
  else match (s ++ after)[0]? with
    | some x => .ok (x == c)
    | none => .ub

/-- `StringView::endsWith(char)`, stringView.hpp:151-155. -/
def endsWithChar (null : Bool) (s : List Byte) (c : Byte) : Bool :=
  if null || s.length = 0 then c == 0#8 else s[s.length - 1]? == some c

/-- `isspace` in the "C" locale (C standard 7.4.1.10). -/
def isSpace (c : Byte) : Bool := c == 0x20#8 || (0x09#8 ≤ c && c ≤ 0x0D#8)

/-- First loop of `trim` (src/stringView.cpp:191-193, 207-209), `k` iterations left. -/
def trimFrom (s : List Byte) (p : Byte → Bool) : Nat → Nat → Nat
  | 0, i => i
  | k + 1, i =>
    match s[i]? with
    | some c => if p c then trimFrom s p k (i + 1) else i
    | none => i

/-- Second loop of `trim` (src/stringView.cpp:196-199, 212-215). -/
def trimTo (s : List Byte) (p : Byte → Bool) (from' : Nat) : Nat → Nat
  | 0 => 0
  | t + 1 =>
    if from' + 1 < t + 1 then
      match s[t]? with
      | some c => if p c then trimTo s p from' t else t + 1
      | none => t + 1
    else t + 1

/-- Both variants of `trim` (src/stringView.cpp:188-202, 204-218) for the character test `p`. -/
def trimBy (p : Byte → Bool) (s : List Byte) : List Byte :=
  let f := trimFrom s p s.length 0
  substring s f (trimTo s p f s.length)

/-- `StringView::trim()`, src/stringView.cpp:188-202. -/
def trim (s : List Byte) : List Byte := trimBy isSpace s
/-- `StringView::trim(char)`, src/stringView.cpp:204-218. -/
def trimChar (s : List Byte) (c : Byte) : List Byte := trimBy (· == c) s

/-- `StringView::hashCode`, src/stringView.cpp:221-232 (`char` is signed, so it is sign extended). -/
def hashCode (s : List Byte) : BitVec 64 :=
  s.foldl (fun h c => c.signExtend 64 + h * 31#64) 0#64

/-- The scanning loop of `split(StringView, cb(piece))` (stringView.hpp:326-336). Running out of fuel is `none`. -/
def split1Loop (s d : List Byte) : Nat → Nat → Nat → Nat → List (List Byte) → Option (List (List Byte) × Nat)
  | 0, _, _, _, _ => none
  | fuel + 1, to', from', count, acc =>
    if to' + d.length ≤ s.length then
      if equals d (substring s to' (wrap16 (to' + (d.length - 1) + 1))) then
        split1Loop s d fuel (wrap16 (wrap16 (to' + (d.length - 1)) + 1)) (wrap16 (wrap16 (to' + (d.length - 1)) + 1))
          (wrap16 (count + 1)) (acc ++ [substring s from' to'])
      else split1Loop s d fuel (wrap16 (to' + 1)) from' count acc
    else some (acc ++ [substring s from' s.length], count)

/-- `StringView::split(StringView delim, cb(piece))`, stringView.hpp:303-342: the pieces passed to the callback and
the value returned. -/
def split1 (fuel : Nat) (s d : List Byte) : Option (List (List Byte) × Nat) :=
  if s.length < d.length then some ([s], 1)
  else if d.length = 0 then
    some ((List.range s.length).map fun i => substring s i (wrap16 (i + 1)), s.length)
  else split1Loop s d fuel 0 0 1 []

/-- The counting loop of the three-argument-callback `split` (stringView.hpp:351-356). -/
def split3Count (s d : List Byte) : Nat → Nat → Nat → Option Nat
  | 0, _, _ => none
  | fuel + 1, i, n =>
    if i < s.length ∧ i + d.length ≤ s.length then
      if equals d (substring s i (wrap16 (i + d.length))) then
        split3Count s d fuel (wrap16 (sub16 (i + d.length) 1 + 1)) (wrap16 (n + 1))
      else split3Count s d fuel (wrap16 (i + 1)) n
    else some n

/-- The emitting loop of the three-argument-callback `split` (stringView.hpp:358-367): the calls made and the final
`from`. -/
def split3Loop (s d : List Byte) (dc : Nat) : Nat → Nat → Nat → Nat → List (List Byte × Nat × Nat) →
    Option (List (List Byte × Nat × Nat) × Nat)
  | 0, _, _, _, _ => none
  | fuel + 1, to', from', i, acc =>
    if to' < s.length ∧ to' + d.length ≤ s.length then
      if equals d (substring s to' (wrap16 (to' + d.length))) then
        split3Loop s d dc fuel (wrap16 (sub16 (to' + d.length) 1 + 1)) (wrap16 (sub16 (to' + d.length) 1 + 1))
          (wrap16 (i + 1)) (acc ++ [(substring s from' to', i, wrap16 (dc + 1))])
      else split3Loop s d dc fuel (wrap16 (to' + 1)) from' i acc
    else some (acc, from')

/-- `StringView::split(StringView delim, f(piece, index, count))`, stringView.hpp:344-372: the calls made and the value
returned. -/
def split3 (fuel : Nat) (s d : List Byte) : Option (List (List Byte × Nat × Nat) × Nat) :=
  match split3Count s d fuel 0 0 with
  | none => none
  | some dc =>
    match split3Loop s d dc fuel 0 0 0 [] with
    | none => none
    | some (acc, from') => some (acc ++ [(substring s from' s.length, dc, wrap16 (dc + 1))], wrap16 (dc + 1))

/-- The loop of `split(char, cb)` (stringView.hpp:384-391), `k` iterations left. -/
def splitCharLoop (s : List Byte) (c : Byte) : Nat → Nat → Nat → Nat → List (List Byte) → List (List Byte) × Nat
  | 0, _, from', count, acc => (acc ++ [substring s from' s.length], count)
  | k + 1, to', from', count, acc =>
    if s[to']? = some c then
      splitCharLoop s c k (to' + 1) (wrap16 (to' + 1)) (wrap16 (count + 1)) (acc ++ [substring s from' to'])
    else splitCharLoop s c k (to' + 1) from' count acc

/-- `StringView::split(char, cb)`, stringView.hpp:379-396. -/
def splitChar (s : List Byte) (c : Byte) : List (List Byte) × Nat := splitCharLoop s c s.length 0 0 1 []

end Solace.StringView
