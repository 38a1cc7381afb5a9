import Verif.Model.StringView
import Verif.Model.Result
/-
Functions of the library that call functions given to them, with functions that have an effect and may throw: `ArrayView`
(/repo/include/solace/arrayView.hpp) and through it `Array` and `Vector`, `StringView::split` (/repo/include/solace/stringView.hpp),
`String::forEach`, `Path::forEach`, `RangeView` (/repo/include/solace/range_view.hpp), `Optional` and `Result`.

A function given by the caller takes a state `σ` (whatever it can change) to another, and returns or not. It does not reach into the array,
string or object by other ways than its argument. `cells` are the elements of an array; an index outside is undefined.
-/
namespace Solace.Calls
variable {σ α β : Type}

/-- A function given by the caller. -/
abbrev Fn (σ α β : Type) := σ → α → σ × Outcome β

/-- A function that is given a reference and leaves something in it, also when it throws. -/
abbrev RefFn (σ α β : Type) := σ → α → (σ × α) × Outcome β

/-- Go on after a call that returned. -/
def after {γ : Type} (r : γ × Outcome α) (k : γ → α → γ × Outcome β) : γ × Outcome β :=
  match r with
  | (s, .ok a) => k s a
  | (s, .throws) => (s, .throws)
  | (s, .terminate) => (s, .terminate)
  | (s, .ub) => (s, .ub)

/-- A call inside a function declared `noexcept`. -/
def sealed {γ : Type} (r : γ × Outcome α) : γ × Outcome α := (r.1, r.2.noexcept)

/-! ### Arrays -/

/-- `ArrayView::set(index, f)`, arrayView.hpp:211-217, also `Array::set`, array.hpp:156-161. The right side of `=` is evaluated before the left one; the second check of
the index, in `dataAs`, passes when the first does (C69). -/
def set (index : Nat) (f : Fn σ Unit α) (s : σ) (cells : List α) : (σ × List α) × Outcome Unit :=
  if cells.length ≤ index then ((s, cells), .throws)
  else
    match f s () with
    | (s', .ok x) => ((s', cells.set index x), .ok ())
    | (s', .throws) => ((s', cells), .throws)
    | (s', .terminate) => ((s', cells), .terminate)
    | (s', .ub) => ((s', cells), .ub)

/-- The loop of `fill(f)`, arrayView.hpp:289-294: `left` elements from `i` on. -/
def fillLoop (f : Fn σ Nat α) : Nat → Nat → σ → List α → (σ × List α) × Outcome Unit
  | 0, _, s, cells => ((s, cells), .ok ())
  | left + 1, i, s, cells =>
    match f s i with
    | (s', .ok x) => if i < cells.length then fillLoop f left (i + 1) s' (cells.set i x) else ((s', cells), .ub)
    | (s', .throws) => ((s', cells), .throws)
    | (s', .terminate) => ((s', cells), .terminate)
    | (s', .ub) => ((s', cells), .ub)

/-- `ArrayView::fill(f)`, arrayView.hpp:286-297: declared `noexcept`. -/
def fill (f : Fn σ Nat α) (s : σ) (cells : List α) : (σ × List α) × Outcome Unit := sealed (fillLoop f cells.length 0 s cells)

/-- The loop of `forEach(f)` with `auto&`, arrayView.hpp:310-312, and of `Path::forEach(f) &&`, path.hpp:345-351. -/
def forEachLoop (f : RefFn σ α Unit) : Nat → Nat → σ → List α → (σ × List α) × Outcome Unit
  | 0, _, s, cells => ((s, cells), .ok ())
  | left + 1, i, s, cells =>
    match cells[i]? with
    | none => ((s, cells), .ub)
    | some x =>
      match f s x with
      | ((s', x'), .ok ()) => forEachLoop f left (i + 1) s' (cells.set i x')
      | ((s', x'), .throws) => ((s', cells.set i x'), .throws)
      | ((s', x'), .terminate) => ((s', cells.set i x'), .terminate)
      | ((s', x'), .ub) => ((s', cells.set i x'), .ub)

def forEach (f : RefFn σ α Unit) (s : σ) (cells : List α) : (σ × List α) × Outcome Unit := forEachLoop f cells.length 0 s cells

/-- The loop of `forEach(f) const`, arrayView.hpp:321-323; `String::forEach`, string.hpp:341-348; `Path::forEach`, path.hpp:335-341. -/
def forEachConstLoop (f : Fn σ α Unit) (cells : List α) : Nat → Nat → σ → σ × Outcome Unit
  | 0, _, s => (s, .ok ())
  | left + 1, i, s =>
    match cells[i]? with
    | none => (s, .ub)
    | some x => after (f s x) fun s' _ => forEachConstLoop f cells left (i + 1) s'

def forEachConst (f : Fn σ α Unit) (s : σ) (cells : List α) : σ × Outcome Unit := forEachConstLoop f cells cells.length 0 s

/-- The loops of `forEach(f)` with an index, arrayView.hpp:333-337 and 349-353: `auto item` is a copy, made by `copy`, that `f` may change. -/
def forEachIndexedLoop (copy : α → Outcome α) (f : RefFn σ (Nat × α) Unit) (cells : List α) : Nat → Nat → σ → σ × Outcome Unit
  | 0, _, s => (s, .ok ())
  | left + 1, i, s =>
    match cells[i]? with
    | none => (s, .ub)
    | some x =>
      match copy x with
      | .ok item => after ((f s (i, item)).1.1, (f s (i, item)).2) fun s' _ => forEachIndexedLoop copy f cells left (i + 1) s'
      | .throws => (s, .throws)
      | .terminate => (s, .terminate)
      | .ub => (s, .ub)

def forEachIndexed (copy : α → Outcome α) (f : RefFn σ (Nat × α) Unit) (s : σ) (cells : List α) : σ × Outcome Unit :=
  forEachIndexedLoop copy f cells cells.length 0 s

/-- The loop of `indexOf(value)`, arrayView.hpp:258-268; `eq` is `==` of elements. -/
def indexOfLoop (eq : Fn σ (α × α) Bool) (value : α) (cells : List α) : Nat → Nat → σ → σ × Outcome (Option Nat)
  | 0, _, s => (s, .ok none)
  | left + 1, i, s =>
    match cells[i]? with
    | none => (s, .ub)
    | some x => after (eq s (value, x)) fun s' b => if b then (s', .ok (some i)) else indexOfLoop eq value cells left (i + 1) s'

/-- `ArrayView::indexOf`, declared `noexcept`; also `Array::indexOf`, array.hpp:231-233, `Vector::indexOf`, vector.hpp:206-208. -/
def indexOf (eq : Fn σ (α × α) Bool) (value : α) (s : σ) (cells : List α) : σ × Outcome (Option Nat) :=
  sealed (indexOfLoop eq value cells cells.length 0 s)

/-- `contains`, arrayView.hpp:254-256, `noexcept`. -/
def contains (eq : Fn σ (α × α) Bool) (value : α) (s : σ) (cells : List α) : σ × Outcome Bool :=
  sealed (after (indexOf eq value s cells) fun s' r => (s', .ok r.isSome))

/-- The loop of `equals`, arrayView.hpp:111-120. -/
def equalsLoop (eq : Fn σ (α × α) Bool) (as bs : List α) : Nat → Nat → σ → σ × Outcome Bool
  | 0, _, s => (s, .ok true)
  | left + 1, i, s =>
    match as[i]?, bs[i]? with
    | some a, some b => after (eq s (a, b)) fun s' e => if e then equalsLoop eq as bs left (i + 1) s' else (s', .ok false)
    | _, _ => (s, .ub)

/-- `equals`, arrayView.hpp:102-123, `noexcept`; `same`: the two begin at one address. -/
def equals (eq : Fn σ (α × α) Bool) (same : Bool) (as bs : List α) (s : σ) : σ × Outcome Bool :=
  sealed (if as.length ≠ bs.length then (s, .ok false) else if same then (s, .ok true) else equalsLoop eq as bs as.length 0 s)

/-! ### Splitting strings -/

/-- Go on with a loop that may run out of fuel. -/
def afterLoop {γ : Type} (r : γ × Outcome Unit) (k : γ → Option (γ × Outcome β)) : Option (γ × Outcome β) :=
  match r with
  | (s, .ok ()) => k s
  | (s, .throws) => some (s, .throws)
  | (s, .terminate) => some (s, .terminate)
  | (s, .ub) => some (s, .ub)

/-- The last loop of `split(StringView, cb)`, stringView.hpp:326-341. -/
def splitLoop (f : Fn σ (List Byte) Unit) (s d : List Byte) : Nat → Nat → Nat → Nat → σ → Option (σ × Outcome Nat)
  | 0, _, _, _, _ => none
  | fuel + 1, to', from', count, st =>
    if to' + d.length ≤ s.length then
      if StringView.equals d (StringView.substring s to' (wrap16 (to' + (d.length - 1) + 1))) then
        afterLoop (f st (StringView.substring s from' to')) fun st' =>
          splitLoop f s d fuel (wrap16 (wrap16 (to' + (d.length - 1)) + 1)) (wrap16 (wrap16 (to' + (d.length - 1)) + 1))
            (wrap16 (count + 1)) st'
      else splitLoop f s d fuel (wrap16 (to' + 1)) from' count st
    else afterLoop (f st (StringView.substring s from' s.length)) fun st' => some (st', .ok count)

/-- The loop for an empty delimiter, stringView.hpp:319-321: `left` characters from `to'` on. -/
def splitEach (f : Fn σ (List Byte) Unit) (s : List Byte) : Nat → Nat → σ → σ × Outcome Nat
  | 0, _, st => (st, .ok s.length)
  | left + 1, to', st =>
    after (f st (StringView.substring s to' (wrap16 (to' + 1)))) fun st' _ => splitEach f s left (to' + 1) st'

/-- `StringView::split(StringView, cb(piece))`, stringView.hpp:303-342. -/
def split (f : Fn σ (List Byte) Unit) (fuel : Nat) (s d : List Byte) (st : σ) : Option (σ × Outcome Nat) :=
  if s.length < d.length then some (after (f st s) fun st' _ => (st', .ok 1))
  else if d.length = 0 then some (splitEach f s s.length 0 st)
  else splitLoop f s d fuel 0 0 1 st

/-- The second loop of `split(StringView, f(piece, index, count))`, stringView.hpp:358-371. -/
def split3Loop (f : Fn σ (List Byte × Nat × Nat) Unit) (s d : List Byte) (dc : Nat) : Nat → Nat → Nat → Nat → σ → Option (σ × Outcome Nat)
  | 0, _, _, _, _ => none
  | fuel + 1, to', from', i, st =>
    if to' < s.length ∧ to' + d.length ≤ s.length then
      if StringView.equals d (StringView.substring s to' (wrap16 (to' + d.length))) then
        afterLoop (f st (StringView.substring s from' to', i, wrap16 (dc + 1))) fun st' =>
          split3Loop f s d dc fuel (wrap16 (sub16 (to' + d.length) 1 + 1)) (wrap16 (sub16 (to' + d.length) 1 + 1)) (wrap16 (i + 1)) st'
      else split3Loop f s d dc fuel (wrap16 (to' + 1)) from' i st
    else afterLoop (f st (StringView.substring s from' s.length, dc, wrap16 (dc + 1))) fun st' => some (st', .ok (wrap16 (dc + 1)))

/-- `StringView::split(StringView, f(piece, index, count))`, stringView.hpp:344-372. The first loop calls nothing. -/
def split3 (f : Fn σ (List Byte × Nat × Nat) Unit) (fuel : Nat) (s d : List Byte) (st : σ) : Option (σ × Outcome Nat) :=
  match StringView.split3Count s d fuel 0 0 with
  | none => none
  | some dc => split3Loop f s d dc fuel 0 0 0 st

/-- The loop of `split(char, cb)`, stringView.hpp:384-395. -/
def splitCharLoop (f : Fn σ (List Byte) Unit) (s : List Byte) (c : Byte) : Nat → Nat → Nat → Nat → σ → σ × Outcome Nat
  | 0, _, from', count, st => after (f st (StringView.substring s from' s.length)) fun st' _ => (st', .ok count)
  | k + 1, to', from', count, st =>
    if s[to']? = some c then
      after (f st (StringView.substring s from' to')) fun st' _ =>
        splitCharLoop f s c k (to' + 1) (wrap16 (to' + 1)) (wrap16 (count + 1)) st'
    else splitCharLoop f s c k (to' + 1) from' count st

/-- `StringView::split(char, cb)`, stringView.hpp:379-396. -/
def splitChar (f : Fn σ (List Byte) Unit) (s : List Byte) (c : Byte) (st : σ) : σ × Outcome Nat := splitCharLoop f s c s.length 0 0 1 st

/-! ### Filtered ranges -/

/-- The loop of `Iter::operator++`, range_view.hpp:45-47: from the element at `current` on, with `left` elements after it. -/
def skipLoop (pred : Fn σ α Bool) (xs : List α) : Nat → Nat → σ → σ × Outcome Nat
  | 0, current, s => (s, .ok (current + 1))
  | left + 1, current, s =>
    match xs[current + 1]? with
    | none => (s, .ub)
    | some x => after (pred s x) fun s' b => if b then (s', .ok (current + 1)) else skipLoop pred xs left (current + 1) s'

/-- `Iter::operator++`, range_view.hpp:41-50, `noexcept`. -/
def next (pred : Fn σ α Bool) (xs : List α) (current : Nat) (s : σ) : σ × Outcome Nat :=
  sealed (if current = xs.length then (s, .ok current) else skipLoop pred xs (xs.length - (current + 1)) current s)

/-! ### Optional and Result -/

/-- `Optional::map`, optional.hpp:236-250. -/
def optMap (f : Fn σ α β) (o : Option α) (s : σ) : σ × Outcome (Option β) :=
  match o with
  | some x => after (f s x) fun s' y => (s', .ok (some y))
  | none => (s, .ok none)

/-- `Optional::flatMap`, optional.hpp:253-282. -/
def optFlatMap (f : Fn σ α (Option β)) (o : Option α) (s : σ) : σ × Outcome (Option β) :=
  match o with
  | some x => f s x
  | none => (s, .ok none)

/-- `Optional::filter`, optional.hpp:284-289. -/
def optFilter (f : Fn σ α Bool) (o : Option α) (s : σ) : σ × Outcome (Option α) :=
  match o with
  | some x => after (f s x) fun s' b => (s', .ok (if b then some x else none))
  | none => (s, .ok none)

/-- `Result::then` with `f` returning a result, result.hpp:414-449. -/
def resThen {V U E : Type} (f : Fn σ V (Res.Res U E)) (r : Res.Res V E) (s : σ) : σ × Outcome (Res.Res U E) :=
  match r with
  | .ok v => f s v
  | .err e => (s, .ok (.err e))

/-- `Result::then` with `f` returning a value, result.hpp:451-461, or nothing, 464-477. -/
def resThenValue {V U E : Type} (f : Fn σ V U) (r : Res.Res V E) (s : σ) : σ × Outcome (Res.Res U E) :=
  match r with
  | .ok v => after (f s v) fun s' u => (s', .ok (.ok u))
  | .err e => (s, .ok (.err e))

/-- `Result::orElse`, result.hpp:482-492 and 495-504. -/
def resOrElse {V E : Type} (f : Fn σ E (Res.Res V E)) (r : Res.Res V E) (s : σ) : σ × Outcome (Res.Res V E) :=
  match r with
  | .ok v => (s, .ok (.ok v))
  | .err e => f s e

/-- `Result::mapError`, result.hpp:512-543. -/
def resMapError {V E E' : Type} (f : Fn σ E E') (r : Res.Res V E) (s : σ) : σ × Outcome (Res.Res V E') :=
  match r with
  | .ok v => (s, .ok (.ok v))
  | .err e => after (f s e) fun s' e' => (s', .ok (.err e'))

end Solace.Calls
