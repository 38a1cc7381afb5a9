import Verif.Model.Version
import Verif.Model.StringOwner
/-
`Version` objects as values (/repo/include/solace/version.hpp:46-178): how they are made, moved, assigned, swapped and
destroyed. The two labels are `String` variables of the world of `Verif.Model.StringOwner`; a version holds its three numbers
and the positions of these two variables.

`Version` declares no copy, no move and no destructor, so these are the implicit ones: members in order of declaration
(major, minor, patch, pre-release, build), the destructor in reverse order. The move members of `uint32` copy; the move
constructor of `String` empties its source (string.hpp:55-60) and its move assignment swaps (string.hpp:86-88). Copying a
version does not compile, as `String` cannot be copied (string.hpp:53, 76). Naming a version that does not exist or has been
destroyed is not a C++ program; the model leaves the world unchanged for it.
-/
namespace Solace.VersionValue

open Owner (World)

structure VObj where
  major : Nat
  minor : Nat
  patch : Nat
  pre : Nat
  build : Nat
deriving DecidableEq, Repr

structure Prog where
  w : World
  vs : List (Option VObj)
deriving DecidableEq, Repr

def Prog.init : Prog := ⟨World.init, []⟩

/-- How a label is given to a constructor: not at all, as `StringLiteral`, or as a `String` made of a text with the memory the
manager returned. -/
inductive Label where
  | none
  | lit (s : List Byte)
  | str (s : List Byte) (mem : Except Err MutView)

/-- A label member is made, version.hpp:96, 103-104, 112-113, 122-123, 131-132. A `String` argument is passed by value: the
caller's string is moved into the parameter, the parameter is moved into the member, then both end. `none` when the caller
could not make the string. -/
def label (w : World) : Label → World × Option Nat
  | .none => (Owner.empty w, some w.vars.length)
  | .lit s => (Owner.literal w s, some w.vars.length)
  | .str s mem =>
    let n := w.vars.length
    let w1 := Owner.make w s mem
    if w1.vars.length = n then (w1, Option.none)
    else (Owner.destroy (Owner.destroy (Owner.moveCtor (Owner.moveCtor w1 n) (n + 1)) (n + 1)) n, some (n + 2))

/-- The constructors, version.hpp:88-133. With two `String` arguments C++ moves both before it ends either; as they are
different variables this makes no difference. When the second string cannot be made no version is made and the first string
ends. -/
def construct (p : Prog) (major minor patch : Nat) (pre build : Label) : Prog :=
  match label p.w pre with
  | (w1, none) => { p with w := w1 }
  | (w1, some n) =>
    match label w1 build with
    | (w2, none) => { p with w := Owner.destroy w2 n }
    | (w2, some k) => ⟨w2, p.vs ++ [some ⟨major, minor, patch, n, k⟩]⟩

/-- The implicit move constructor. -/
def moveCtor (p : Prog) (i : Nat) : Prog :=
  match p.vs[i]? with
  | some (some v) =>
    let n := p.w.vars.length
    ⟨Owner.moveCtor (Owner.moveCtor p.w v.pre) v.build, p.vs ++ [some { v with pre := n, build := n + 1 }]⟩
  | _ => p

/-- The implicit move assignment `i = mv(j)`: the numbers are copied, the labels are swapped. -/
def moveAssign (p : Prog) (i j : Nat) : Prog :=
  match p.vs[i]?, p.vs[j]? with
  | some (some a), some (some b) =>
    ⟨Owner.swap (Owner.swap p.w a.pre b.pre) a.build b.build,
      p.vs.set i (some { a with major := b.major, minor := b.minor, patch := b.patch })⟩
  | _, _ => p

/-- `swap`, version.hpp:147-158, 174-177. -/
def swap (p : Prog) (i j : Nat) : Prog :=
  match p.vs[i]?, p.vs[j]? with
  | some (some a), some (some b) =>
    ⟨Owner.swap (Owner.swap p.w a.pre b.pre) a.build b.build,
      (p.vs.set i (some { a with major := b.major, minor := b.minor, patch := b.patch })).set j
        (some (if i = j then a else { b with major := a.major, minor := a.minor, patch := a.patch }))⟩
  | _, _ => p

/-- The implicit destructor. -/
def destroy (p : Prog) (i : Nat) : Prog :=
  match p.vs[i]? with
  | some (some v) => ⟨Owner.destroy (Owner.destroy p.w v.build) v.pre, p.vs.set i none⟩
  | _ => p

inductive Op where
  | make (major minor patch : Nat) (pre build : Label)
  | moveCtor (i : Nat)
  | moveAssign (i j : Nat)
  | swap (i j : Nat)
  | destroy (i : Nat)

def step (p : Prog) : Op → Prog
  | .make a b c x y => construct p a b c x y
  | .moveCtor i => moveCtor p i
  | .moveAssign i j => moveAssign p i j
  | .swap i j => swap p i j
  | .destroy i => destroy p i

def run (ops : List Op) : Prog := ops.foldl step Prog.init

/-- The string variable `n` as seen through `view()`. -/
def textOf (w : World) (n : Nat) : Outcome (List Byte) :=
  match w.vars[n]? with
  | some (some o) => Owner.text w o
  | _ => .ub

/-- The members of a version, version.hpp:57-65, as the value used in `Verif.Model.Version`. -/
def read (w : World) (v : VObj) : Outcome Version :=
  textOf w v.pre >>= fun p => textOf w v.build >>= fun b => .ok ⟨v.major, v.minor, v.patch, p, b⟩

/-- `getBuildVersion`, src/version.cpp:29-31, 43-48. -/
def buildVersion : Version := ⟨0, 3, 1, [], []⟩

end Solace.VersionValue
