import Verif.Model.PathMemory
import Verif.Model.Version
import Verif.Model.StringBuilderMeasure
/-
The memory of strings, versions and string builders (/repo/src/string.cpp, /repo/include/solace/string.hpp, /repo/src/version.cpp,
/repo/src/stringBuilder.cpp): which blocks their functions ask for, hand on and give back, when the memory manager may refuse any request at
any time. The manager, its blocks and `String` objects are those of `Verif.Model.PathMemory`; the values computed are those of
`Verif.Model.String`, `Verif.Model.Version` and `Verif.Model.StringBuilder`.

Destructors that run at the end of a scope are written out where there is a block to give back. A string that is passed to a function is
not changed by it.
-/
namespace Solace.StrMem
open PathMem

/-- `makeString(lhs, rhs, args...)`, string.hpp:552-582. -/
def newConcat (g : Policy) (h : Heap) (args : List (List Byte)) : Outcome (Heap × Except Err SObj) :=
  match allocate g h (wrap16 (args.map List.length).sum) with
  | (h1, .error e) => .ok (h1, .error e)
  | (h1, .ok (b, v)) =>
    .ok (h1, .ok ⟨some b, MemoryView.slice (Str.writeArgs (.ofBuffer v.bytes) args).data 0 (wrap16 (args.map List.length).sum)⟩)

/-- The length computed by `makeStringJoin(by, args...)`, string.hpp:743-782. -/
def jointLength (by' : List Byte) (args : List (Bool × List Byte)) : Nat :=
  wrap16 (by'.length * (args.length - 1) + wrap16 (args.map (·.2.length)).sum)

/-- `makeStringJoin(by, args...)`, string.hpp:743-782. -/
def newJoinArgs (g : Policy) (h : Heap) (by' : List Byte) (args : List (Bool × List Byte)) : Outcome (Heap × Except Err SObj) :=
  match allocate g h (jointLength by' args) with
  | (h1, .error e) => .ok (h1, .error e)
  | (h1, .ok (b, v)) =>
    match Str.writeJointArgs (.ofBuffer v.bytes) by' args with
    | (_, .error e) => free h1 b >>= fun h2 => pure (h2, .error e)
    | (w, .ok _) => .ok (h1, .ok ⟨some b, MemoryView.slice w.data 0 (jointLength by' args)⟩)

/-- `makeStringReplace(str, char, char)`, src/string.cpp:52-74. -/
def newReplaceChar (g : Policy) (h : Heap) (s : List Byte) (what with' : Byte) : Outcome (Heap × Except Err SObj) :=
  match allocate g h s.length with
  | (h1, .error e) => .ok (h1, .error e)
  | (h1, .ok (b, v)) =>
    match v.write s with
    | (_, .error e) => free h1 b >>= fun h2 => pure (h2, .error e)
    | (v', .ok _) =>
      .ok (h1, .ok ⟨some b, MemoryView.slice
        (v'.bytes.zipIdx.map fun (b, i) => if i < s.length ∧ (b.toNat : Int) = what.toInt then with' else b) 0 s.length⟩)

/-- `makeStringReplace(str, what, by)`, src/string.cpp:77-116. The inner `none`: `unwrap` throws. The outer one: no return within the
fuel. -/
def newReplace (g : Policy) (h : Heap) (fuel : Nat) (s what by' : List Byte) : Option (Outcome (Heap × Option (Except Err SObj))) :=
  match StringView.split3Count s what fuel 0 0 with
  | none => none
  | some n =>
    if 2 ^ 31 ≤ s.length + by'.length * n then some .ub
    else
      match allocate g h (wrap16 (s.length + by'.length * n - what.length * n)) with
      | (h1, .error _) => some (.ok (h1, none))
      | (h1, .ok (b, v)) =>
        match Str.replaceLoop s what by' fuel 0 0 (.ofBuffer v.bytes) with
        | none => none
        | some (w, from') =>
          match w.write (StringView.substring s from' s.length) with
          | (_, .error e) => some (free h1 b >>= fun h2 => pure (h2, some (.error e)))
          | (w', .ok _) =>
            some (.ok (h1, some (.ok ⟨some b, MemoryView.slice w'.data 0 (wrap16 (s.length + by'.length * n - what.length * n))⟩)))

/-! ### Versions -/

/-- The labels of `Version::parse`, src/version.cpp:140-177: the local strings `preRelease` and `build` end when an error is returned. A
string that is moved into a local leaves an empty one, which has no block. -/
def newLabels (g : Policy) (h : Heap) (s : List Byte) : Outcome (Heap × Except Err (SObj × SObj)) :=
  if s = [] then .ok (h, .ok (.empty, .empty))
  else do
    let pieces := (StringView.splitChar s 0x2B#8).1
    let (h1, r) ← newStr g h (StringView.trimChar (pieces.headD []) 0x2D#8)
    match r with
    | .error e => pure (h1, .error e)
    | .ok pre =>
      if pieces.length = 1 then pure (h1, .ok (pre, .empty))
      else do
        let (h2, r2) ← newStr g h1 (pieces.getD 1 [])
        match r2 with
        | .error e => do
          let h3 ← dropStr h2 pre
          pure (h3, .error e)
        | .ok build =>
          if 2 < wrap16 pieces.length then do
            let h3 ← dropStr h2 build
            let h4 ← dropStr h3 pre
            pure (h4, .error .invalidInput)
          else pure (h2, .ok (pre, build))

/-- A variable of a program: a string, a version (version.hpp:56-64), a string builder (its storage and position,
stringBuilder.hpp:143). -/
inductive Val where
  | str (o : SObj)
  | ver (major minor patch : Nat) (pre build : SObj)
  | bld (block : Option Nat) (w : ByteWriter)
deriving DecidableEq, Repr

/-- `Version::parse`, src/version.cpp:106-182, of a view with data, followed in memory by `after`. -/
def parse (g : Policy) (h : Heap) (str after : List Byte) : Outcome (Heap × Except Err Val) := do
  match ← Version.numbers str (str ++ after) with
  | none => pure (h, .error .invalidInput)
  | some (maj, min, pat, rest) =>
    let (h1, r) ← newLabels g h rest
    match r with
    | .error e => pure (h1, .error e)
    | .ok (pre, build) => pure (h1, .ok (.ver maj min pat pre build))

/-- `Version::toString`, src/version.cpp:69-103. -/
def print (g : Policy) (h : Heap) (v : Version) : Heap × SObj :=
  match allocate g h v.bufferSize with
  | (h1, .error _) => (h1, .empty)
  | (h1, .ok (b, m)) => (h1, ⟨some b, (StringBuilder.build (StringBuilder.run (.ofBuffer m.bytes) v.items)).view⟩)

/-- `~String`, `~Version` (members in reverse order), `~StringBuilder`. -/
def dropVal (h : Heap) : Val → Outcome Heap
  | .str o => dropStr h o
  | .ver _ _ _ pre build => dropStr h build >>= fun h1 => dropStr h1 pre
  | .bld b _ => freeOpt h b

/-- What is left of a value that was moved: string.hpp:55-60; the implicit move constructor of `Version`; byteWriter.hpp:53-57. -/
def Val.left : Val → Val
  | .str _ => .str .empty
  | .ver maj min pat _ _ => .ver maj min pat .empty .empty
  | .bld _ _ => .bld none ⟨[], 0, 0⟩

/-- `a = mv(b)`, what is in `a` and in `b` then: a swap (string.hpp:86-88, stringBuilder.hpp:80-82) but for the numbers of a version, which
are copied. `none`: no C++ program. -/
def assign : Val → Val → Option (Val × Val)
  | .str a, .str b => some (.str b, .str a)
  | .ver _ _ _ p1 b1, .ver maj min pat p2 b2 => some (.ver maj min pat p2 b2, .ver maj min pat p1 b1)
  | .bld b1 w1, .bld b2 w2 => some (.bld b2 w2, .bld b1 w1)
  | _, _ => none

/-- `swap(a, b)`, string.hpp:78-84, version.hpp:147-158, stringBuilder.hpp:85-91. -/
def swap : Val → Val → Option (Val × Val)
  | .str a, .str b => some (.str b, .str a)
  | .ver m1 n1 q1 p1 b1, .ver m2 n2 q2 p2 b2 => some (.ver m2 n2 q2 p2 b2, .ver m1 n1 q1 p1 b1)
  | .bld b1 w1, .bld b2 w2 => some (.bld b2 w2, .bld b1 w1)
  | _, _ => none

/-! ### Programs -/

abbrev Vars := List (Option Val)

structure Prog where
  heap : Heap
  vars : Vars
deriving DecidableEq, Repr

def init : Prog := ⟨⟨0, 0, 0, []⟩, []⟩

def get (vs : Vars) (i : Nat) : Option Val := (vs[i]?).join

/-- An argument: a text of the caller, or the view of a string variable. -/
inductive Src where
  | text (s : List Byte)
  | var (i : Nat)
deriving DecidableEq, Repr

def Src.view (vs : Vars) : Src → Option (List Byte)
  | .text s => some s
  | .var i =>
    match get vs i with
    | some (.str o) => some o.text
    | _ => none

def views (vs : Vars) : List Src → Option (List (List Byte))
  | [] => some []
  | s :: ss =>
    match s.view vs, views vs ss with
    | some t, some ts => some (t :: ts)
    | _, _ => none

inductive Op where
  | make (s : Src)
  | concat (ss : List Src)
  | join (by' : Src) (ss : List Src)
  | joinArgs (by' : Src) (kinds : List Bool) (ss : List Src)
  | replaceChar (s : Src) (what with' : Byte)
  | replace (fuel : Nat) (s what by' : Src)
  | parse (s : Src) (after : List Byte)
  | print (i : Nat)
  | builder (n : Nat)
  | append (i : Nat) (item : StringBuilder.Item)
  | build (i : Nat)
  | moveCtor (i : Nat)
  | assign (i j : Nat)
  | swap (i j : Nat)
  | destroy (i : Nat)
deriving DecidableEq, Repr

/-- A value is put into a new variable; an error is not. -/
def keep (vs : Vars) (r : Heap × Except Err Val) : Prog :=
  match r.2 with
  | .ok v => ⟨r.1, vs ++ [some v]⟩
  | .error _ => ⟨r.1, vs⟩

def keepStr (vs : Vars) (r : Heap × Except Err SObj) : Prog := keep vs (r.1, r.2.map Val.str)

/-- One statement. Exceptions are caught around it. Statements that name a variable that does not exist, was destroyed or has another type are
no C++ programs; the state is left unchanged for them, and also while a `replace` has not returned. -/
def step (g : Policy) (p : Prog) : Op → Outcome Prog
  | .make s =>
    match s.view p.vars with
    | none => .ok p
    | some t => newStr g p.heap t >>= fun r => pure (keepStr p.vars r)
  | .concat ss =>
    match views p.vars ss with
    | none => .ok p
    | some ts => newConcat g p.heap ts >>= fun r => pure (keepStr p.vars r)
  | .join by' ss =>
    match by'.view p.vars, views p.vars ss with
    | some d, some ts => newJoin g p.heap d ts >>= fun r => pure (keepStr p.vars r)
    | _, _ => .ok p
  | .joinArgs by' kinds ss =>
    match by'.view p.vars, views p.vars ss with
    | some d, some ts => newJoinArgs g p.heap d (kinds.zip ts) >>= fun r => pure (keepStr p.vars r)
    | _, _ => .ok p
  | .replaceChar s a b =>
    match s.view p.vars with
    | none => .ok p
    | some t => newReplaceChar g p.heap t a b >>= fun r => pure (keepStr p.vars r)
  | .replace fuel s what by' =>
    match s.view p.vars, what.view p.vars, by'.view p.vars with
    | some t, some w, some d =>
      match newReplace g p.heap fuel t w d with
      | none => .ok p
      | some m => m >>= fun r =>
        match r.2 with
        | none => pure ⟨r.1, p.vars⟩
        | some x => pure (keepStr p.vars (r.1, x))
    | _, _, _ => .ok p
  | .parse s after =>
    match s.view p.vars with
    | none => .ok p
    | some t => StrMem.parse g p.heap t after >>= fun r => pure (keep p.vars r)
  | .print i =>
    match get p.vars i with
    | some (.ver maj min pat pre build) =>
      .ok ⟨(StrMem.print g p.heap ⟨maj, min, pat, pre.text, build.text⟩).1,
        p.vars ++ [some (.str (StrMem.print g p.heap ⟨maj, min, pat, pre.text, build.text⟩).2)]⟩
    | _ => .ok p
  | .builder n =>
    match allocate g p.heap n with
    | (h1, .error _) => .ok ⟨h1, p.vars⟩
    | (h1, .ok (b, v)) => .ok ⟨h1, p.vars ++ [some (.bld (some b) (.ofBuffer v.bytes))]⟩
  | .append i item =>
    match get p.vars i with
    | some (.bld b w) => .ok { p with vars := p.vars.set i (some (.bld b (StringBuilder.append w item))) }
    | _ => .ok p
  | .build i =>
    match get p.vars i with
    | some (.bld b w) =>
      .ok { p with vars := p.vars.set i (some (.bld none (StringBuilder.afterBuild w))) ++ [some (.str ⟨b, (StringBuilder.build w).view⟩)] }
    | _ => .ok p
  | .moveCtor i =>
    match get p.vars i with
    | none => .ok p
    | some v => .ok { p with vars := p.vars.set i (some v.left) ++ [some v] }
  | .assign i j =>
    match get p.vars i, get p.vars j with
    | some a, some b =>
      match StrMem.assign a b with
      | some (a', b') => .ok { p with vars := (p.vars.set i (some a')).set j (some b') }
      | none => .ok p
    | _, _ => .ok p
  | .swap i j =>
    match get p.vars i, get p.vars j with
    | some a, some b =>
      match StrMem.swap a b with
      | some (a', b') => .ok { p with vars := (p.vars.set i (some a')).set j (some b') }
      | none => .ok p
    | _, _ => .ok p
  | .destroy i =>
    match get p.vars i with
    | none => .ok p
    | some v => dropVal p.heap v >>= fun h => pure ⟨h, p.vars.set i none⟩

def run (g : Policy) : Prog → List Op → Outcome Prog
  | p, [] => .ok p
  | p, o :: os => step g p o >>= fun q => run g q os

end Solace.StrMem
