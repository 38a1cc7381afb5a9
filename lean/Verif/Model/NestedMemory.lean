import Verif.Model.PathMemory
/-
Containers of owning objects: vectors, arrays and dictionaries whose elements are strings or again vectors, arrays and dictionaries
(/repo/include/solace/vector.hpp, array.hpp, dictionary.hpp): which blocks are asked for, handed on with an element and given back, when the
memory manager may refuse any request. The manager, its blocks and strings are those of `Verif.Model.PathMemory`.

The objects are trees: a container has the block of its elements, and its elements. Elements that own memory can be moved but not copied, so the
functions that copy elements do not occur. Element types are not checked: programs that mix types are no C++ programs, what is proved holds
for them as well. All moves are `noexcept`.
-/
namespace Solace.Nested
open PathMem

/-- An object: `String`; `Vector` with block, capacity and elements (vector.hpp:292-294); `Array` with block and elements (array.hpp:299-300);
`Dictionary` with the two vectors `_lookup` and `_values` (dictionary.hpp:213-214). -/
inductive Val where
  | str (o : SObj)
  | vec (block : Option Nat) (cap : Nat) (es : List Val)
  | arr (block : Option Nat) (es : List Val)
  | dict (kb : Option Nat) (kcap : Nat) (ks : List Val) (vb : Option Nat) (vcap : Nat) (vs : List Val)
deriving Repr

inductive Kind where
  | str | vec | arr | dict
deriving DecidableEq, Repr

def Val.kind : Val → Kind
  | .str _ => .str
  | .vec .. => .vec
  | .arr .. => .arr
  | .dict .. => .dict

/-- A default constructed object: string.hpp:50, vector.hpp:70, array.hpp:70, dictionary.hpp:127. -/
def Kind.empty : Kind → Val
  | .str => .str .empty
  | .vec => .vec none 0 []
  | .arr => .arr none []
  | .dict => .dict none 0 [] none 0 []

/-- What is left of an object that was moved: string.hpp:55-60, vector.hpp:76-79, array.hpp:73-77, the implicit move constructor of
`Dictionary`; memoryResource.hpp:72-76. -/
def Val.left (v : Val) : Val := v.kind.empty

mutual
/-- The destructors: `~String`; `~Vector`, vector.hpp:67, 277-284, and `~Array`, array.hpp:64, 288-293, the elements in order, then `_buffer`;
`~Dictionary`, the members in reverse order. -/
def drop : Val → Heap → Outcome Heap
  | .str o, h => dropStr h o
  | .vec b _ es, h => dropAll es h >>= fun h1 => freeOpt h1 b
  | .arr b es, h => dropAll es h >>= fun h1 => freeOpt h1 b
  | .dict kb _ ks vb _ vs, h => dropAll vs h >>= fun h1 => freeOpt h1 vb >>= fun h2 => dropAll ks h2 >>= fun h3 => freeOpt h3 kb
/-- The destructors of several objects, in this order. -/
def dropAll : List Val → Heap → Outcome Heap
  | [], h => .ok h
  | v :: vs, h => drop v h >>= fun h1 => dropAll vs h1
end

/-! ### Programs -/

abbrev Vars := List (Option Val)

structure Prog where
  heap : Heap
  vars : Vars
deriving Repr

def init : Prog := ⟨⟨0, 0, 0, []⟩, []⟩

def get (vs : Vars) (i : Nat) : Option Val := (vs[i]?).join

/-- Arguments `mv(a), mv(b), ...` from which objects are constructed in this order: the objects, and the variables then. `none`: one of them
does not exist. -/
def moveAll : Vars → List Nat → Option (List Val × Vars)
  | vs, [] => some ([], vs)
  | vs, i :: is =>
    match get vs i with
    | none => none
    | some v =>
      match moveAll (vs.set i (some v.left)) is with
      | none => none
      | some (xs, vs') => some (v :: xs, vs')

/-- The number of elements that have room in a block for `n` elements of `sz` bytes: the size is computed modulo 2^64. -/
def room (sz n : Nat) : Nat := wrap64 (n * sz) / sz

/-- The position of a key, `find`, dictionary.hpp:179-190. Keys are strings here. -/
def position (key : List Byte) : List Val → Option Nat
  | [] => none
  | .str o :: ks => if o.text = key then some 0 else (position key ks).map (· + 1)
  | _ :: ks => (position key ks).map (· + 1)

inductive Op where
  /-- `makeString(text)` -/
  | string (s : List Byte)
  /-- a default constructed object -/
  | fresh (k : Kind)
  /-- `makeVector<T>(n)` with `sizeof(T) = sz` -/
  | vector (sz n : Nat)
  /-- `makeVectorOf<T>(mv(a), mv(b), ...)` -/
  | vectorOf (sz : Nat) (is : List Nat)
  /-- `makeArray<T>(n)` -/
  | array (sz n : Nat) (k : Kind)
  /-- `makeArrayOf<T>(mv(a), mv(b), ...)` -/
  | arrayOf (sz : Nat) (is : List Nat)
  /-- `makeDictionary<K, V>(n)` -/
  | dictionary (ksz vsz n : Nat)
  /-- `makeDictionary(mv(i), mv(j))` of two vectors -/
  | dictionaryOf (i j : Nat)
  /-- `i.emplace_back(mv(j))` -/
  | push (i j : Nat)
  | pop (i : Nat)
  | clear (i : Nat)
  | toArray (i : Nat)
  /-- `i.put(mv(j), mv(k))` -/
  | put (i j k : Nat)
  /-- a new variable constructed from `mv(i[k])` -/
  | take (i k : Nat)
  /-- `i[k] = mv(j)` -/
  | store (i k j : Nat)
  /-- a new variable constructed from `mv(*i.find(key))` -/
  | fetch (i : Nat) (key : List Byte)
  /-- `*i.find(key) = mv(j)` -/
  | change (i : Nat) (key : List Byte) (j : Nat)
  | moveCtor (i : Nat)
  /-- `i = mv(j)` -/
  | assign (i j : Nat)
  | swap (i j : Nat)
  /-- `i = nullptr` -/
  | null (i : Nat)
  | destroy (i : Nat)
deriving DecidableEq, Repr

/-- The elements that `[]` of an array and the iterators of a vector give access to, and the object with other elements. -/
def Val.elems : Val → Option (List Val)
  | .vec _ _ es => some es
  | .arr _ es => some es
  | _ => none

def Val.withElems : Val → List Val → Val
  | .vec b c _, es => .vec b c es
  | .arr b _, es => .arr b es
  | v, _ => v

/-- One statement: the state after it, and whether the call succeeded (no error returned, nothing thrown, something found). Statements that name
a variable that does not exist, was destroyed or is of another kind are no C++ programs; they change nothing here and count as failed. -/
def step (g : Policy) (p : Prog) : Op → Outcome (Prog × Bool)
  | .string s => newStr g p.heap s >>= fun r =>
    match r.2 with
    | .ok o => pure (⟨r.1, p.vars ++ [some (.str o)]⟩, true)
    | .error _ => pure (⟨r.1, p.vars⟩, false)
  | .fresh k => .ok (⟨p.heap, p.vars ++ [some k.empty]⟩, true)
  -- vector.hpp:374-397
  | .vector sz n =>
    match allocate g p.heap (wrap64 (n * sz)) with
    | (h1, .error _) => .ok (⟨h1, p.vars⟩, false)
    | (h1, .ok (b, _)) => .ok (⟨h1, p.vars ++ [some (.vec (some b) (room sz n) [])]⟩, true)
  -- vector.hpp:527-543, arrayView.hpp:396-404: objects beyond the end of the block
  | .vectorOf sz is =>
    match moveAll p.vars is with
    | none => .ok (p, false)
    | some (xs, vs) =>
      match allocate g p.heap (wrap64 (is.length * sz)) with
      | (h1, .error _) => .ok (⟨h1, p.vars⟩, false)
      | (h1, .ok (b, _)) =>
        if room sz is.length < is.length then .ub
        else .ok (⟨h1, vs ++ [some (.vec (some b) (room sz is.length) xs)]⟩, true)
  -- array.hpp:353-380, array_utils.hpp:49-63
  | .array sz n k =>
    match allocate g p.heap (wrap64 (n * sz)) with
    | (h1, .error _) => .ok (⟨h1, p.vars⟩, false)
    | (h1, .ok (b, _)) => .ok (⟨h1, p.vars ++ [some (.arr (some b) (List.replicate (room sz n) k.empty))]⟩, true)
  -- array.hpp:466-484
  | .arrayOf sz is =>
    match moveAll p.vars is with
    | none => .ok (p, false)
    | some (xs, vs) =>
      match allocate g p.heap (wrap64 (is.length * sz)) with
      | (h1, .error _) => .ok (⟨h1, p.vars⟩, false)
      | (h1, .ok (b, _)) =>
        if room sz is.length < is.length then .ub
        else .ok (⟨h1, vs ++ [some (.arr (some b) xs)]⟩, true)
  -- dictionary.hpp:251-267: without memory for the values, the vector of the keys is destroyed
  | .dictionary ksz vsz n =>
    match allocate g p.heap (wrap64 (n * ksz)) with
    | (h1, .error _) => .ok (⟨h1, p.vars⟩, false)
    | (h1, .ok (kb, _)) =>
      match allocate g h1 (wrap64 (n * vsz)) with
      | (h2, .error _) => free h2 kb >>= fun h3 => pure (⟨h3, p.vars⟩, false)
      | (h2, .ok (vb, _)) => .ok (⟨h2, p.vars ++ [some (.dict (some kb) (room ksz n) [] (some vb) (room vsz n) [])]⟩, true)
  -- dictionary.hpp:226-230
  | .dictionaryOf i j =>
    match get p.vars i, get p.vars j with
    | some (.vec kb kc ks), some (.vec vb vc vs) =>
      if i = j then .ok (p, false)
      else .ok (⟨p.heap, (p.vars.set i (some (Kind.empty .vec))).set j (some (Kind.empty .vec)) ++ [some (.dict kb kc ks vb vc vs)]⟩, true)
    | _, _ => .ok (p, false)
  -- vector.hpp:210-228: nothing is moved when there is no room
  | .push i j =>
    match get p.vars i, get p.vars j with
    | some (.vec b c es), some x =>
      if i = j ∨ c ≤ es.length then .ok (p, false)
      else .ok ({ p with vars := (p.vars.set i (some (.vec b c (es ++ [x])))).set j (some x.left) }, true)
    | _, _ => .ok (p, false)
  -- vector.hpp:244-253
  | .pop i =>
    match get p.vars i with
    | some (.vec b c es) =>
      match es.getLast? with
      | none => .ok (p, true)
      | some x => drop x p.heap >>= fun h => pure (⟨h, p.vars.set i (some (.vec b c es.dropLast))⟩, true)
    | _ => .ok (p, false)
  -- vector.hpp:260-264: from the last element to the first
  | .clear i =>
    match get p.vars i with
    | some (.vec b c es) => dropAll es.reverse p.heap >>= fun h => pure (⟨h, p.vars.set i (some (.vec b c []))⟩, true)
    | _ => .ok (p, false)
  -- vector.hpp:271-273
  | .toArray i =>
    match get p.vars i with
    | some (.vec b _ es) => .ok (⟨p.heap, p.vars.set i (some (Kind.empty .vec)) ++ [some (.arr b es)]⟩, true)
    | _ => .ok (p, false)
  -- dictionary.hpp:145-175: the key is moved into the parameter, which is destroyed when the call fails
  | .put i j k =>
    match get p.vars i, get p.vars j with
    | some (.dict kb kc ks vb vc vs), some key =>
      match get (p.vars.set j (some key.left)) k with
      | none => .ok (p, false)
      | some x =>
        if i = j ∨ i = k then .ok (p, false)
        else if vc ≤ vs.length then drop key p.heap >>= fun h => pure (⟨h, p.vars.set j (some key.left)⟩, false)
        else if kc ≤ ks.length then
          drop x p.heap >>= fun h => drop key h >>= fun h' =>
            pure (⟨h', (p.vars.set j (some key.left)).set k (some x.left)⟩, false)
        else .ok (⟨p.heap, ((p.vars.set j (some key.left)).set k (some x.left)).set i
          (some (.dict kb kc (ks ++ [key]) vb vc (vs ++ [x])))⟩, true)
    | _, _ => .ok (p, false)
  | .take i k =>
    match get p.vars i with
    | none => .ok (p, false)
    | some v =>
      match v.elems with
      | none => .ok (p, false)
      | some es =>
        match es[k]? with
        | none => .ok (p, false)
        | some x => .ok (⟨p.heap, p.vars.set i (some (v.withElems (es.set k x.left))) ++ [some x]⟩, true)
  -- assignment exchanges: string.hpp:86-88, vector.hpp:81-85, array.hpp:103-105
  | .store i k j =>
    match get p.vars i, get p.vars j with
    | some v, some y =>
      match v.elems with
      | none => .ok (p, false)
      | some es =>
        match es[k]? with
        | none => .ok (p, false)
        | some x =>
          if i = j ∨ x.kind ≠ y.kind then .ok (p, false)
          else .ok (⟨p.heap, (p.vars.set i (some (v.withElems (es.set k y)))).set j (some x)⟩, true)
    | _, _ => .ok (p, false)
  -- dictionary.hpp:179-190: the iterator of the values is not checked against their end
  | .fetch i key =>
    match get p.vars i with
    | some (.dict kb kc ks vb vc vs) =>
      match position key ks with
      | none => .ok (p, false)
      | some n =>
        match vs[n]? with
        | none => .ub
        | some x => .ok (⟨p.heap, p.vars.set i (some (.dict kb kc ks vb vc (vs.set n x.left))) ++ [some x]⟩, true)
    | _ => .ok (p, false)
  | .change i key j =>
    match get p.vars i, get p.vars j with
    | some (.dict kb kc ks vb vc vs), some y =>
      match position key ks with
      | none => .ok (p, false)
      | some n =>
        match vs[n]? with
        | none => .ub
        | some x =>
          if i = j ∨ x.kind ≠ y.kind then .ok (p, false)
          else .ok (⟨p.heap, (p.vars.set i (some (.dict kb kc ks vb vc (vs.set n y)))).set j (some x)⟩, true)
    | _, _ => .ok (p, false)
  | .moveCtor i =>
    match get p.vars i with
    | none => .ok (p, false)
    | some v => .ok (⟨p.heap, p.vars.set i (some v.left) ++ [some v]⟩, true)
  -- a swap: string.hpp:86-88, vector.hpp:81-85, array.hpp:103-105; the implicit assignment of `Dictionary` does it for both members
  | .assign i j =>
    match get p.vars i, get p.vars j with
    | some a, some b =>
      if a.kind ≠ b.kind then .ok (p, false)
      else .ok (⟨p.heap, (p.vars.set i (some b)).set j (some a)⟩, true)
    | _, _ => .ok (p, false)
  -- string.hpp:78-84, vector.hpp:101-107, array.hpp:89-95; `std::swap` for dictionaries
  | .swap i j =>
    match get p.vars i, get p.vars j with
    | some a, some b =>
      if a.kind ≠ b.kind then .ok (p, false)
      else .ok (⟨p.heap, (p.vars.set i (some b)).set j (some a)⟩, true)
    | _, _ => .ok (p, false)
  -- vector.hpp:109-112, 277-284; array.hpp:97-101, 288-293: the size of the array stays, and with it the elements that were destroyed
  | .null i =>
    match get p.vars i with
    | some (.vec b c es) => dropAll es p.heap >>= fun h => pure (⟨h, p.vars.set i (some (.vec b c []))⟩, true)
    | some (.arr _ es) => dropAll es p.heap >>= fun h => pure (⟨h, p.vars⟩, true)
    | _ => .ok (p, false)
  | .destroy i =>
    match get p.vars i with
    | none => .ok (p, false)
    | some v => drop v p.heap >>= fun h => pure (⟨h, p.vars.set i none⟩, true)

def run (g : Policy) : Prog → List Op → Outcome Prog
  | p, [] => .ok p
  | p, o :: os => step g p o >>= fun q => run g q.1 os

end Solace.Nested
