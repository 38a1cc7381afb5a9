import Verif.Model.ViewObject
/-
`ArrayView<T>` objects and the functions that make them (/repo/include/solace/arrayView.hpp:40-154, 176-196, 270-276, 407-469):
the address and the number of bytes of the memory view inside, for `sz = sizeof(T)`. What the elements hold is in Model/ArrayView,
alignment in Model/Alignment.
-/
namespace Solace.Typed

open ViewObj (View)

/-- `ArrayView()` and `ArrayView(nullptr)`, arrayView.hpp:60-64. -/
def null : View := View.null

/-- `arrayView(ptr, length)`, arrayView.hpp:439-450: the number of bytes is computed in 64 bits; `make` is `wrapMemory`. -/
def ofPointer (sz ptr length : Nat) : Outcome View := ViewObj.make ptr (wrap64 (sz * length))

/-- `arrayView(begin, end)`, arrayView.hpp:459-470. `k` is `end - begin`, a signed number of elements; the difference is defined
only for pointers into the same array. It is converted to 64 bits unsigned before the multiplication. -/
def ofRange (sz begin_ : Nat) (k : Int) : Outcome View :=
  ViewObj.make begin_ (wrap64 (sz * (k % (2 ^ 64 : Int)).toNat))

/-- `ArrayView(T (&)[N])` and `arrayView(T (&)[N])`, arrayView.hpp:78-81, 453-455, with `wrapMemory`, memoryView.hpp:274-278. -/
def ofArray (sz addr n : Nat) : Outcome View := (ViewObj.make addr (wrap64 (n * sz))).noexcept

/-- `ArrayView(MemoryViewType)` and `arrayView<T>(memory)`, arrayView.hpp:74-76, 426-436: any number of bytes. -/
def ofMemory (v : View) : View := v

/-- `size()`, arrayView.hpp:161-163. -/
def count (sz : Nat) (v : View) : Nat := v.size / sz

/-- `empty()`, arrayView.hpp:147-149, and `== nullptr`, 412-422. -/
def empty (v : View) : Bool := v.size == 0

/-- `begin()` and `data()`, arrayView.hpp:180-184, 188-192, 196: the null pointer for an empty view. -/
def begin_ (v : View) : Nat := if v.size = 0 then 0 else v.addr

/-- `end()`, arrayView.hpp:186, 194. -/
def end_ (sz : Nat) (v : View) : Nat := begin_ v + count sz v * sz

/-- The variables of a program that hold array views of one type. -/
abbrev Vars := List View

/-- `swap`, arrayView.hpp:86-90, 407-410. -/
def swap (vs : Vars) (i j : Nat) : Vars :=
  match vs[i]?, vs[j]? with
  | some a, some b => (vs.set i b).set j a
  | _, _ => vs

/-- Copy assignment, arrayView.hpp:92-96: a copy is made and exchanged with the target, then it ends. -/
def assign (vs : Vars) (i j : Nat) : Vars :=
  match vs[j]? with
  | some b => (swap (vs ++ [b]) vs.length i).dropLast
  | none => vs

/-- Move assignment, arrayView.hpp:98-100. -/
def assignMove (vs : Vars) (i j : Nat) : Vars := swap vs i j

/-- The move constructor, arrayView.hpp:70-72, with memoryView.hpp:109-113. -/
def moveCtor (vs : Vars) (i : Nat) : Vars :=
  match vs[i]? with
  | some a => vs.set i View.null ++ [a]
  | none => vs

end Solace.Typed
