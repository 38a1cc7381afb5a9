import Verif.Model.Path
/-
Paths in sorted arrays and ordered containers.
-/
namespace Solace.Ordered

/-- `Path` has no `operator<`: the comparison a user gives, `a.compareTo(b) < 0`, src/path.cpp:135-151. -/
def pathLess (a b : Path) : Outcome Bool := do
  let r ← Path.compareTo a b
  pure (decide (r < 0))

end Solace.Ordered
