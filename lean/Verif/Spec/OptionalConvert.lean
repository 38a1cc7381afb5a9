import Verif.Model.OptionalConvert
/-! What is expected of making optionals from values and optionals: written with the depth of nesting only. -/
namespace Solace.OptConv

/-- `Optional<...Optional<T>...>` with `n` optionals around payload type `k`. -/
def nest : Nat → Nat → Ty
  | 0, k => .base k
  | n + 1, k => .opt (nest n k)

/-- The values of a type. -/
def HasTy : Ty → Val → Prop
  | .base _, .leaf _ => True
  | .opt _, .none => True
  | .opt t, .some v => HasTy t v
  | _, _ => False

/-- `n` engaged optionals around a value. -/
def wraps : Nat → Val → Val
  | 0, v => v
  | n + 1, v => .some (wraps n v)

/-- Each payload replaced by its image in `d` further optionals; what is empty stays empty. -/
def spread (d : Nat) (f : Nat → Nat) : Val → Val
  | .leaf n => wraps d (.leaf (f n))
  | .none => .none
  | .some v => .some (spread d f v)

/-- Whether an optional has content, as a `bool`. -/
def engaged : Val → Nat
  | .some _ => 1
  | _ => 0

/-- The optional at depth `n` replaced by whether it has content. -/
def ask : Nat → Val → Val
  | 0, v => .leaf (engaged v)
  | n + 1, .some v => .some (ask n v)
  | _ + 1, v => v

/-- What the payload types allow: the value made and the value left, for an argument that may be moved from or not. -/
def leafRule (lib : Lib) (j k : Nat) (mayMove : Bool) : Option ((Nat → Nat) × (Nat → Nat)) :=
  if j = k then
    if mayMove then some (id, lib.moved) else if lib.copyable k then some (id, id) else none
  else
    match lib.conv j k with
    | .no => none
    | .standard f | .user f => some (f, id)

end Solace.OptConv
