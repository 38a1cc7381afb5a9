import Verif.Model.StringView
/-
Strings of the library as keys of `std::unordered_set` and `std::unordered_map` (libstdc++, `bits/hashtable.h`), with the hash that the comment at stringView.hpp:564-575
would give: `hashCode()`, src/stringView.cpp:221-232, and `operator==`, which is `equals`, src/stringView.cpp:38-52.

A table is the list of its buckets; a bucket is the chain of its keys. When the table grows, and to how many buckets, is not modelled: a program can do so at any time.
Memory is never refused. The keys' characters stay where they are and unchanged.
-/
namespace Solace.HashTable

abbrev Key := List Byte

/-- `_Mod_range_hashing`. -/
def bucketOf (n : Nat) (k : Key) : Nat := (StringView.hashCode k).toNat % n

/-- `_M_find_before_node`: the first key of the chain that is equal. -/
def search (k : Key) : List Key → Option Key
  | [] => none
  | x :: xs => if StringView.equals k x then some x else search k xs

/-- `find`. Without any bucket the index is outside of the table. -/
def find (bs : List (List Key)) (k : Key) : Outcome (Option Key) :=
  match bs[bucketOf bs.length k]? with
  | none => .ub
  | some b => .ok (search k b)

/-- `_M_insert_bucket_begin`. -/
def place (bs : List (List Key)) (k : Key) : Outcome (List (List Key)) :=
  match bs[bucketOf bs.length k]? with
  | none => .ub
  | some b => .ok (bs.set (bucketOf bs.length k) (k :: b))

/-- `insert`: the table, and whether the key is new. -/
def insert (bs : List (List Key)) (k : Key) : Outcome (List (List Key) × Bool) := do
  let r ← find bs k
  match r with
  | some _ => pure (bs, false)
  | none => do
    let bs' ← place bs k
    pure (bs', true)

/-- The chain without the first key that is equal. -/
def unlink (k : Key) : List Key → List Key
  | [] => []
  | x :: xs => if StringView.equals k x then xs else x :: unlink k xs

/-- `erase(k)`. -/
def erase (bs : List (List Key)) (k : Key) : Outcome (List (List Key)) :=
  match bs[bucketOf bs.length k]? with
  | none => .ub
  | some b => .ok (bs.set (bucketOf bs.length k) (unlink k b))

def placeAll (bs : List (List Key)) : List Key → Outcome (List (List Key))
  | [] => pure bs
  | k :: ks => do
    let bs' ← place bs k
    placeAll bs' ks

/-- `_M_rehash`, to `m + 1` buckets; keys are not compared. -/
def rehash (bs : List (List Key)) (m : Nat) : Outcome (List (List Key)) := placeAll (List.replicate (m + 1) []) bs.flatten

inductive Op where
  | insert (k : Key) | erase (k : Key) | rehash (m : Nat)
deriving DecidableEq, Repr

def step (bs : List (List Key)) : Op → Outcome (List (List Key))
  | .insert k => do
    let r ← insert bs k
    pure r.1
  | .erase k => erase bs k
  | .rehash m => rehash bs m

/-- A new table has one bucket. -/
def run (bs : List (List Key)) : List Op → Outcome (List (List Key))
  | [] => pure bs
  | o :: os => do
    let bs' ← step bs o
    run bs' os

end Solace.HashTable
