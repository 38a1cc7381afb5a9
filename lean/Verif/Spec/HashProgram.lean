import Verif.Model.HashProgram
import Verif.Spec.Md5
import Verif.Spec.Sha1
import Verif.Spec.Sha256
import Verif.Spec.Murmur3

/-
Programs with messages instead of hash objects.
-/
namespace Solace.Hash.Prog
open Spec

/-- What an object stands for: the message it was given — the last input for Murmur3. -/
inductive Msg where
  | md5 (m : List Byte)
  | sha1 (m : List Byte)
  | sha256 (m : List Byte)
  | sha3
  | murmur32 (seed : Word) (last : Option (List Byte))
  | murmur128 (seed : Word) (last : Option (List Byte))

def Msg.new : Kind → Msg
  | .md5 => .md5 []
  | .sha1 => .sha1 []
  | .sha256 => .sha256 []
  | .sha3 => .sha3
  | .murmur32 s => .murmur32 s none
  | .murmur128 s => .murmur128 s none

/-- The published algorithm a message is for. -/
def Msg.algorithm : Msg → Nat
  | .md5 _ => 0
  | .sha1 _ => 1
  | .sha256 _ => 2
  | .sha3 => 3
  | .murmur32 _ _ => 4
  | .murmur128 _ _ => 5

def Msg.give (b : List Byte) : Msg → Msg
  | .md5 m => .md5 (m ++ b)
  | .sha1 m => .sha1 (m ++ b)
  | .sha256 m => .sha256 (m ++ b)
  | .sha3 => .sha3
  | .murmur32 s _ => .murmur32 s (some b)
  | .murmur128 s _ => .murmur128 s (some b)

/-- The published digest of the message; of no input at all, zero for Murmur3; always zero for the stub of SHA-3. -/
def Msg.published : Msg → List Byte
  | .md5 m => Spec.Md5.md5 m
  | .sha1 m => Spec.Sha1.sha1 m
  | .sha256 m => Sha256.sha256 m
  | .sha3 => List.replicate 32 0#8
  | .murmur32 s (some b) => beBytes 4 (Murmur3.x86_32 s b).toNat
  | .murmur32 _ none => List.replicate 4 0#8
  | .murmur128 s (some b) => leBytes 8 (Murmur3.x64_128 s b).1.toNat ++ leBytes 8 (Murmur3.x64_128 s b).2.toNat
  | .murmur128 _ none => List.replicate 16 0#8

/-- What a digest does to the message: MD5 and the SHA family append the padding of the standard to it. -/
def Msg.padded : Msg → Msg
  | .md5 m => .md5 (Spec.padded (leBytes 8 (8 * m.length)) m)
  | .sha1 m => .sha1 (Spec.padded (beBytes 8 (8 * m.length)) m)
  | .sha256 m => .sha256 (Spec.padded (beBytes 8 (8 * m.length)) m)
  | m => m

structure SWorld where
  msgs : List Msg
  out : List (List Byte)

def SWorld.empty : SWorld := ⟨[], []⟩

def specStep (w : SWorld) : Op → SWorld
  | .make k => { w with msgs := w.msgs ++ [.new k] }
  | .copy x =>
    match w.msgs[x]? with
    | some m => { w with msgs := w.msgs ++ [m] }
    | none => w
  | .assign x y =>
    match w.msgs[x]?, w.msgs[y]? with
    | some a, some b => if a.algorithm = b.algorithm then { w with msgs := w.msgs.set x b } else w
    | _, _ => w
  | .assignBase _ _ => w
  | .update x _ b =>
    match w.msgs[x]? with
    | some m => { w with msgs := w.msgs.set x (m.give b) }
    | none => w
  | .digest x =>
    match w.msgs[x]? with
    | some m => ⟨w.msgs.set x m.padded, w.out ++ [m.published]⟩
    | none => w

def specRun (w : SWorld) (ops : List Op) : SWorld := ops.foldl specStep w

/-- The limits of C58 to C63: pieces below 4 GiB; for Murmur3 a little endian machine, aligned input, below 2 GiB. -/
def Msg.Takes (h : Host) (addr : Nat) (b : List Byte) : Msg → Prop
  | .md5 _ | .sha1 _ | .sha256 _ => b.length < 2 ^ 32
  | .sha3 => True
  | .murmur32 _ _ => h.big = false ∧ addr % 4 = 0 ∧ b.length < 2 ^ 31
  | .murmur128 _ _ => h.big = false ∧ addr % 8 = 0 ∧ b.length < 2 ^ 31

def Within (h : Host) (w : SWorld) : List Op → Prop
  | [] => True
  | op :: rest =>
    (match op with
      | .update x addr b => ∀ m, w.msgs[x]? = some m → m.Takes h addr b
      | _ => True) ∧ Within h (specStep w op) rest

/-! ### The naive reading: a digest is that of all the bytes given -/

/-- A message and whether a digest of it was taken. -/
structure Plain where
  msg : Msg
  taken : Bool

structure PWorld where
  objs : List Plain
  out : List (List Byte)

def plainStep (w : PWorld) : Op → PWorld
  | .make k => { w with objs := w.objs ++ [⟨.new k, false⟩] }
  | .copy x =>
    match w.objs[x]? with
    | some m => { w with objs := w.objs ++ [m] }
    | none => w
  | .assign x y =>
    match w.objs[x]?, w.objs[y]? with
    | some a, some b => if a.msg.algorithm = b.msg.algorithm then { w with objs := w.objs.set x b } else w
    | _, _ => w
  | .assignBase _ _ => w
  | .update x _ b =>
    match w.objs[x]? with
    | some m => { w with objs := w.objs.set x { m with msg := m.msg.give b } }
    | none => w
  | .digest x =>
    match w.objs[x]? with
    | some m => ⟨w.objs.set x { m with taken := true }, w.out ++ [m.msg.published]⟩
    | none => w

def plainRun (w : PWorld) (ops : List Op) : PWorld := ops.foldl plainStep w

/-- MD5 and the SHA family without the stub. -/
def Msg.Block : Msg → Prop
  | .md5 _ | .sha1 _ | .sha256 _ => True
  | _ => False

/-- No object of MD5, SHA-1 or SHA-256 gets more input, or another digest, after a digest was taken (of it or of what it was copied
from). -/
def Once (w : PWorld) : List Op → Prop
  | [] => True
  | op :: rest =>
    (match op with
      | .update x _ _ => ∀ p, w.objs[x]? = some p → p.msg.Block → p.taken = false
      | .digest x => ∀ p, w.objs[x]? = some p → p.msg.Block → p.taken = false
      | _ => True) ∧ Once (plainStep w op) rest

/-! ### The names -/

/-- The name each class reports. -/
def Kind.called : Kind → String
  | .md5 => "MD5"
  | .sha1 => "SHA1"
  | .sha256 => "SHA256"
  | .sha3 => "SHA3"
  | .murmur32 _ => "MURMUR3-32"
  | .murmur128 _ => "MURMUR3-128"

/-- Which names the variables have: a variable keeps the name it was made with. -/
def namesStep (names : List String) : Op → List String
  | .make k => names ++ [k.called]
  | .copy x => names ++ names[x]?.toList
  | _ => names

end Solace.Hash.Prog
