import Verif.Model.Output
import Verif.Model.Exception
/-
Model of the program /repo/examples/ds_parser.cpp: it parses its arguments as dial strings and prints the parts. Arguments are the
characters of C strings before the terminating NUL. What is written to `std::cout` and `std::cerr` is collected in two texts; the
streams stay in a good state.
-/
namespace Solace.DsParser
open Exn (lit signedText)

/-- What has been written to the two streams. -/
structure Streams where
  out : List Byte
  err : List Byte
deriving DecidableEq, Repr

/-- `usage`, ds_parser.cpp:27-39. -/
def usage (progname : List Byte) (s : Streams) : Streams :=
  let s := { s with out := s.out ++ lit "Usage: " ++ progname ++ lit "[-h] " ++ lit " <STRING>..." ++ lit "\n" }
  { s with out := s.out ++ lit "Parse a dial string\n\n" ++ lit "Options: \n" ++ lit " -h - Display help and exit\n" ++ lit "\n" }

/-- The conversion of the argument to a `StringView`, stringView.cpp:29-35: the length is narrowed to 16 bits. -/
def viewOf (arg : List Byte) : List Byte := arg.take (wrap16 arg.length)

/-- The two errors of `tryParseDailString`, dialstring.cpp:25, 37: the same code and tag. -/
def theError : ErrorValue := ErrorValue.makeError ErrorValue.basicInvalidInput (lit "tryParseDailString")

/-- `parseAndPrint`, ds_parser.cpp:42-60. `m` is the registry of error domains, `name` and `message` their virtual functions;
`none`: the parser does not come to an end within the fuel. -/
def parseAndPrint {D : Type} (name : D → List Byte) (message : D → BitVec 32 → List Byte) (m : Dict (BitVec 64) D) (fuel : Nat)
    (arg : List Byte) (s : Streams) : Option (Outcome Streams) :=
  match DialString.parse fuel (viewOf arg) with
  | none => none
  | some (.error _) =>
    some (Output.error name message signedText m theError >>= fun e =>
      .ok { s with err := s.err ++ lit "Failed to parse \"" ++ arg ++ lit "\": " ++ e ++ lit "\n" })
  | some (.ok ds) =>
    let protoString := Atom.toBuffer ds.protocol
    let s := { s with out := s.out ++ lit "protocol: \"" ++ Output.chars protoString ++ lit "\"\n" ++
                             lit "address: \"" ++ ds.address ++ lit "\"\n" }
    some (.ok (if ds.service.length ≠ 0 then { s with out := s.out ++ lit "service: \"" ++ ds.service ++ lit "\"\n" } else s))

/-- The loop of `main`, ds_parser.cpp:72-76, over the arguments that are left. -/
def loop {D : Type} (name : D → List Byte) (message : D → BitVec 32 → List Byte) (m : Dict (BitVec 64) D) (fuel : Nat) :
    List (List Byte) → Streams → Option (Outcome Streams)
  | [], s => some (.ok s)
  | arg :: rest, s =>
    match parseAndPrint name message m fuel arg s with
    | some (.ok s') => loop name message m fuel rest (if rest.length ≠ 0 then { s' with out := s'.out ++ lit "\n" } else s')
    | r => r

/-- `main`, ds_parser.cpp:65-79: the streams and the exit status. Without `argv[0]` a null pointer is printed. -/
def main {D : Type} (name : D → List Byte) (message : D → BitVec 32 → List Byte) (m : Dict (BitVec 64) D) (fuel : Nat) :
    List (List Byte) → Option (Outcome (Streams × Nat))
  | [] => some .ub
  | [progname] => some (.ok (usage progname ⟨[], []⟩, 0))
  | progname :: first :: more =>
    if first = lit "-h" ∨ first = lit "--help" then some (.ok (usage progname ⟨[], []⟩, 0))
    else (loop name message m fuel (first :: more) ⟨[], []⟩).map fun r => r >>= fun s => .ok (s, 0)

end Solace.DsParser
