import Verif.Model.StringView
/-! What a C number parser reads at the start of a text: white space, a sign, digits. Independent of `strtoul`'s model. -/
namespace Solace.Numeral

/-- The white space of the "C" locale. -/
def blank (c : Byte) : Prop := c = 0x20#8 ∨ c = 0x09#8 ∨ c = 0x0A#8 ∨ c = 0x0B#8 ∨ c = 0x0C#8 ∨ c = 0x0D#8

def digit (c : Byte) : Prop := 0x30 ≤ c.toNat ∧ c.toNat ≤ 0x39

/-- The number written by digits. -/
def value : List Byte → Nat
  | [] => 0
  | c :: cs => (c.toNat - 0x30) * 10 ^ cs.length + value cs

/-- `text` begins with white space, a sign and at least one digit; `ds` are all the digits there are. -/
structure Begins (text ws sign ds rest : List Byte) : Prop where
  parts : text = ws ++ (sign ++ (ds ++ rest))
  blanks : ∀ c ∈ ws, blank c
  signed : sign = [] ∨ sign = [0x2B#8] ∨ sign = [0x2D#8]
  some_digit : ds ≠ []
  digits : ∀ c ∈ ds, digit c
  all_digits : ∀ c, rest.head? = some c → ¬digit c

/-- `text` begins with a number: its 32-bit value and what follows it. A number of 2^64 or more counts as 2^64 - 1, a minus
sign negates modulo 2^64. A text that does not begin with a number counts as zero, and all of it follows. -/
def Reads (text : List Byte) (v : Nat) (rest : List Byte) : Prop :=
  (∃ ws sign ds, Begins text ws sign ds rest ∧
    v = (if 2 ^ 64 ≤ value ds then 2 ^ 64 - 1 else if sign = [0x2D#8] then 2 ^ 64 - value ds else value ds) % 2 ^ 32) ∨
  ((¬∃ ws sign ds r, Begins text ws sign ds r) ∧ v = 0 ∧ rest = text)

/-- Reading a number at the start of `text` is over before the text is: after white space, a sign and digits, each possibly
missing, comes a character that cannot continue any of them. -/
def Ends (text : List Byte) : Prop :=
  ∃ ws sign ds x r, text = ws ++ (sign ++ (ds ++ x :: r)) ∧ (∀ c ∈ ws, blank c) ∧
    (sign = [] ∨ sign = [0x2B#8] ∨ sign = [0x2D#8]) ∧ (∀ c ∈ ds, digit c) ∧ ¬digit x ∧
    (sign = [] → ds = [] → ¬blank x ∧ x ≠ 0x2B#8 ∧ x ≠ 0x2D#8)

end Solace.Numeral
