import Verif.Model.Text
import Mathlib.Data.Nat.Digits.Defs

/-!
Independent meaning of integer texts.
-/

namespace Actl.IntText

open Actl.Text

/-- Digit characters by value. -/
def lowerDigits : List Byte := bytes "0123456789abcdefghijklmnopqrstuvwxyz"
def upperDigits : List Byte := bytes "0123456789ABCDEFGHIJKLMNOPQRSTUVWXYZ"

/-- The value of a digit character, either case. -/
def digitVal (c : Byte) : Option Nat :=
  match lowerDigits.findIdx? (· == c) with
  | some d => some d
  | none => upperDigits.findIdx? (· == c)

/-- Is `c` a digit in base `B`? -/
def isDig (B : Nat) (c : Byte) : Bool :=
  match digitVal c with
  | some d => d < B
  | none => false

/-- Value of a digit character (0 for other characters; used on digits only). -/
def dval (c : Byte) : Nat := (digitVal c).getD 0

/-- The number a digit string denotes in base `B`, most significant digit first. -/
def numeral (B : Nat) (ds : List Byte) : Nat := Nat.ofDigits B (ds.map dval).reverse

/-- `ds` is the canonical numeral of `n` in base `B`: non-empty, digits of the right case only,
denoting `n`, no leading zero unless `n` is zero (and then it is the single digit `0`). -/
structure Canonical (B : Nat) (upper : Bool) (n : Nat) (ds : List Byte) : Prop where
  nonempty : ds ≠ []
  digits : ∀ c ∈ ds, isDig B c = true ∧ c ∈ (if upper then upperDigits else lowerDigits)
  value : numeral B ds = n
  canonical : ds.head? = some (lit '0') → ds = [lit '0']

/-- The sign that has to be written. -/
def signText (signed showpos : Bool) (x : Int) : List Byte :=
  if x < 0 then [lit '-'] else if signed && showpos then [lit '+'] else []

/-- The base prefix that has to be written. -/
def prefixText (showbase upper : Bool) (B : Nat) (x : Int) : List Byte :=
  if showbase && x != 0 then
    if B = 8 then [lit '0']
    else if B = 16 then [lit '0', if upper then lit 'X' else lit 'x'] else []
  else []

/-- The values of an integer type of width `w`. -/
def InRange (w : Nat) (signed : Bool) (x : Int) : Prop :=
  if signed then -(2 ^ (w - 1) : Int) ≤ x ∧ x < 2 ^ (w - 1) else 0 ≤ x ∧ x < 2 ^ w

/-! ### Reading -/

/-- Optional sign (`-` for signed types only). -/
def splitSign (signed : Bool) : List Byte → Bool × List Byte
  | [] => (false, [])
  | c :: s =>
    if c = lit '-' ∧ signed = true then (true, s)
    else if c = lit '+' then (false, s) else (false, c :: s)

/-- Optional base prefix: the base in which the digits are to be read, and the rest.
`b = 0` asks for detection; `0x`/`0b` are accepted with `b = 16`/`b = 2` as well.  A leading `0`
that does not start a prefix is an ordinary digit. -/
def splitPrefix (b : Nat) (s : List Byte) : Nat × List Byte :=
  match s with
  | [] => (b, [])
  | z :: r =>
    if z = lit '0' then
      match r with
      | [] => (if b = 0 then 8 else b, s)
      | c :: r' =>
        if (c = lit 'x' ∨ c = lit 'X') ∧ (b = 0 ∨ b = 16) then (16, r')
        else if (c = lit 'b' ∨ c = lit 'B') ∧ (b = 0 ∨ b = 2) then (2, r')
        else (if b = 0 then 8 else b, s)
    else (if b = 0 then 10 else b, s)

/-- The digits of the numeral at the start of `s` and what follows them. -/
def readDigits (signed : Bool) (b : Nat) (s : List Byte) : Nat × List Byte × List Byte :=
  let (B, r) := splitPrefix b (splitSign signed s).2
  (B, r.takeWhile (isDig B), r.dropWhile (isDig B))

/-- How many characters belong to the numeral. -/
def specConsumed (signed : Bool) (b : Nat) (s : List Byte) : Nat :=
  s.length - (readDigits signed b s).2.2.length

/-- The value read: none if there is no digit or the value does not fit. -/
def specValue (w : Nat) (signed : Bool) (b : Nat) (s : List Byte) : Option Int :=
  let (B, ds, _) := readDigits signed b s
  let v : Int := if (splitSign signed s).1 then -(numeral B ds : Int) else numeral B ds
  if ds = [] then none
  else if signed then
    if -(2 ^ (w - 1) : Int) ≤ v ∧ v < 2 ^ (w - 1) then some v else none
  else if v < 2 ^ w then some v else none

/-- A single digit `0` followed by more (non-digit) input: the case the code gets wrong. -/
def LoneZero (signed : Bool) (b : Nat) (s : List Byte) : Prop :=
  let (_, r) := splitPrefix b (splitSign signed s).2
  (∃ c t, r = lit '0' :: c :: t ∧ (readDigits signed b s).2.1 = [lit '0']) ∧
    r = (splitSign signed s).2

end Actl.IntText
