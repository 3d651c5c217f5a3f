import Verif.Model.TextTree
import Verif.Spec.IntText

/-! What structured values look like as text. -/

namespace Actl.TextTree

open Actl.Text

/-- The pieces of a text: numbers, booleans, characters, strings, and nothing where there is an empty tuple or array. -/
inductive Token
  | number (w : Nat) (signed : Bool) (x : Int)
  | flag (x : Bool)
  | char (x : Byte)
  | word (x : List Byte)
  | nothing

mutual

/-- The pieces of a value in order; containers begin with their size. -/
def tokens : (t : Ty) → Val t → List Token
  | .int w signed, x => [.number w signed x]
  | .bool, x => [.flag x]
  | .char, x => [.char x]
  | .str, x => [.word x]
  | .tuple .nil, _ => [.nothing]
  | .tuple (.cons t ts), x => tokens t x.1 ++ tokensTuple ts x.2
  | .array _ t, x => if List.isEmpty x then [.nothing] else List.flatMap (tokens t) x
  | .vec t, x => .number 64 false (List.length x) :: List.flatMap (tokens t) x
  | .seq t, x => .number 64 false (List.length x) :: List.flatMap (tokens t) x

/-- The same for the elements of a tuple. -/
def tokensTuple : (ts : Tys) → Vals ts → List Token
  | .nil, _ => []
  | .cons t ts, x => tokens t x.1 ++ tokensTuple ts x.2

end

/-- The text of one piece. -/
def Token.Shows (c : Cfg) : Token → List Byte → Prop
  | .number _ signed x, s => ∃ ds, IntText.Canonical c.num.base c.num.uppercase x.natAbs ds ∧
      s = IntText.signText signed c.num.showpos x ++
        IntText.prefixText c.num.showbase c.num.uppercase c.num.base x ++ ds
  | .flag x, s => s = if c.alpha then (if x then bytes "true" else bytes "false")
      else if x then bytes "1" else bytes "0"
  | .char x, s => s = [x]
  | .word x, s => s = x
  | .nothing, s => s = []

/-- The piece is the number zero. -/
def Token.isZero : Token → Prop
  | .number _ _ x => x = 0
  | _ => False

/-- The piece shows nothing but whitespace. -/
def Token.Blank : Token → Prop
  | .char x => isSpace x = true
  | .word x => ∀ b ∈ x, isSpace b = true
  | .nothing => True
  | _ => False

/-- What survives: a number if it is not zero or the `last` piece; a character unless it is whitespace and whitespace is skipped; a string if it has no whitespace, is the last piece
or followed by whitespace, and, if whitespace is skipped, is not empty unless only `blank` text follows. -/
def Token.Kept (c : Cfg) (r : Reader) (last blank : Prop) : Token → Prop
  | .number _ _ x => last ∨ x ≠ 0
  | .char x => r = .skipws → isSpace x = false
  | .word x => (∀ b ∈ x, isSpace b = false) ∧ (last ∨ ∃ b s, c.space = b :: s ∧ isSpace b = true) ∧
      (r = .skipws → x = [] → blank)
  | _ => True

mutual

/-- Objects of the type: numbers in range of their types (signed ones of 32 bits or more), arrays of the right size, containers that fit into
memory. -/
def Valid : (t : Ty) → Val t → Prop
  | .int w signed, x => (if signed then 32 else 8) ≤ w ∧ w ≤ 126 ∧ IntText.InRange w signed x
  | .bool, _ => True
  | .char, _ => True
  | .str, _ => True
  | .tuple ts, x => ValidTuple ts x
  | .array n t, x => List.length x = n ∧ ∀ y ∈ (show List (Val t) from x), Valid t y
  | .vec t, x => List.length x < 2 ^ 63 ∧ ∀ y ∈ (show List (Val t) from x), Valid t y
  | .seq t, x => List.length x < 2 ^ 63 ∧ ∀ y ∈ (show List (Val t) from x), Valid t y

/-- The same for the elements of a tuple. -/
def ValidTuple : (ts : Tys) → Vals ts → Prop
  | .nil, _ => True
  | .cons t ts, x => Valid t x.1 ∧ ValidTuple ts x.2

end

mutual

/-- Objects to read into: arrays of the right size, and containers without random access are empty. -/
def Ready : (t : Ty) → Val t → Prop
  | .int _ _, _ => True
  | .bool, _ => True
  | .char, _ => True
  | .str, _ => True
  | .tuple ts, x => ReadyTuple ts x
  | .array n t, x => List.length x = n ∧ ∀ y ∈ (show List (Val t) from x), Ready t y
  | .vec t, x => ∀ y ∈ (show List (Val t) from x), Ready t y
  | .seq t, x => (show List (Val t) from x) = []

/-- The same for the elements of a tuple. -/
def ReadyTuple : (ts : Tys) → Vals ts → Prop
  | .nil, _ => True
  | .cons t ts, x => Ready t x.1 ∧ ReadyTuple ts x.2

end

/-- The settings can be used for reading back what was written: a base from 2 to 36, a separator that cannot be
mistaken for a part of a number and, if whitespace is skipped, consists of whitespace. -/
structure Cfg.Sound (c : Cfg) (r : Reader) : Prop where
  base : 2 ≤ c.num.base ∧ c.num.base ≤ 36
  space : ∃ b s, c.space = b :: s ∧ IntText.isDig c.num.base b = false ∧
    b ∉ [lit 'x', lit 'X', lit 'b', lit 'B']
  white : r = .skipws → ∀ b ∈ c.space, isSpace b = true

end Actl.TextTree
