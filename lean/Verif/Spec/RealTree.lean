import Verif.Model.RealTree
import Verif.Spec.TextTree
import Verif.Spec.RealRound

/-! What structured values with real numbers look like as text, and when two of them are close. -/

namespace Actl.RealTree

open Actl.Text
open Actl.TextTree (Reader)

variable {F : Type}

/-- The pieces of a text: real numbers and the pieces of C98. -/
inductive Token (F : Type)
  | real (x : F)
  | plain (tok : TextTree.Token)

mutual

/-- The pieces of a value in order; containers begin with their size. -/
def tokens : (t : Ty) → Val F t → List (Token F)
  | .real, x => [.real x]
  | .plain t, x => (TextTree.tokens t x).map .plain
  | .tuple .nil, _ => [.plain .nothing]
  | .tuple (.cons t ts), x => tokens t x.1 ++ tokensTuple ts x.2
  | .array _ t, x => if List.isEmpty x then [.plain .nothing] else List.flatMap (tokens t) x
  | .vec t, x => .plain (.number 64 false (List.length x)) :: List.flatMap (tokens t) x
  | .seq t, x => .plain (.number 64 false (List.length x)) :: List.flatMap (tokens t) x

/-- The same for the elements of a tuple. -/
def tokensTuple : (ts : Tys) → Vals F ts → List (Token F)
  | .nil, _ => []
  | .cons t ts, x => tokens t x.1 ++ tokensTuple ts x.2

end

variable [Field F] [LinearOrder F] [FloorSemiring F]

/-- The text of one piece: a real number is a sign and the fixed point text, with `precision` digits after the point, of a
multiple `n` of the last unit that is nearest to the number up to the error of the floating point operations. -/
def Token.Shows (c : Cfg F) (ε : F) : Token F → List Byte → Prop
  | .real x, s => ∃ n t, s = IntText.realSignText c.text.num.showpos (decide (x < 0)) ++ t ∧
      IntText.FixedPoint c.text.num.base c.text.num.uppercase c.showpoint c.precision n t ∧
      |(|x| * (c.text.num.base : F) ^ c.precision - n)| ≤ 1 / 2 + 2 * ε
  | .plain tok, s => tok.Shows c.text s

/-- The piece shows nothing but whitespace. -/
def Token.Blank : Token F → Prop
  | .real _ => False
  | .plain tok => tok.Blank

/-- What survives: all real numbers, zero included, and what survives in C98. -/
def Token.Kept (c : Cfg F) (r : Reader) (last blank : Prop) : Token F → Prop
  | .real _ => True
  | .plain tok => tok.Kept c.text r last blank

/-- The number with one more digit fits into 64 bits, and the floating point type is accurate enough for the precision. -/
def ValidReal (c : Cfg F) (ε x : F) : Prop :=
  IntText.Accurate c.fl ε (c.text.num.base ^ c.precision) |x| ∧ (c.text.num.base : F) * (|x| + 1) < 2 ^ 64

mutual

/-- Objects of the type as in C98, with valid real numbers. -/
def Valid (c : Cfg F) (ε : F) : (t : Ty) → Val F t → Prop
  | .real, x => ValidReal c ε x
  | .plain t, x => TextTree.Valid t x
  | .tuple ts, x => ValidTuple c ε ts x
  | .array n t, x => List.length x = n ∧ ∀ y ∈ (show List (Val F t) from x), Valid c ε t y
  | .vec t, x => List.length x < 2 ^ 63 ∧ ∀ y ∈ (show List (Val F t) from x), Valid c ε t y
  | .seq t, x => List.length x < 2 ^ 63 ∧ ∀ y ∈ (show List (Val F t) from x), Valid c ε t y

/-- The same for the elements of a tuple. -/
def ValidTuple (c : Cfg F) (ε : F) : (ts : Tys) → Vals F ts → Prop
  | .nil, _ => True
  | .cons t ts, x => Valid c ε t x.1 ∧ ValidTuple c ε ts x.2

end

omit [Field F] [LinearOrder F] [FloorSemiring F] in
mutual

/-- Objects to read into, as in C98. -/
def Ready : (t : Ty) → Val F t → Prop
  | .real, _ => True
  | .plain t, x => TextTree.Ready t x
  | .tuple ts, x => ReadyTuple ts x
  | .array n t, x => List.length x = n ∧ ∀ y ∈ (show List (Val F t) from x), Ready t y
  | .vec t, x => ∀ y ∈ (show List (Val F t) from x), Ready t y
  | .seq t, x => (show List (Val F t) from x) = []

/-- The same for the elements of a tuple. -/
def ReadyTuple : (ts : Tys) → Vals F ts → Prop
  | .nil, _ => True
  | .cons t ts, x => Ready t x.1 ∧ ReadyTuple ts x.2

end

/-- `z` is `x` up to half a unit of the last digit, the error of the output, and five roundings; integers up to `N` are the
same. -/
def CloseReal (c : Cfg F) (ε u : F) (N : Nat) (x z : F) : Prop :=
  (∃ v : F, |x - v| ≤ (1 / 2 + 2 * ε) / (c.text.num.base : F) ^ c.precision ∧ IntText.UpTo u 5 v z) ∧
    ∀ I : Nat, I ≤ N → |x| = I → z = x

mutual

/-- The second value has the shape of the first, the same parts other than real numbers, and close real numbers. -/
def Close (c : Cfg F) (ε u : F) (N : Nat) : (t : Ty) → Val F t → Val F t → Prop
  | .real, x, z => CloseReal c ε u N x z
  | .plain _, x, z => z = x
  | .tuple ts, x, z => CloseTuple c ε u N ts x z
  | .array _ t, x, z => List.Forall₂ (Close c ε u N t) x z
  | .vec t, x, z => List.Forall₂ (Close c ε u N t) x z
  | .seq t, x, z => List.Forall₂ (Close c ε u N t) x z

/-- The same for the elements of a tuple. -/
def CloseTuple (c : Cfg F) (ε u : F) (N : Nat) : (ts : Tys) → Vals F ts → Vals F ts → Prop
  | .nil, _, _ => True
  | .cons t ts, x, z => Close c ε u N t x.1 z.1 ∧ CloseTuple c ε u N ts x.2 z.2

end

/-- The settings can be used for reading back what was written: as in C98, the separator does not begin with a point, no prefix is
written, the digits after the point fit into 64 bits, and the floating point type rounds with relative error `u` and has
the integers up to `N` and one half. -/
structure Cfg.Sound (c : Cfg F) (r : Reader) (u : F) (N : Nat) : Prop where
  text : c.text.Sound r
  point : ∀ b s, c.text.space = b :: s → b ≠ lit '.'
  noprefix : c.text.num.showbase = false ∨ (c.text.num.base ≠ 8 ∧ c.text.num.base ≠ 16)
  power : c.text.num.base ^ c.precision < 2 ^ 64
  rounding : IntText.Rounding c.fl u
  integers : ∀ n : Nat, n ≤ N → c.fl n = n
  half : c.fl 2⁻¹ = 2⁻¹

end Actl.RealTree
