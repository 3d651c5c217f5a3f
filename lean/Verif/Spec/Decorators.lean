import Verif.Model.Decorators

/-!
# What spaced and braced text should look like

Independent of the flag the writer keeps: the text of a list of pieces is defined by looking at
neighbouring pieces.
-/

namespace Actl.Decor

/-- A piece of one level of output: a unit, or text that is glued to its neighbours. -/
inductive Piece
  | unit (t : List Char)
  | glue (t : List Char)

/-- The text of a piece. -/
def Piece.text : Piece → List Char
  | .unit t => t
  | .glue t => t

/-- The separator between two neighbours: only between two units. -/
def between (space : List Char) : Piece → Piece → List Char
  | .unit _, .unit _ => space
  | _, _ => []

/-- The text of one level: the pieces, with the separator exactly between neighbouring units. -/
def joined (space : List Char) : List Piece → List Char
  | [] => []
  | [p] => p.text
  | p :: q :: rest => p.text ++ between space p q ++ joined space (q :: rest)

/-- Text in brackets. -/
def wrap (o c : Char) (t : List Char) : List Char := [o] ++ t ++ [c]

mutual

/-- The pieces a value contributes to the level it is written at: a composite value is one unit,
whose text is the text of its own level, in its brackets if there are any; a batch is its parts. -/
def pieces (f : Fmt) : Val → List Piece
  | .atom t => [.unit t]
  | .str t =>
    [.unit (if f.braced then wrap '[' ']' (joined f.space (t.map fun c => .unit [c])) else t)]
  | .raw t => [.glue t]
  | .colon => [.glue f.colon]
  | .batch l => piecesAll f l
  | .tuple l =>
    let inner := joined f.space (piecesAll f l)
    [.unit (if f.braced then wrap '(' ')' inner else inner)]
  | .range .view l => [.unit (joined f.space (piecesAll f l))]
  | .range (.sequence dynamic) l =>
    if f.braced then [.unit (wrap '[' ']' (joined f.space (piecesAll f l)))]
    else if dynamic then [.unit (joined f.space (.unit (f.number l.length) :: piecesAll f l))]
    else [.unit (joined f.space (piecesAll f l))]
  | .range .associative l =>
    if f.braced then [.unit (wrap '{' '}' (joined f.space (piecesAll f l)))]
    else [.unit (joined f.space (.unit (f.number l.length) :: piecesAll f l))]

/-- The pieces of several values. -/
def piecesAll (f : Fmt) : List Val → List Piece
  | [] => []
  | x :: xs => pieces f x ++ piecesAll f xs

end

/-- A value that is one unit: anything but glued text and batches. -/
def IsUnit : Val → Prop
  | .raw _ | .colon | .batch _ => False
  | _ => True

/-- The text of a value that is a unit. -/
def render (f : Fmt) (x : Val) : List Char := joined f.space (pieces f x)

/-- The six bracket characters. -/
def isBracket (c : Char) : Bool := c ∈ ['(', ')', '[', ']', '{', '}']

/-- Matching brackets. -/
inductive Balanced : List Char → Prop
  | nil : Balanced []
  | append {a b} (ha : Balanced a) (hb : Balanced b) : Balanced (a ++ b)
  | round {a} (ha : Balanced a) : Balanced (wrap '(' ')' a)
  | square {a} (ha : Balanced a) : Balanced (wrap '[' ']' a)
  | curly {a} (ha : Balanced a) : Balanced (wrap '{' '}' a)

/-- No text given by the user contains brackets. -/
def Plain (t : List Char) : Prop := ∀ c ∈ t, isBracket c = false

mutual

/-- All the texts in a value are free of brackets. -/
def PlainVal : Val → Prop
  | .atom t | .str t | .raw t => Plain t
  | .colon => True
  | .batch l | .tuple l | .range _ l => PlainAll l

/-- All the texts in several values are free of brackets. -/
def PlainAll : List Val → Prop
  | [] => True
  | x :: xs => PlainVal x ∧ PlainAll xs

end

end Actl.Decor
