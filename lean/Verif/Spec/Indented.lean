import Verif.Model.Indented

/-!
# What indented text should look like

A value is an outline: a list of entries, each with its depth of nesting.  The text of an outline is
defined from the outline alone.
-/

namespace Actl.Indent

open Actl.Decor (Val RangeKind)

/-- An entry of an outline. -/
inductive Entry
  /-- a line at some depth -/
  | line (depth : Nat) (t : List Char)
  /-- text that continues the current line -/
  | more (t : List Char)
  /-- the beginning of a scope -/
  | scope

mutual

/-- The outline of a value at a depth: tuples are a line followed by their parts one deeper, ranges
are their elements one deeper, with the number of elements first if it is written; strings and raw
text continue the current line. -/
def outline (f : Fmt) (d : Nat) : Val → List Entry
  | .atom t => [.line d t]
  | .str t => [.more t]
  | .raw t => [.more t]
  | .colon => [.line d []]
  | .batch l => outlineAll f d l
  | .tuple l => .line d [] :: .scope :: outlineAll f (d + 1) l
  | .range k l =>
    .scope :: ((if k.writesSize then
      [.line (d + 1) [], .scope, .line (d + 2) (f.number l.length)] else []) ++
        outlineAll f (d + 1) l)

/-- The outline of several values. -/
def outlineAll (f : Fmt) (d : Nat) : List Val → List Entry
  | [] => []
  | x :: xs => outline f d x ++ outlineAll f d xs

end

/-- A line on its own: the end of the previous line, the indentation of its depth, and the text. -/
def lineText (f : Fmt) (d : Nat) (t : List Char) : List Char :=
  f.endl :: List.replicate (f.count * d) f.fill ++ t

/-- An entry that is not the first. -/
def Entry.text (f : Fmt) : Entry → List Char
  | .line d t => lineText f d t
  | .more t => t
  | .scope => []

/-- The text of an outline: the first line, unless a scope came before it, starts where the output
starts, every other line on its own. -/
def outlineText (f : Fmt) : List Entry → List Char
  | [] => []
  | .line _ t :: rest => t ++ rest.flatMap (Entry.text f)
  | .more t :: rest => t ++ outlineText f rest
  | .scope :: rest => rest.flatMap (Entry.text f)

/-- The characters that are not line ends. -/
def lines (endl : Char) (t : List Char) : List (List Char) := t.splitOn endl

end Actl.Indent
