import Verif.Model.TextAssoc
import Verif.Spec.TextTree

/-! What sets and maps look like as text, and which can be read back. -/

namespace Actl.TextAssoc

open Actl.Text
open TextTree (Token Reader)

/-- A value of a map: a colon before its first piece. -/
def behindColon : List (Bool × Token) → List (Bool × Token)
  | [] => []
  | p :: ps => (true, p.2) :: ps

/-- The pieces of a value in order, each with whether it is a colon that comes before it; containers begin with their
size. -/
def pieces : (t : Ty) → Val t → List (Bool × Token)
  | .base t, x => (TextTree.tokens t x).map fun tok => (false, tok)
  | .pair a b, x => pieces a x.1 ++ pieces b x.2
  | .vec t, x => (false, .number 64 false (List.length x)) :: List.flatMap (pieces t) x
  | .set _ t, x => (false, .number 64 false (List.length x)) :: List.flatMap (pieces t) x
  | .map _ k t, x => (false, .number 64 false (List.length x)) ::
      List.flatMap (fun e => (TextTree.tokens k e.1).map (fun tok => (false, tok)) ++ behindColon (pieces t e.2)) x

/-- The texts of the pieces with the separators in between. -/
def joined (c : Cfg) : List (Bool × List Byte) → List Byte
  | [] => []
  | p :: ps => p.2 ++ ps.flatMap fun q => (if q.1 then c.colon else c.text.space) ++ q.2

/-- In order of a comparison: strictly for unique containers. -/
def Ordered {α : Type} (unique : Bool) (less : α → α → Bool) (xs : List α) : Prop :=
  xs.Pairwise fun x y => if unique then less x y = true else less y x = false

/-- Objects of the type: containers fit into memory, sets and maps are sorted. -/
def Valid (less : Less) : (t : Ty) → Val t → Prop
  | .base t, x => TextTree.Valid t x
  | .pair a b, x => Valid less a x.1 ∧ Valid less b x.2
  | .vec t, x => List.length x < 2 ^ 63 ∧ ∀ y ∈ (show List (Val t) from x), Valid less t y
  | .set u t, x => List.length x < 2 ^ 63 ∧ Ordered u (less.elem t) x ∧ ∀ y ∈ (show List (Val t) from x), Valid less t y
  | .map u k t, x => List.length x < 2 ^ 63 ∧ Ordered u (fun a b => less.key k a.1 b.1) x ∧
      ∀ y ∈ (show List (TextTree.Val k × Val t) from x), TextTree.Valid k y.1 ∧ Valid less t y.2

/-- Objects to read into: containers filled by insertion are empty. -/
def Ready : (t : Ty) → Val t → Prop
  | .base t, x => TextTree.Ready t x
  | .pair a b, x => Ready a x.1 ∧ Ready b x.2
  | .vec t, x => ∀ y ∈ (show List (Val t) from x), Ready t y
  | .set _ t, x => x = ([] : List (Val t))
  | .map _ k t, x => x = ([] : List (TextTree.Val k × Val t))

/-- A type without maps. -/
def NoMap : Ty → Prop
  | .base _ => True
  | .pair a b => NoMap a ∧ NoMap b
  | .vec t => NoMap t
  | .set _ t => NoMap t
  | .map _ _ _ => False

mutual

/-- Made of empty strings only. -/
def AllEmpty : (k : TextTree.Ty) → TextTree.Val k → Prop
  | .str, x => x = ([] : List Byte)
  | .tuple ts, x => AllEmptyTuple ts x
  | .array n t, x => List.length x = n ∧ ∀ y ∈ (show List (TextTree.Val t) from x), AllEmpty t y
  | _, _ => False

/-- The same for the elements of a tuple. -/
def AllEmptyTuple : (ts : TextTree.Tys) → TextTree.Vals ts → Prop
  | .nil, _ => True
  | .cons t ts, x => AllEmpty t x.1 ∧ AllEmptyTuple ts x.2

end

/-- All keys of maps are value-initialized objects: made of empty strings. -/
def BlankKeys : (t : Ty) → Val t → Prop
  | .base _, _ => True
  | .pair a b, x => BlankKeys a x.1 ∧ BlankKeys b x.2
  | .vec t, x => ∀ y ∈ (show List (Val t) from x), BlankKeys t y
  | .set _ t, x => ∀ y ∈ (show List (Val t) from x), BlankKeys t y
  | .map _ k t, x => ∀ y ∈ (show List (TextTree.Val k × Val t) from x), AllEmpty k y.1 ∧ BlankKeys t y.2

end Actl.TextAssoc
