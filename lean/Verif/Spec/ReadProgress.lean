import Verif.Spec.TextTree

/-!
How many characters a value needs at least to be read from text.
-/

namespace Actl.TextTree

/-- A number, a boolean and a character need a character at least, a string all of its own. -/
def Token.least : Token → Nat
  | .number _ _ _ => 1
  | .flag _ => 1
  | .char _ => 1
  | .word w => w.length
  | .nothing => 0

/-- The sum over the pieces of the value; the size of a container is one of them. -/
def least (t : Ty) (v : Val t) : Nat := ((tokens t v).map Token.least).sum

end Actl.TextTree
