import Verif.Spec.TextTree
import Verif.Model.Buffered

/-! The calls that write a value as text to a device. -/

namespace Actl.TextTree

open Actl.Text

/-- The call that writes a piece shown as `s`: `write(char)` for a character, `write(span)` for everything else. -/
def Token.call : Token → List Byte → Buffered.WOp
  | .char x, _ => .put x
  | _, s => .write s

end Actl.TextTree
