import Verif.Model.Recorders

/-!
Model of `inorder`, `graph/traversal/order.hpp:15-52,63-69`.
-/

namespace Actl.Traversal

variable {V E : Type} [DecidableEq V]

/-- The members of `inorder_printer`, `order.hpp:21-22`: the states of the vertices and what was put out. -/
structure InorderState (V : Type) where
  state : V → Int
  output : List V

/-- Conversion to `char`, which is signed or unsigned depending on the platform. -/
def toChar (signed : Bool) (x : Int) : Int := if signed then Int.bmod x 256 else x % 256

/-- `inorder_printer`, `order.hpp:20-52`; the states are of type `char`, `:65`. -/
def inorderPrinter (signed : Bool) (G : Graph V E) : Comp (InorderState V) V E where
  on ev s := match ev with
    | .init u => { s with state := put s.state u (toChar signed (-1)) }
    | .discover u => { s with state := put s.state u 0 }
    | .treeStart e =>
      { state := if s.state (G.src e) < 2 then put s.state (G.src e) (toChar signed (s.state (G.src e) + 1)) else s.state
        output := if 0 < s.state (G.src e) then s.output ++ [G.src e] else s.output }
    | .finish u => { s with output := if s.state u < 2 then s.output ++ [u] else s.output }
    | _ => s
  disc s v := s.state v != -1

/-- `inorder`, `order.hpp:63-69`. -/
def inorder (signed : Bool) (G : Graph V E) (fuel : Nat) (s : V) (state : V → Int) : Option (List V) :=
  (dfsFrom G (inorderPrinter signed G) (fun _ => false) fuel s ⟨state, []⟩).map (·.output)

end Actl.Traversal
