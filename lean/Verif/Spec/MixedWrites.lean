import Verif.Spec.MixedGraph

/-! What a history of insertions into a graph and of assignments to its bundles says. -/

namespace Actl.Storage

variable {α β : Type}

/-- A step of a program: a call with its answer, an assignment to the bundle of an edge, an assignment to that of a vertex. -/
inductive Event (α β : Type)
  | call (c : Insert α β) (a : Got)
  | setEdge (e : Int × Int × Int) (x : β)
  | setVertex (v : Int) (x : α)

/-- The calls of a history with their answers. -/
def calls (H : List (Event α β)) : List (Insert α β × Got) :=
  H.filterMap fun ev => match ev with
    | .call c a => some (c, a)
    | _ => none

/-- The bundle last assigned to the edge with this id. -/
def lastBundle (H : List (Event α β)) (id : Int) : Option β :=
  H.foldl (fun acc ev => match ev with
    | .setEdge e x => if e.2.2 = id then some x else acc
    | _ => acc) none

/-- The bundle last assigned to the vertex. -/
def lastValue (H : List (Event α β)) (v : Int) : Option α :=
  H.foldl (fun acc ev => match ev with
    | .setVertex w x => if w = v then some x else acc
    | _ => acc) none

end Actl.Storage
