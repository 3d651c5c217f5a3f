import Verif.Model.MixedEdges
import Verif.Spec.MixedWrites

/-!
Model of programs on an `adjacency_list` with an edge container that insert vertices and edges and assign to the bundles of both:
`graph/adjacency_list.hpp:43-53, 324-332`, `graph/vertex_list.hpp:26-36, 88-91`, `graph/detail/adj_list_vertices.hpp:29-39`.

Simplifications as in `Model/MixedEdges.lean` and `Model/Bundles.lean`.
-/

namespace Actl.Storage

open Actl.Ids

variable {α R β κ : Type} [LinearOrder κ]

/-- `graph[e] = x`, `adjacency_list.hpp:43-45, 51-53`. -/
def MixedC.writeEdge (g : MixedC α R β) (e : EdgeN Int) (x : β) : Option (MixedC α R β) :=
  (g.adj.write e x).map fun a => { g with adj := a }

/-- `graph[v] = x`, `adj_list_vertices.hpp:29-39`. -/
def MixedC.writeVertex (g : MixedC α R β) (v : Int) (x : α) : Option (MixedC α R β) :=
  (Storage.writeVertex g.vs v x).map fun c => { g with vs := c }

/-- The graphs reached by programs.  Calls are allowed as without assignments; edges are designated by a handle with the id of one that
was returned; bundles of vertices are only assigned where the container of the vertices does not compare them. -/
inductive MadeW (key : α → κ) (dflt : α) (ordV : Order α) (rep : Rep Int R) (o : OrdersC Int R β) (junk : Int) (dir : Dir)
    (hasOut : Bool) (k ke kv : Kind) : MixedC α R β → List (Event α β) → Prop
  | init : MadeW key dflt ordV rep o junk dir hasOut k ke kv (MixedC.init dir hasOut k ke kv) []
  | call {g H c g' a} : MadeW key dflt ordV rep o junk dir hasOut k ke kv g H → LegalC k ke kv (calls H) c →
      g.insert key dflt ordV rep o junk c = some (g', a) →
      MadeW key dflt ordV rep o junk dir hasOut k ke kv g' (H ++ [.call c a])
  | setEdge {g H e x g'} : MadeW key dflt ordV rep o junk dir hasOut k ke kv g H →
      (∃ c ∈ edgeCalls (calls H), ∃ f, c.2 = some f ∧ f.2.2 = e.2.2) → g.writeEdge e x = some g' →
      MadeW key dflt ordV rep o junk dir hasOut k ke kv g' (H ++ [.setEdge e x])
  | setVertex {g H v x g'} : MadeW key dflt ordV rep o junk dir hasOut k ke kv g H → kv.assoc = false →
      g.writeVertex v x = some g' →
      MadeW key dflt ordV rep o junk dir hasOut k ke kv g' (H ++ [.setVertex v x])

end Actl.Storage
