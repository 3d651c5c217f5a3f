import Verif.Model.MixedGraph
import Verif.Model.Bundles

/-!
Model of an `adjacency_list` with an edge container together with the container of its vertices:
`graph/adjacency_list.hpp:27-128, 252-370`, `graph/vertex_list.hpp`, `graph/detail/adj_list_vertices.hpp`.

As `Model/MixedGraph.lean`, with the out-edges and the edge container of `AdjC` (`Model/AdjacencyList.lean`).  Simplification: nodes get
increasing addresses; the ids of nodes (`void*`) are these numbers.
-/

namespace Actl.Storage

open Actl.Ids Actl.Traversal

/-- The vertices and the rest of an `adjacency_list` with an edge container; the field `vertices` of `adj` is not used, see
`MixedC.see`. -/
structure MixedC (α R β : Type) where
  vs : Cont α
  adj : AdjC Int R β

variable {α R β κ : Type} [LinearOrder κ] (key : α → κ) (dflt : α) (ordV : Order α)

/-- An empty graph: `kv` is the kind of the vertex container, `k` that of the out-edge containers, `ke` that of the edge container;
`hasOut` is `has_out_vertex`, `adj_list_traits.hpp:42-44`. -/
def MixedC.init (dir : Dir) (hasOut : Bool) (k ke kv : Kind) : MixedC α R β := ⟨Cont.empty kv, AdjC.init dir hasOut k ke []⟩

/-- The graph with `vertices()`, `vertex_list.hpp:73-75`. -/
def MixedC.see (g : MixedC α R β) : Option (AdjC Int R β) := g.vs.ids.map fun l => { g.adj with vertices := l }

/-- `vertices()`, `vertex_list.hpp:73-75`. -/
def MixedC.vertices (g : MixedC α R β) : Option (List Int) := g.vs.ids

/-- `try_add_vertex`, `vertex_list.hpp:88-91`; the new vertex has no edges, `adj_list_traits.hpp:96-100`. -/
def MixedC.tryAddVertex (g : MixedC α R β) (x : α) : MixedC α R β × Int × Bool :=
  let r := g.vs.idEmplace key ordV x
  ({ g with vs := r.1 }, r.2)

/-- `vertex_count`, `vertex_list.hpp:63-65`. -/
def MixedC.vertexCount (g : MixedC α R β) : Nat := g.vs.items.length

/-- `graph[u]`, `adj_list_vertices.hpp:41-43`. -/
def MixedC.atVertex (g : MixedC α R β) (u : Int) : Option α := g.vs.at u

/-- The start of `try_add_edge`, `adjacency_list.hpp:326-330`. -/
def MixedC.growTo (g : MixedC α R β) (u v : Int) : Option (MixedC α R β) :=
  if g.vs.kind.ra then
    let n := max u v
    if n ≥ g.vertexCount then
      if n < 2 ^ 31 - 1 then some { g with vs := resizeVec g.vs dflt (n + 1).toNat } else none
    else some g
  else some g

/-- `try_add_edge`, `adjacency_list.hpp:324-332`. -/
def MixedC.tryAddEdge (rep : Rep Int R) (o : OrdersC Int R β) (junk : Int) (g : MixedC α R β) (u v : Int) (b : β) :
    Option (MixedC α R β × Option (EdgeN Int)) :=
  match g.growTo dflt u v with
  | none => none
  | some g =>
    match g.see with
    | none => none
    | some a =>
      match a.tryAddEdgeImpl rep o junk u v b with
      | none => none
      | some (a, e) => some ({ g with adj := a }, e)

/-- `remove_vertex`, `vertex_list.hpp:98-100`, inherited: the element of the vertex with its out-edges is erased; behind it in a vector
the others move down by one.  The out-edges of other vertices and the edge container stay. -/
def MixedC.removeVertex (g : MixedC α R β) (u : Int) : Option (MixedC α R β) :=
  (g.vs.idErase u).map fun vs =>
    { vs := vs
      adj := if g.vs.kind.ra then
          { g.adj with
            outs := fun i => if i < u then g.adj.outs i else g.adj.outs (i + 1)
            ins := fun i => if i < u then g.adj.ins i else g.adj.ins (i + 1) }
        else g.adj }

/-! ### Histories -/

/-- One call and its answer. -/
def MixedC.insert (key : α → κ) (dflt : α) (ordV : Order α) (rep : Rep Int R) (o : OrdersC Int R β) (junk : Int)
    (g : MixedC α R β) : Insert α β → Option (MixedC α R β × Got)
  | .vertex x => some ((g.tryAddVertex key ordV x).1,
      .vertex (g.tryAddVertex key ordV x).2.1 (g.tryAddVertex key ordV x).2.2)
  | .edge u v b => (g.tryAddEdge dflt rep o junk u v b).map fun r => (r.1, .edge r.2)

/-- The calls allowed after a history: those of a graph without an edge container (`Legal`), where a vector of edges does not have more
elements than ids either. -/
def LegalC (k ke kv : Kind) (log : List (Insert α β × Got)) : Insert α β → Prop
  | .vertex x => Legal k kv log (.vertex x)
  | .edge u v b => Legal k kv log (.edge u v b) ∧ (ke = .vec → (edgeCalls log).length + 1 < 2 ^ 31)

/-- The graphs reached by allowed calls, and the calls with their answers. -/
inductive MadeC (key : α → κ) (dflt : α) (ordV : Order α) (rep : Rep Int R) (o : OrdersC Int R β) (junk : Int) (dir : Dir)
    (hasOut : Bool) (k ke kv : Kind) : MixedC α R β → List (Insert α β × Got) → Prop
  | init : MadeC key dflt ordV rep o junk dir hasOut k ke kv (MixedC.init dir hasOut k ke kv) []
  | snoc {g log c g' a} : MadeC key dflt ordV rep o junk dir hasOut k ke kv g log → LegalC k ke kv log c →
      g.insert key dflt ordV rep o junk c = some (g', a) →
      MadeC key dflt ordV rep o junk dir hasOut k ke kv g' (log ++ [(c, a)])

end Actl.Storage
