import Verif.Model.AdjacencyList
import Verif.Model.VertexEdgeList
import Verif.Model.Built
import Verif.Spec.MixedGraph

/-!
Model of an `adjacency_list` without an edge container together with the container of its vertices:
`graph/adjacency_list.hpp:252-370`, `graph/vertex_list.hpp`, `graph/detail/adj_list_vertices.hpp`.

`m_vertices` has one element for each vertex: its edges and its bundle, `mimic_pair<vertex_edges, bundle, 2>`, compared by the
bundle (`adj_list_traits.hpp:69-74`).  Here the bundles are a container of ids (`Model/Ids.lean`) and the edges are kept by id, in
`Model/AdjacencyList.lean`.  Simplification: nodes get increasing addresses.
-/

namespace Actl.Storage

open Actl.Ids Actl.Traversal

/-- The vertices and the rest of an `adjacency_list`; the field `vertices` of `adj` is not used, see `Mixed.see`. -/
structure Mixed (α β : Type) where
  vs : Cont α
  adj : AdjN Int β

variable {α β κ : Type} [LinearOrder κ] (key : α → κ) (dflt : α) (ordV : Order α)

/-- An empty graph: `kv` is the kind of the vertex container, `k` that of the out-edge containers. -/
def Mixed.init (dir : Dir) (k kv : Kind) : Mixed α β := ⟨Cont.empty kv, AdjN.init dir k []⟩

/-- The graph with `vertices()`, `vertex_list.hpp:73-75`. -/
def Mixed.see (g : Mixed α β) : Option (AdjN Int β) := g.vs.ids.map fun l => { g.adj with vertices := l }

/-- `vertices()`, `vertex_list.hpp:73-75`. -/
def Mixed.vertices (g : Mixed α β) : Option (List Int) := g.vs.ids

/-- `try_add_vertex`, `vertex_list.hpp:88-91`; the new vertex has no edges, `adj_list_traits.hpp:96-100`. -/
def Mixed.tryAddVertex (g : Mixed α β) (x : α) : Mixed α β × Int × Bool :=
  let r := g.vs.idEmplace key ordV x
  ({ g with vs := r.1 }, r.2)

/-- `vertex_count`, `vertex_list.hpp:63-65`. -/
def Mixed.vertexCount (g : Mixed α β) : Nat := g.vs.items.length

/-- `graph[u]`, `adj_list_vertices.hpp:41-43`. -/
def Mixed.atVertex (g : Mixed α β) (u : Int) : Option α := g.vs.at u

/-- The start of `try_add_edge`, `adjacency_list.hpp:326-330`. -/
def Mixed.growTo (g : Mixed α β) (u v : Int) : Option (Mixed α β) :=
  if g.vs.kind.ra then
    let n := max u v
    if n ≥ g.vertexCount then
      if n < 2 ^ 31 - 1 then some { g with vs := resizeVec g.vs dflt (n + 1).toNat } else none
    else some g
  else some g

/-- `try_add_edge`, `adjacency_list.hpp:324-332`. -/
def Mixed.tryAddEdge (o : OrdersN Int β) (moved : β → β) (g : Mixed α β) (u v : Int) (b : β) :
    Option (Mixed α β × Option (EdgeN Int)) :=
  match g.growTo dflt u v with
  | none => none
  | some g =>
    match g.see with
    | none => none
    | some a =>
      match a.tryAddEdgeImpl o moved u v b with
      | none => none
      | some (a, e) => some ({ g with adj := a }, e)

/-- `remove_vertex`, `vertex_list.hpp:98-100`, inherited: the element of the vertex with its edges is erased; behind it in a vector
the others move down by one.  The edges of other vertices and the edge count stay. -/
def Mixed.removeVertex (g : Mixed α β) (u : Int) : Option (Mixed α β) :=
  (g.vs.idErase u).map fun vs =>
    { vs := vs
      adj := if g.vs.kind.ra then
          { g.adj with
            outs := fun i => if i < u then g.adj.outs i else g.adj.outs (i + 1)
            ins := fun i => if i < u then g.adj.ins i else g.adj.ins (i + 1) }
        else g.adj }

/-! ### Histories -/

/-- One call and its answer. -/
def Mixed.insert (key : α → κ) (dflt : α) (ordV : Order α) (o : OrdersN Int β) (moved : β → β) (g : Mixed α β) :
    Insert α β → Option (Mixed α β × Got)
  | .vertex x => some ((g.tryAddVertex key ordV x).1,
      .vertex (g.tryAddVertex key ordV x).2.1 (g.tryAddVertex key ordV x).2.2)
  | .edge u v b => (g.tryAddEdge dflt o moved u v b).map fun r => (r.1, .edge r.2)

/-- The calls allowed after a history: the ends of an edge are numbers less than the greatest `int` if vertices are numbered, and
otherwise vertices returned before; a vector never has more elements than ids. -/
def Legal (k kv : Kind) (log : List (Insert α β × Got)) : Insert α β → Prop
  | .vertex _ => kv = .vec → numbered 0 log < 2 ^ 31 - 1
  | .edge u v _ => (k = .vec → (edgeCalls log).length + 1 < 2 ^ 31) ∧
      (if kv = .vec then 0 ≤ u ∧ u < 2 ^ 31 - 1 else ∃ c ∈ vertexCalls log, c.2.1 = u) ∧
      (if kv = .vec then 0 ≤ v ∧ v < 2 ^ 31 - 1 else ∃ c ∈ vertexCalls log, c.2.1 = v)

/-- The graphs reached by allowed calls, and the calls with their answers.  `kv` is the kind of the vertex container, `k` that of the
out-edge containers. -/
inductive Made (key : α → κ) (dflt : α) (ordV : Order α) (o : OrdersN Int β) (moved : β → β) (dir : Dir) (k kv : Kind) :
    Mixed α β → List (Insert α β × Got) → Prop
  | init : Made key dflt ordV o moved dir k kv (Mixed.init dir k kv) []
  | snoc {g log c g' a} : Made key dflt ordV o moved dir k kv g log → Legal k kv log c →
      g.insert key dflt ordV o moved c = some (g', a) → Made key dflt ordV o moved dir k kv g' (log ++ [(c, a)])

end Actl.Storage
