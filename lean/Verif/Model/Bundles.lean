import Verif.Model.Edges
import Verif.Model.VertexEdgeList

/-!
Model of the assignment of bundles: `graph[e] = x`, `put(graph[edge_property{}], e, x)`, and the same of
vertices.

`graph[edge_property{}]` is the edge container followed by `static_member_map<&Pair::second>`
(`get_second`, `mimic_pair.hpp:74-82`; `member_map.hpp:34-44`, `:64-73`; `composite_map.hpp:58-96`) or
`edge_map`.  `get` returns a reference to the bundle, to which `graph[e] = x` assigns; `put` assigns to what
`get` returns (`traits.hpp:132-139`, `adjacency_list.hpp:152-154`).  So both are one definition here.  The
element of a set or hash set is reached through the `const_cast` of `id_at`, `container_id.hpp:164-167`.
`none` is undefined behaviour, or the assertion of a debug build.  The overloads for constant graphs do not
compile and are left out.
-/

namespace Actl.Storage

open Actl.Ids

variable {V R α β κ : Type} [LinearOrder V] [LinearOrder κ]

/-- `try_add_edge` of an edge list, `edge_list.hpp:79-88`, with the edge returned only if it was added. -/
def EdgeList.add (rep : Rep V R) (key : R → κ) (ord : Order (R × β)) (el : EdgeList R β) (c : V × V × β) :
    Option (EdgeList R β × Option (EdgeN V)) :=
  let r := el.tryAddEdge rep key ord c.1 c.2.1 c.2.2
  some (r.1, if r.2.2 then some r.2.1 else none)

/-- `graph[e]` of an edge list, `edge_list.hpp:41-47`. -/
def EdgeList.bundle (el : EdgeList R β) (e : EdgeN V) : Option β := (el.cont.at e.2.2).map Prod.snd

/-- `graph[e] = x` of an edge list, `edge_list.hpp:33-35, 41-43`. -/
def EdgeList.write (el : EdgeList R β) (e : EdgeN V) (x : β) : Option (EdgeList R β) :=
  match el.cont.at e.2.2 with
  | none => none
  | some _ => some { el with cont := el.cont.modify e.2.2 fun d => (d.1, x) }

/-- `graph[e] = x` of an adjacency list with an edge container, `adjacency_list.hpp:43-45, 51-53`. -/
def AdjC.write (g : AdjC V R β) (e : EdgeN V) (x : β) : Option (AdjC V R β) :=
  match g.edges.write e x with
  | none => none
  | some el => some { g with edges := el }

/-- `graph[e] = x` of an adjacency list without one, `adjacency_list.hpp:147-154, 170-172, 178-180`.  `Ref`
is `T&` also for undirected graphs: `add_const_if_t` (`type_traits.hpp:15-19`) adds the `const` to a
reference, which does nothing. -/
def AdjN.write (g : AdjN V β) (e : EdgeN V) (x : β) : Option (AdjN V β) :=
  if e.1 ∉ g.vertices then none
  else match (g.outs e.1).at e.2.2 with
    | none => none
    | some _ =>
      some { g with outs := setAt g.outs e.1 ((g.outs e.1).modify e.2.2 fun d => (d.1, x)) }

/-- `graph[v] = x` of the vertices with their bundles, `vertex_list.hpp:26-36`; of an adjacency list the same,
through `get_second`, `adj_list_vertices.hpp:29-39`: what `std::set` compares of a vertex is its bundle
(`adj_list_traits.hpp:26-35`, `mimic_pair.hpp:32-37`). -/
def writeVertex (vs : Cont α) (v : Int) (x : α) : Option (Cont α) :=
  match vs.at v with
  | none => none
  | some _ => some (vs.modify v fun _ => x)

end Actl.Storage
