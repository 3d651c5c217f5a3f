import Verif.Model.AdjacencyList
import Verif.Model.Connectivity
import Verif.Model.Bfs

/-! # Adjacency lists as the graphs of the searches

The searches (`graph/traversal/depth_first_search.hpp`, `graph/traversal/breadth_first_search.hpp` and what is
built on them) use of a graph `vertices()` (`graph/vertex_list.hpp:73-75`), `out_edges(u)`
(`graph/adjacency_list.hpp:294-299`), and `source()`, `target()` of an edge (`graph/detail/edge.hpp:23-29`).  These
are here those of an adjacency list.  Simplification: an out-edge range whose construction is undefined is empty
here; that this does not happen is part of `adjacencyN_history` and `adjacencyC_history`.
-/

namespace Actl.Storage

open Actl.Traversal

variable {V R β : Type} [LinearOrder V]

/-- What a search sees of an adjacency list without an edge container. -/
def AdjN.graph (g : AdjN V β) : Graph V (EdgeN V) where
  vertices := g.vertices
  out u := (g.outEdges u).getD []
  src e := e.1
  tgt e := e.2.1

/-- What a search sees of an adjacency list with an edge container. -/
def AdjC.graph (rep : Rep V R) (g : AdjC V R β) : Graph V (EdgeN V) where
  vertices := g.vertices
  out u := (g.outEdges rep u).getD []
  src e := e.1
  tgt e := e.2.1

end Actl.Storage
