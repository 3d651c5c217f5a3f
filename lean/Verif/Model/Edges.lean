import Verif.Model.AdjacencyList

/-!
Model of the handles of edges, `graph/detail/edge.hpp`: what `==`, `<` and the hash of two handles of
edges of an `adjacency_list` compare.  A handle is `EdgeN`: its ends and `m_b`.
-/

namespace Actl.Storage

variable {V R β : Type} [LinearOrder V]

/-- `edge::id`, `edge.hpp:35-41`, with `CompareSource` (an adjacency list without an edge container,
`adjacency_list.hpp:196`). -/
def idN (e : EdgeN V) : V × Int := (e.1, e.2.2)

/-- `edge::id`, `edge.hpp:35-41`, without `CompareSource` (with an edge container,
`adjacency_list.hpp:68`). -/
def idC (e : EdgeN V) : Int := e.2.2

/-- `operator==`, `edge.hpp:53-55`, with that of `std::pair`. -/
def sameN (e f : EdgeN V) : Bool := decide ((idN e).1 = (idN f).1) && decide ((idN e).2 = (idN f).2)

/-- `operator==`, `edge.hpp:53-55`. -/
def sameC (e f : EdgeN V) : Bool := decide (idC e = idC f)

/-- `operator<`, `edge.hpp:47-49`, with that of `std::pair`. -/
def lessN (e f : EdgeN V) : Bool :=
  decide ((idN e).1 < (idN f).1) ||
    (!decide ((idN f).1 < (idN e).1) && decide ((idN e).2 < (idN f).2))

/-- `operator<`, `edge.hpp:47-49`. -/
def lessC (e f : EdgeN V) : Bool := decide (idC e < idC f)

/-- `hash`, `edge.hpp:60-62`; `h` is `hash_value` of the id. -/
def hashN (h : V × Int → Nat) (e : EdgeN V) : Nat := h (idN e)

/-- `hash`, `edge.hpp:60-62`. -/
def hashC (h : Int → Nat) (e : EdgeN V) : Nat := h (idC e)

/-- The bundle of an edge with an edge container: `get` of the map of the edge list,
`adjacency_list.hpp:43-57`, `edge_list.hpp:33-47`, which reads the container at the id. -/
def AdjC.bundle (g : AdjC V R β) (e : EdgeN V) : Option β := (g.edges.cont.at e.2.2).map Prod.snd

end Actl.Storage
