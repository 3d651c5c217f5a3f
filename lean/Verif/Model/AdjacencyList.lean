import Verif.Model.EdgeList

/-!
Model of `graph/adjacency_list.hpp`, `graph/detail/adj_list_vertices.hpp`,
`graph/detail/adj_list_traits.hpp`, `graph/detail/adj_list_iterators.hpp`, `graph/vertex_list.hpp`.

Vertices are of a linearly ordered type: `int` for a random access vertex container, otherwise the
address of a node (`iterator_id::operator<`, `container_id.hpp:45-47`).  The out-edge and in-edge
containers of a vertex are empty until an edge is added to them; the data of vertices is left out.
`none` is undefined behaviour (or the assertion of a debug build) or a loop not ended within its fuel.

There are two models: without an edge container (`adjacency_list.hpp:188-242`), where the out-edges hold
the bundles, and with one (`:60-133`), where they hold ids of edges.
-/

namespace Actl.Storage

open Actl.Ids

/-- The selectors of `Directed`, `selectors.hpp:14-16`. -/
inductive Dir | directed | undirected | bidirectional
deriving DecidableEq, Repr

/-- `is_undirected`, `adj_list_vertices.hpp:56`. -/
def Dir.un : Dir → Bool | .undirected => true | _ => false
/-- `is_bidirectional`, `adj_list_vertices.hpp:58`. -/
def Dir.bi : Dir → Bool | .bidirectional => true | _ => false

variable {V β R : Type} [LinearOrder V]

/-- Replaces the value of a function at one point. -/
def setAt {γ : Type} (f : V → γ) (u : V) (x : γ) : V → γ := fun v => if v = u then x else f v

/-! ### Without an edge container -/

/-- `m_vertices` (the vertices in order, with `out_edges` and `in_edges` of each,
`adj_list_traits.hpp:15-24`) and `m_edge_list`, which only counts. -/
structure AdjN (V β : Type) where
  dir : Dir
  vertices : List V
  outs : V → Cont (V × β)
  ins : V → Cont (V × Int)
  edges : EdgeList Unit Unit

/-- A graph with some vertices and no edges; `k` is the kind of `OEC`. -/
def AdjN.init (dir : Dir) (k : Kind) (vs : List V) : AdjN V β :=
  ⟨dir, vs, fun _ => Cont.empty k, fun _ => Cont.empty k, ⟨dir.un, Cont.empty .vec⟩⟩

/-- The unspecified orders of the hashed containers involved. -/
structure OrdersN (V β : Type) where
  out : V → Order (V × β)
  inn : V → Order (V × Int)
  edge : Order (Unit × Unit)

/-- An edge without an edge container: its ends and the id in the out-edges of its source. -/
abbrev EdgeN (V : Type) := V × V × Int

/-- `try_add_edge_impl`, `adjacency_list.hpp:215-231`.  The bundle is forwarded twice in an undirected
graph: `moved` is what is left of it after the first time (itself, if it was not an rvalue). -/
def AdjN.tryAddEdgeImpl (o : OrdersN V β) (moved : β → β) (g : AdjN V β) (u v : V) (b : β) :
    Option (AdjN V β × Option (EdgeN V)) :=
  if u ∉ g.vertices then none
  else
    let r := (g.outs u).idEmplace Prod.fst (o.out u) (v, b)
    if r.2.2 = false then some (g, none)
    else
      let g := { g with outs := setAt g.outs u r.1 }
      let g := { g with edges :=
        (g.edges.tryAddEdge (noRep V) (fun _ => (0 : Nat)) o.edge u v ()).1 }
      match g.dir with
      | .undirected =>
        if u ≠ v then
          if v ∉ g.vertices then none
          else
            let c := ((g.outs v).idEmplace Prod.fst (o.out v) (u, moved b)).1
            some ({ g with outs := setAt g.outs v c }, some (u, v, r.2.1))
        else some (g, some (u, v, r.2.1))
      | .bidirectional =>
        if v ∉ g.vertices then none
        else
          let c := ((g.ins v).idEmplace Prod.fst (o.inn v) (u, r.2.1)).1
          some ({ g with ins := setAt g.ins v c }, some (u, v, r.2.1))
      | .directed => some (g, some (u, v, r.2.1))

/-- `edge_count`, `adjacency_list.hpp:278-280`. -/
def AdjN.edgeCount (g : AdjN V β) : Nat := g.edges.edgeCount

/-- `get_edge` of the id of an out-edge, `adjacency_list.hpp:207-209`. -/
def AdjN.getEdge (g : AdjN V β) (u : V) (oe : Int) : Option (EdgeN V) :=
  ((g.outs u).at oe).map fun d => (u, d.1, oe)

/-- `out_edges`, `adjacency_list.hpp:294-299`, with `adj_list_out_edge_iter`,
`adj_list_iterators.hpp:23-57`: the ids from `out_begin` to `out_end`, `adjacency_list.hpp:199-205`. -/
def AdjN.outEdges (g : AdjN V β) (u : V) : Option (List (EdgeN V)) :=
  if u ∉ g.vertices then none
  else match (g.outs u).ids with
    | none => none
    | some l => l.mapM (g.getEdge u)

/-- `in_edges`, `adjacency_list.hpp:301-322`: of an undirected graph the inverted out-edges
(`edge_inverter`, `adj_list_iterators.hpp:16-21`), of a bidirectional one from the in-edges by
`get_edge`, `adjacency_list.hpp:211-213`.  A directed graph does not have them. -/
def AdjN.inEdges (g : AdjN V β) (u : V) : Option (List (EdgeN V)) :=
  if g.dir.un then (g.outEdges u).map fun l => l.map fun e => (e.2.1, e.1, e.2.2)
  else if u ∉ g.vertices then none
  else some ((g.ins u).values.map fun d => (d.1, u, d.2))

/-! The iterator of `edges()`, `adj_list_iterators.hpp:59-125`.  `m_u` is the list of vertices from the
current one on (empty at the end), `m_iter` the list of what is left of its out-edges; `rev u x` is
`is_reverse_edge`. -/

section EdgeIter

variable {X : Type} (begin : V → List X) (rev : V → X → Bool)

/-- The out-edges of the vertex reached by `++m_u`, `adj_list_iterators.hpp:77-78`. -/
def headOuts : List V → List X
  | [] => []
  | u :: _ => begin u

/-- The turns of the loop of `skip_empty` at one vertex; `next` is what the rest of the loop gives after
`++m_u`. -/
def skipAt (next : List V × List X) (u : V) (us : List V) : List X → List V × List X
  | [] => next
  | x :: it => if rev u x then skipAt next u us it else (u :: us, x :: it)

/-- `skip_empty`, `adj_list_iterators.hpp:73-86`. -/
def skipEmpty : List V → List X → List V × List X
  | [], it => ([], it)
  | u :: us, it => skipAt rev (skipEmpty us (headOuts begin us)) u us it

/-- The loop from the begin iterator to the end iterator: `operator*`, then `operator++`,
`adj_list_iterators.hpp:108-124`. -/
def walk : Nat → List V → List X → Option (List (V × X))
  | 0, _, _ => none
  | fuel + 1, us, it =>
    match us, it with
    | [], _ => some []
    | _ :: _, [] => none
    | u :: us, x :: it =>
      let s := skipEmpty begin rev (u :: us) it
      match walk fuel s.1 s.2 with
      | none => none
      | some l => some ((u, x) :: l)

/-- The whole range: the constructor reads the out-edges of the first vertex,
`adj_list_iterators.hpp:98-106`, which is undefined if there is none. -/
def walkAll (fuel : Nat) (vs : List V) : Option (List (V × X)) :=
  match vs with
  | [] => none
  | u :: us =>
    let s := skipEmpty begin rev (u :: us) (begin u)
    walk begin rev fuel s.1 s.2

end EdgeIter

/-- `edges()`, `adjacency_list.hpp:286-292`, for `EC = none`.  The out-edges are those of `outEdges`;
`is_reverse_edge`, `adj_list_iterators.hpp:66-71`. -/
def AdjN.allEdges (g : AdjN V β) (fuel : Nat) : Option (List (EdgeN V)) :=
  match g.vertices.mapM fun u => g.outEdges u with
  | none => none
  | some _ =>
    (walkAll (fun u => (g.outEdges u).getD []) (fun u e => g.dir.un && decide (e.2.1 < u)) fuel
      g.vertices).map fun l => l.map Prod.snd

/-- The bundle of an edge, `edge_map::get`, `adjacency_list.hpp:147-150`. -/
def AdjN.bundle (g : AdjN V β) (e : EdgeN V) : Option β := ((g.outs e.1).at e.2.2).map Prod.snd

/-- `find_edge`, `adjacency_list.hpp:350-352`: `get_edge` of the id found. -/
def AdjN.findEdge (g : AdjN V β) (u v : V) : Option (EdgeN V) :=
  if u ∉ g.vertices then none
  else g.getEdge u ((g.outs u).idFind Prod.fst v)

/-! ### With an edge container -/

/-- As `AdjN`, with `out_edge_data` a target (if `has_out_vertex`, `adj_list_traits.hpp:42-46`) and the
id of an edge in `m_edge_list`. -/
structure AdjC (V R β : Type) where
  dir : Dir
  hasOut : Bool
  vertices : List V
  outs : V → Cont (Option V × Int)
  ins : V → Cont (Option V × Int)
  edges : EdgeList R β

/-- A graph with some vertices and no edges; `k` is the kind of `OEC`, `ke` that of `EC`. -/
def AdjC.init (dir : Dir) (hasOut : Bool) (k ke : Kind) (vs : List V) : AdjC V R β :=
  ⟨dir, hasOut, vs, fun _ => Cont.empty k, fun _ => Cont.empty k, ⟨dir.un, Cont.empty ke⟩⟩

structure OrdersC (V R β : Type) where
  out : V → Order (Option V × Int)
  inn : V → Order (Option V × Int)
  edge : Order (R × β)

/-- The key of an out-edge: its target (or nothing, in a sequence that does not store it). -/
def outKey (d : Option V × Int) : WithBot V := d.1

variable (rep : Rep V R)

/-- What is stored of the other end in an out-edge. -/
def AdjC.far (g : AdjC V R β) (v : V) : Option V := if g.hasOut then some v else none

/-- `try_add_edge_impl`, `adjacency_list.hpp:98-117`.  The id first put in the out-edges is
indeterminate: `junk` (reading it is already undefined, which is ignored here). -/
def AdjC.tryAddEdgeImpl (o : OrdersC V R β) (junk : Int) (g : AdjC V R β) (u v : V) (b : β) :
    Option (AdjC V R β × Option (EdgeN V)) :=
  if u ∉ g.vertices then none
  else
    let r := (g.outs u).idEmplace outKey (o.out u) (g.far v, junk)
    if r.2.2 = false then some (g, none)
    else
      let a := g.edges.tryAddEdge rep (fun _ => (0 : Nat)) o.edge u v b
      let e := a.2.1.2.2
      let g := { g with
        outs := setAt g.outs u (r.1.modify r.2.1 fun d => (d.1, e))
        edges := a.1 }
      match g.dir with
      | .undirected =>
        if u ≠ v then
          if v ∉ g.vertices then none
          else
            let c := ((g.outs v).idEmplace outKey (o.out v) (g.far u, e)).1
            some ({ g with outs := setAt g.outs v c }, some (u, v, e))
        else some (g, some (u, v, e))
      | .bidirectional =>
        if v ∉ g.vertices then none
        else
          let c := ((g.ins v).idEmplace outKey (o.inn v) (g.far u, e)).1
          some ({ g with ins := setAt g.ins v c }, some (u, v, e))
      | .directed => some (g, some (u, v, e))

def AdjC.edgeCount (g : AdjC V R β) : Nat := g.edges.edgeCount

/-- `get_edge`, `adjacency_list.hpp:79-90`. -/
def AdjC.getEdge (g : AdjC V R β) (u : V) (d : Option V × Int) : Option (EdgeN V) :=
  match d.1 with
  | some v => some (u, v, d.2)
  | none => (g.edges.getTarget rep u d.2).map fun v => (u, v, d.2)

/-- `out_edges`, `adjacency_list.hpp:294-299`, with the iterators `:71-77`. -/
def AdjC.outEdges (g : AdjC V R β) (u : V) : Option (List (EdgeN V)) :=
  if u ∉ g.vertices then none else (g.outs u).values.mapM (g.getEdge rep u)

/-- `in_edges`, `adjacency_list.hpp:301-322`: the edges are inverted in both cases. -/
def AdjC.inEdges (g : AdjC V R β) (u : V) : Option (List (EdgeN V)) :=
  if g.dir.un then (g.outEdges rep u).map fun l => l.map fun e => (e.2.1, e.1, e.2.2)
  else if u ∉ g.vertices then none
  else ((g.ins u).values.mapM (g.getEdge rep u)).map fun l => l.map fun e => (e.2.1, e.1, e.2.2)

/-- `edges()`, `adjacency_list.hpp:290`, for selectors other than `two_vertices` (for which it is that
of the edge list, `:288`). -/
def AdjC.allEdges (g : AdjC V R β) (fuel : Nat) : Option (List (EdgeN V)) :=
  match g.vertices.mapM fun u => g.outEdges rep u with
  | none => none
  | some _ =>
    (walkAll (fun u => (g.outEdges rep u).getD []) (fun u e => g.dir.un && decide (e.2.1 < u)) fuel
      g.vertices).map fun l => l.map Prod.snd

/-- `find_edge`, `adjacency_list.hpp:350-360`: with the targets in the out-edges `get_edge` of the id found
(`:92-96`, undefined if there is none); otherwise the first out-edge with this target, or `edge{}`, here
`some none`. -/
def AdjC.findEdge (g : AdjC V R β) (u v : V) : Option (Option (EdgeN V)) :=
  if u ∉ g.vertices then none
  else if g.hasOut then
    match (g.outs u).at ((g.outs u).idFind outKey (outKey (some v, 0))) with
    | none => none
    | some d => (g.getEdge rep u d).map some
  else (g.outEdges rep u).map fun l => l.find? fun e => decide (e.2.1 = v)

/-! ### Random access vertex container -/

/-- `resize(n)` of the vertices `0, 1, …`, `vertex_list.hpp:67-71`. -/
def firstVertices (n : Nat) : List Int := (List.range n).map fun i : Nat => (i : Int)

/-- The vertices after the start of `try_add_edge`, `adjacency_list.hpp:326-330`; `n + 1` overflows for
the greatest `int`. -/
def grow (vs : List Int) (u v : Int) : Option (List Int) :=
  let n := max u v
  if n ≥ vs.length then if n < 2 ^ 31 - 1 then some (firstVertices (n + 1).toNat) else none
  else some vs

/-- `try_add_edge`, `adjacency_list.hpp:324-332`, with a random access vertex container. -/
def AdjN.tryAddEdge (o : OrdersN Int β) (moved : β → β) (g : AdjN Int β) (u v : Int) (b : β) :
    Option (AdjN Int β × Option (EdgeN Int)) :=
  match grow g.vertices u v with
  | none => none
  | some vs => ({ g with vertices := vs } : AdjN Int β).tryAddEdgeImpl o moved u v b

/-- The same with an edge container. -/
def AdjC.tryAddEdge (rep : Rep Int R) (o : OrdersC Int R β) (junk : Int) (g : AdjC Int R β) (u v : Int)
    (b : β) : Option (AdjC Int R β × Option (EdgeN Int)) :=
  match grow g.vertices u v with
  | none => none
  | some vs => ({ g with vertices := vs } : AdjC Int R β).tryAddEdgeImpl rep o junk u v b

end Actl.Storage
