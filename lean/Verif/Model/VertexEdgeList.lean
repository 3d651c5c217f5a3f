import Verif.Model.EdgeList

/-!
Model of `graph/vertex_list.hpp` and `graph/vertex_edge_list.hpp`.

A vertex is an id of the vertex container: an `int` for a vector, the address of a node otherwise (as
in `Model/Ids.lean`).  Without a vertex container (the default argument of both templates)
`vertex_edge_list` does not compile, `container_id<none>` being undefined; so there is one here.
`none` is undefined behaviour.
-/

namespace Actl.Storage

open Actl.Ids

/-- `m_vertices.resize(n)` of a vector, `vertex_list.hpp:67-71`; `dflt` is the value-initialized
element. -/
def resizeVec {α : Type} (c : Cont α) (dflt : α) (n : Nat) : Cont α :=
  { c with
    items := c.items.take n ++ (List.range (n - c.items.length)).map fun i => (c.next + i, dflt)
    next := c.next + (n - c.items.length) }

/-- `vertex_edge_list`, `vertex_edge_list.hpp:18-20`, with `two_vertices` stored for each edge. -/
structure VEL (α β : Type) where
  vs : Cont α
  el : EdgeList (Int × Int) β

variable {α β κ : Type} [LinearOrder κ] (key : α → κ) (dflt : α) (ordV : Order α)
  (ordE : Order ((Int × Int) × β))

/-- `vertex_list(n)`, `vertex_list.hpp:57-61`. -/
def VEL.init (n : Nat) (un : Bool) (ek : Kind) : VEL α β :=
  ⟨resizeVec (Cont.empty .vec) dflt n, ⟨un, Cont.empty ek⟩⟩

/-- `vertex_count`, `vertex_list.hpp:63-65`. -/
def VEL.vertexCount (g : VEL α β) : Nat := g.vs.items.length

/-- `add_vertex`, `vertex_list.hpp:88-96`. -/
def VEL.addVertex (g : VEL α β) (x : α) : VEL α β × Int :=
  let r := g.vs.idEmplace key ordV x
  ({ g with vs := r.1 }, r.2.1)

/-- `graph[u]`, `vertex_list.hpp:38-40`. -/
def VEL.atVertex (g : VEL α β) (u : Int) : Option α := g.vs.at u

/-- `graph[u] = x`, `vertex_list.hpp:34-36`. -/
def VEL.setVertex (g : VEL α β) (u : Int) (x : α) : VEL α β :=
  { g with vs := g.vs.modify u fun _ => x }

/-- `try_add_edge`, `vertex_edge_list.hpp:33-41`; `n + 1` may overflow. -/
def VEL.tryAddEdge (g : VEL α β) (u v : Int) (b : β) : Option (VEL α β × (Int × Int × Int) × Bool) :=
  let n := max u v
  if g.vs.kind.ra then
    if n ≥ g.vertexCount then
      if n + 1 < 2 ^ 31 then
        let r := g.el.tryAddEdge (twoRep Int) endsKey ordE u v b
        some (⟨resizeVec g.vs dflt (n + 1).toNat, r.1⟩, r.2)
      else none
    else
      let r := g.el.tryAddEdge (twoRep Int) endsKey ordE u v b
      some (⟨g.vs, r.1⟩, r.2)
  else
    let r := g.el.tryAddEdge (twoRep Int) endsKey ordE u v b
    some (⟨g.vs, r.1⟩, r.2)

/-- `add_edge` of two values, `vertex_edge_list.hpp:48-57`, for a unique vertex container.  The order
in which the vertices are added is unspecified. -/
def VEL.addEdgeOf (g : VEL α β) (secondFirst : Bool) (x y : α) (b : β) :
    Option (VEL α β × (Int × Int × Int)) :=
  if secondFirst then
    let r := g.addVertex key ordV y
    let s := r.1.addVertex key ordV x
    (s.1.tryAddEdge dflt ordE s.2 r.2 b).map fun t => (t.1, t.2.1)
  else
    let r := g.addVertex key ordV x
    let s := r.1.addVertex key ordV y
    (s.1.tryAddEdge dflt ordE r.2 s.2 b).map fun t => (t.1, t.2.1)

/-- `resize`, `vertex_list.hpp:67-71`, inherited. -/
def VEL.resize (g : VEL α β) (n : Nat) : VEL α β := { g with vs := resizeVec g.vs dflt n }

/-- `remove_edge`, inherited from `edge_list`. -/
def VEL.removeEdge (g : VEL α β) (e : Int × Int × Int) : Option (VEL α β) :=
  (g.el.removeEdge e).map fun el => { g with el := el }

end Actl.Storage
