import Verif.Model.Ids
import Mathlib.Data.Prod.Lex
import Mathlib.Order.WithBot

/-!
Model of `graph/edge_list.hpp` and `graph/detail/edge_list_traits.hpp`.

The edge container holds pairs of what is stored of the ends (`Rep`) and the bundle.  `dummy_container`
(no edge container, `edge_list_traits.hpp:93-98`) is a vector of empty elements.
-/

namespace Actl.Storage

open Actl.Ids

/-- What an edge stores of its ends, `edge_vertices(u, v)`, and how it gives the other one,
`other(t)`. -/
structure Rep (V R : Type) where
  store : V → V → R
  other : R → V → V

/-- `edge_vertices<directed, V, one_vertex>`, `edge_list_traits.hpp:23-32`. -/
def targetRep (V : Type) : Rep V V := ⟨fun _ v => v, fun v _ => v⟩

/-- `operator^` of two `int`s. -/
def intXor (a b : Int) : Int := (BitVec.ofInt 32 a ^^^ BitVec.ofInt 32 b).toInt

/-- `edge_vertices<Dir, V, one_vertex>` of undirected and bidirectional graphs,
`edge_list_traits.hpp:34-50`, for `V = int`. -/
def xorRep : Rep Int Int := ⟨fun u v => intXor u v, fun x t => intXor t x⟩

/-- `edge_vertices<Dir, V, two_vertices>`, `edge_list_traits.hpp:52-63`, for a `V` which is not an
integer. -/
def twoRep (V : Type) [DecidableEq V] : Rep V (V × V) :=
  ⟨fun u v => (u, v), fun p t => if t = p.1 then p.2 else p.1⟩

/-- The same for `V = int`: `t ^ u ^ v`, `edge_list_traits.hpp:60`. -/
def twoRepInt : Rep Int (Int × Int) := ⟨fun u v => (u, v), fun p t => intXor (intXor t p.1) p.2⟩

/-- `edge_vertices(V, V) {}` for `edge_property`, `edge_list_traits.hpp:18-21`, and `none`: nothing is
stored (and there is no `other`). -/
def noRep (V : Type) : Rep V Unit := ⟨fun _ _ => (), fun _ t => t⟩

/-- An edge list: `Dir` and `m_edges`, `edge_list.hpp:67, 106`. -/
structure EdgeList (R β : Type) where
  undirected : Bool
  cont : Cont (R × β)

variable {V R β κ : Type} [LinearOrder V] [LinearOrder κ]

/-- `if (v < u) std::swap(u, v)`, `edge_list.hpp:81-84, 180-183`. -/
def normEnds (undirected : Bool) (u v : V) : V × V :=
  if undirected = true ∧ v < u then (v, u) else (u, v)

variable (rep : Rep V R) (key : R → κ) (ord : Order (R × β))

/-- `try_add_edge`, `edge_list.hpp:79-88`: the edge is its two ends and the id. -/
def EdgeList.tryAddEdge (el : EdgeList R β) (u v : V) (b : β) : EdgeList R β × (V × V × Int) × Bool :=
  let p := normEnds el.undirected u v
  let r := el.cont.idEmplace (fun d => key d.1) ord (rep.store p.1 p.2, b)
  ({ el with cont := r.1 }, (p.1, p.2, r.2.1), r.2.2)

/-- `edge_count`, `edge_list.hpp:75-77`. -/
def EdgeList.edgeCount (el : EdgeList R β) : Nat := el.cont.items.length

/-- `get_target`, `edge_list.hpp:95-97`. -/
def EdgeList.getTarget (el : EdgeList R β) (u : V) (id : Int) : Option V :=
  (el.cont.at id).map fun d => rep.other d.1 u

/-- The order of the ends, `edge_list_traits.hpp:65-71`. -/
def endsKey (p : V × V) : V ×ₗ V := toLex p

/-- `find_edge`, `edge_list.hpp:179-187`; only for `two_vertices`. -/
def EdgeList.findEdge (el : EdgeList (V × V) β) (u v : V) : V × V × Int :=
  let p := normEnds el.undirected u v
  (p.1, p.2, el.cont.idFind (fun d => endsKey d.1) (endsKey p))

/-- The edges met by the iterators of `edges()`, `edge_list.hpp:133-177`: `operator*` at every id from
`id_begin` to `id_end`. -/
def EdgeList.edges (el : EdgeList (V × V) β) : Option (List (V × V × Int)) :=
  match el.cont.ids with
  | none => none
  | some l => l.mapM fun id => (el.cont.at id).map fun d => (d.1.1, d.1.2, id)

/-- `remove_edge`, `edge_list.hpp:189-191`. -/
def EdgeList.removeEdge (el : EdgeList (V × V) β) (e : V × V × Int) : Option (EdgeList (V × V) β) :=
  (el.cont.idErase e.2.2).map fun c => { el with cont := c }

end Actl.Storage
