import Verif.Model.Traversal

/-!
Model of the components of graph searches: `graph/traversal/{discovered_flag,color_recorder,
vertex_initializer,time_stamper,predecessor_recorder,predecessor_edge_recorder,distance_recorder,order}.hpp`,
`graph/connectivity/connected_components.hpp`.

A vertex map is a function; times, distances and component numbers are unbounded integers (the
default maps hold `int`: fewer than 2^31 vertices).
-/

namespace Actl.Traversal

variable {V E : Type} [DecidableEq V]

/-- `put(map, u, x)`. -/
def put {α : Type} (m : V → α) (u : V) (x : α) : V → α := fun v => if v = u then x else m v

/-- `discovered_flag`, `discovered_flag.hpp:21-31`. -/
def discoveredFlag : Comp (V → Bool) V E where
  on ev s := match ev with
    | .init u => put s u false
    | .discover u => put s u true
    | _ => s
  disc s v := s v

inductive Color
  | white | gray | black
deriving DecidableEq, Repr

/-- `color_recorder`, `color_recorder.hpp:22-36`. -/
def colorRecorder : Comp (V → Color) V E where
  on ev s := match ev with
    | .init u => put s u .white
    | .discover u => put s u .gray
    | .finish u => put s u .black
    | _ => s
  disc s v := s v != .white

/-- `time_stamper`: the map and the current time. -/
structure Stamps (V : Type) where
  inTime : V → Int
  outTime : V → Int
  now : Int

/-- `in_out_time_stamper`, `time_stamper.hpp:17-20` and `:35-37`, initialized by
`vertex_initializer`, `vertex_initializer.hpp:22-28`, with `value`. -/
def timeStamper (value : Int) : Comp (Stamps V) V E where
  on ev s := match ev with
    | .init u => { s with inTime := put s.inTime u value }
    | .start u => { s with inTime := put s.inTime u s.now, now := s.now + 1 }
    | .finish u => { s with outTime := put s.outTime u s.now }
    | _ => s
  disc s v := s.inTime v != value

/-- `predecessor_recorder`, `predecessor_recorder.hpp:16-23`, initialized with the null vertex
(which is not a vertex of the graph). -/
def predecessorRecorder (G : Graph V E) : Comp (V → Option V) V E where
  on ev s := match ev with
    | .init u => put s u none
    | .searchStart u => put s u (some u)
    | .treeStart e => put s (G.tgt e) (some (G.src e))
    | _ => s
  disc s v := (s v).isSome

/-- `predecessor_edge_recorder`, `predecessor_edge_recorder.hpp:14-27`: only a listener; its map is not
initialized. -/
def predecessorEdgeRecorder (G : Graph V E) (ev : Event V E) (m : V → E) : V → E :=
  match ev with
  | .treeStart e => put m (G.tgt e) e
  | _ => m

/-- `distance_recorder`, `distance_recorder.hpp:16-23`, initialized with -1, `:38-41`. -/
def distanceRecorder (G : Graph V E) : Comp (V → Int) V E where
  on ev s := match ev with
    | .init u => put s u (-1)
    | .searchStart u => put s u 0
    | .treeStart e => put s (G.tgt e) (s (G.src e) + 1)
    | _ => s
  disc s v := s v != -1

/-- `connected_component_recorder`, `connected_components.hpp:19-25`, initialized with -1,
`:40-45`: the map and the count. -/
def componentRecorder : Comp ((V → Int) × Int) V E where
  on ev s := match ev with
    | .init u => (put s.1 u (-1), s.2)
    | .discover u => (put s.1 u s.2, s.2)
    | .searchFinish _ => (s.1, s.2 + 1)
    | _ => s
  disc s v := s.1 v != -1

/-- Listener recording all events but the initialization. -/
def logger (ev : Event V E) (l : List (Event V E)) : List (Event V E) :=
  match ev with
  | .init _ => l
  | _ => l ++ [ev]

/-- `vertex_printer<on_vertex_finish>`, `order.hpp:54-61`. -/
def finishPrinter (ev : Event V E) (l : List V) : List V :=
  match ev with
  | .finish u => l ++ [u]
  | _ => l

/-- `vertex_printer<on_vertex_start>`, `order.hpp:54-61`. -/
def startPrinter (ev : Event V E) (l : List V) : List V :=
  match ev with
  | .start u => l ++ [u]
  | _ => l

/-- `postorder`, `order.hpp:71-77`; `topological_sort` is the same over the whole graph, `:88-94`. -/
def postorder (G : Graph V E) (fuel : Nat) (s : V) (flags : V → Bool) : Option (List V) :=
  match dfsFrom G (discoveredFlag.fst finishPrinter) (fun _ => false) fuel s (flags, []) with
  | none => none
  | some (_, output) => some output

/-- `preorder`, `order.hpp:79-85`. -/
def preorder (G : Graph V E) (fuel : Nat) (s : V) (flags : V → Bool) : Option (List V) :=
  match dfsFrom G (discoveredFlag.fst startPrinter) (fun _ => false) fuel s (flags, []) with
  | none => none
  | some (_, output) => some output

/-- `topological_sort`, `order.hpp:87-94`. -/
def topologicalSort (G : Graph V E) (fuel : Nat) (flags : V → Bool) : Option (List V) :=
  match dfsAll G (discoveredFlag.fst finishPrinter) (fun _ => false) fuel (flags, []) with
  | none => none
  | some (_, output) => some output

end Actl.Traversal
