import Verif.Model.Recorders

/-!
Model of `graph/connectivity/{tarjan_strong_components,bridges,articulation_points}.hpp` and
`graph/connectivity/detail/component_stack.hpp`.

Times and component numbers are unbounded integers; `maxTime` stands for
`std::numeric_limits<T>::max()` and is not less than the number of vertices.  The maps made by
`make_default_vertex_map` start with `false` and 0 (`graph/default_map.hpp:17-24`).
-/

namespace Actl.Traversal

variable {V E : Type} [DecidableEq V]

/-- `component_stack`, `component_stack.hpp:14-20`; the top of the stack is the head of the list.
`bad` records undefined behaviour: `top()` of an empty stack. -/
structure CompStack (V : Type) where
  stack : List V
  map : V → Int
  n : Int
  bad : Bool

/-- `push`, `component_stack.hpp:27-29`. -/
def CompStack.push (c : CompStack V) (x : V) : CompStack V := { c with stack := x :: c.stack }

/-- The loop of `pop`, `component_stack.hpp:32-38`. -/
def popLoop (last : V) (n : Int) : List V → (V → Int) → Option (List V × (V → Int))
  | [], _ => none
  | x :: st, m => if x = last then some (st, put m x n) else popLoop last n st (put m x n)

/-- `pop`, `component_stack.hpp:31-40`. -/
def CompStack.pop (c : CompStack V) (last : V) : CompStack V :=
  match popLoop last c.n c.stack c.map with
  | none => { c with bad := true }
  | some (st, m) => { c with stack := st, map := m, n := c.n + 1 }

/-! ### Strongly connected components -/

/-- `strong_component_finder`, `tarjan_strong_components.hpp:63-66`. -/
structure SccState (V : Type) where
  components : CompStack V
  timeLow : V → Int
  notRoot : V → Bool
  now : Int

/-- `on_non_tree_edge`, `tarjan_strong_components.hpp:40-47`. -/
def SccState.edge (G : Graph V E) (e : E) (s : SccState V) : SccState V :=
  let low := s.timeLow (G.tgt e)
  let u := G.src e
  if s.timeLow u > low then { s with timeLow := put s.timeLow u low, notRoot := put s.notRoot u true } else s

/-- `strong_component_finder`, `tarjan_strong_components.hpp:27-61`. -/
def sccFinder (G : Graph V E) (maxTime : Int) : Comp (SccState V) V E where
  on ev s := match ev with
    | .init u => { s with timeLow := put s.timeLow u 0 }
    | .start u =>
      { s with now := s.now + 1, timeLow := put s.timeLow u (s.now + 1), components := s.components.push u }
    | .nonTree e => s.edge G e
    | .treeFinish e =>
      let s := s.edge G e
      { s with timeLow := put s.timeLow (G.tgt e) maxTime }
    | .finish u => if !s.notRoot u then { s with components := s.components.pop u } else s
    | .searchFinish u => { s with timeLow := put s.timeLow u maxTime }
    | _ => s
  disc s v := s.timeLow v != 0

/-- The state `find_strong_components` starts from, `tarjan_strong_components.hpp:75-83`; `map` is the
caller's component map. -/
def SccState.fresh (map : V → Int) : SccState V := ⟨⟨[], map, 0, false⟩, fun _ => 0, fun _ => false, 0⟩

/-- `find_strong_components`, `tarjan_strong_components.hpp:74-85`. -/
def findStrongComponents (G : Graph V E) (maxTime : Int) (fuel : Nat) (map : V → Int) : Option (V → Int) :=
  match dfsAll G (sccFinder G maxTime) (fun _ => false) fuel (SccState.fresh map) with
  | none => none
  | some s => if s.components.bad then none else some s.components.map

/-! ### Bridges and two-edge-connected components -/

/-- `bridge_finder`, `bridges.hpp:100-105`.  `dfsStack` holds the vertices of the stack of the search
with the state of their `once_equal`. -/
structure BridgeState (V E : Type) where
  bridges : List E
  components : CompStack V
  timeLow : V → Int
  notRoot : V → Bool
  dfsStack : List (V × Bool)
  now : Int

/-- `once_equal::operator bool`, `bridges.hpp:19-36`: the answer and the new state.  With parallel
edges the base class is `once_equal<true, false>`, otherwise `once_equal<true, true>`. -/
def onceEqual (parallel : Bool) (x : Bool) : Bool × Bool :=
  if parallel then (if x = false then (false, x) else (true, false)) else (true, x)

/-- The part of `on_non_tree_edge` after the test of the stack, `bridges.hpp:81-86`. -/
def BridgeState.relax (G : Graph V E) (e : E) (s : BridgeState V E) : BridgeState V E :=
  let low := s.timeLow (G.tgt e)
  let u := G.src e
  if s.timeLow u > low then { s with timeLow := put s.timeLow u low, notRoot := put s.notRoot u true } else s

/-- `on_non_tree_edge`, `bridges.hpp:74-87`. -/
def BridgeState.edge (G : Graph V E) (parallel : Bool) (e : E) (s : BridgeState V E) : BridgeState V E :=
  match s.dfsStack with
  | [] => s.relax G e
  | (p, x) :: st =>
    if p = G.tgt e then
      let s := { s with dfsStack := (p, (onceEqual parallel x).2) :: st }
      if (onceEqual parallel x).1 then s else s.relax G e
    else s.relax G e

/-- `bridge_finder`, `bridges.hpp:61-98`, with what the search does to the stack it shares
(`depth_first_search.hpp:86`, `:115`, `:105`): cleared before a search, a vertex is pushed at a tree
edge, popped before the tree edge is reported finished. -/
def bridgeFinder (G : Graph V E) (parallel : Bool) : Comp (BridgeState V E) V E where
  on ev s := match ev with
    | .init u => { s with timeLow := put s.timeLow u 0 }
    | .searchStart _ => { s with dfsStack := [] }
    | .treeStart e => { s with dfsStack := (G.src e, true) :: s.dfsStack }
    | .start u =>
      { s with now := s.now + 1, timeLow := put s.timeLow u (s.now + 1), components := s.components.push u }
    | .nonTree e => s.edge G parallel e
    | .treeFinish e =>
      let s := { s with dfsStack := s.dfsStack.tail }
      let s := s.edge G parallel e
      if !s.notRoot (G.tgt e) then { s with bridges := s.bridges ++ [e] } else s
    | .finish u => if !s.notRoot u then { s with components := s.components.pop u } else s
    | _ => s
  disc s v := s.timeLow v != 0

/-- The state `find_bridges_and_components` starts from, `bridges.hpp:121-132`. -/
def BridgeState.fresh (map : V → Int) : BridgeState V E :=
  ⟨[], ⟨[], map, 0, false⟩, fun _ => 0, fun _ => false, [], 0⟩

/-- `find_bridges_and_components`, `bridges.hpp:113-134`: the bridges output and the component map.
`parallel` is `ParallelEdges && Graph::allows_parallel_edges`. -/
def findBridges (G : Graph V E) (parallel : Bool) (fuel : Nat) (map : V → Int) : Option (List E × (V → Int)) :=
  match dfsAll G (bridgeFinder G parallel) (fun _ => false) fuel (BridgeState.fresh map) with
  | none => none
  | some s => if s.components.bad then none else some (s.bridges, s.components.map)

/-! ### Articulation points -/

/-- `articulation_point_finder`, `articulation_points.hpp:80-86`, without the stack of edges: in
`find_articulation_points` it does nothing (`component_stack.hpp:55-68`). -/
structure ArtState (V : Type) where
  marks : V → Bool
  time : V → Int
  low : V → Int
  root : Option V
  now : Int
  rootChildren : Int

/-- `articulation_point_finder`, `articulation_points.hpp:29-78`. -/
def artFinder (G : Graph V E) : Comp (ArtState V) V E where
  on ev s := match ev with
    | .init u => { s with time := put s.time u 0 }
    | .start u => { s with now := s.now + 1, time := put s.time u (s.now + 1), low := put s.low u (s.now + 1) }
    | .searchStart u => { s with root := some u, rootChildren := 0 }
    | .nonTree e =>
      let vtime := s.time (G.tgt e)
      if vtime < s.low (G.src e) then { s with low := put s.low (G.src e) vtime } else s
    | .treeFinish e =>
      let u := G.src e
      if s.time u ≤ s.low (G.tgt e) then
        if some u = s.root then { s with rootChildren := s.rootChildren + 1 }
        else { s with marks := put s.marks u true }
      else s
    | .searchFinish u => if s.rootChildren > 1 then { s with marks := put s.marks u true } else s
    | _ => s
  disc s v := s.time v != 0

/-- `find_articulation_points`, `articulation_points.hpp:112-117` and `:94-110`. -/
def findArticulationPoints (G : Graph V E) (fuel : Nat) (marks : V → Bool) : Option (V → Bool) :=
  match dfsAll G (artFinder G) (fun _ => false) fuel ⟨marks, fun _ => 0, fun _ => 0, none, 0, 0⟩ with
  | none => none
  | some s => some s.marks

end Actl.Traversal
