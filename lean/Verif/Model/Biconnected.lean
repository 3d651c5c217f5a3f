import Verif.Model.Connectivity

/-!
Model of `find_articulation_points_and_components` and `find_biconnected_components`,
`graph/connectivity/articulation_points.hpp`: the finder of `Model/Connectivity.lean` with its stack of edges,
`graph/connectivity/detail/component_stack.hpp`.

The map of the caller is a `std::map` from edges to numbers, `none` for a missing edge; `key` tells what `operator<` of
edges compares (`graph/detail/edge.hpp:35-49`).  Numbers are unbounded integers.
-/

namespace Actl.Traversal

variable {V E K : Type} [DecidableEq V] [DecidableEq K]

/-- `articulation_point_finder`, `articulation_points.hpp:80-86`, with the stack of edges, its map and the next number
(`component_stack.hpp:18-20`); the top of the stack is the head of the list. -/
structure BiState (V E K : Type) where
  art : ArtState V
  stack : List E
  map : K → Option Int
  n : Int

/-- The loop of `pop_while`, `component_stack.hpp:43-50`. -/
def popWhile (key : E → K) (n : Int) (p : E → Bool) : List E → (K → Option Int) → List E × (K → Option Int)
  | [], m => ([], m)
  | e :: st, m => if p e then popWhile key n p st (put m (key e) (some n)) else (e :: st, m)

/-- `pop_while`, `component_stack.hpp:42-52`. -/
def BiState.popWhile (key : E → K) (p : E → Bool) (s : BiState V E K) : BiState V E K :=
  { s with stack := (Traversal.popWhile key s.n p s.stack s.map).1, map := (Traversal.popWhile key s.n p s.stack s.map).2,
           n := s.n + 1 }

/-- `articulation_point_finder`, `articulation_points.hpp:29-78`. -/
def biFinder (G : Graph V E) (key : E → K) : Comp (BiState V E K) V E where
  on ev s := match ev with
    | .nonTree e =>
      { s with art := (artFinder G).on (.nonTree e) s.art,
               stack := if s.art.time (G.tgt e) < s.art.time (G.src e) then e :: s.stack else s.stack }
    | .treeFinish e =>
      let t := { s with art := (artFinder G).on (.treeFinish e) s.art }
      let utime := s.art.time (G.src e)
      if utime ≤ s.art.low (G.tgt e) then
        t.popWhile key (fun f => decide (utime ≤ s.art.time (G.src f)) && decide (utime ≤ s.art.time (G.tgt f)))
      else t
    | ev => { s with art := (artFinder G).on ev s.art }
  disc s v := (artFinder G).disc s.art v

/-- `find_articulation_points_and_components`, `articulation_points.hpp:94-110`. -/
def findBoth (G : Graph V E) (key : E → K) (fuel : Nat) (marks : V → Bool) (map : K → Option Int) :
    Option ((V → Bool) × (K → Option Int)) :=
  match dfsAll G (biFinder G key) (fun _ => false) fuel ⟨⟨marks, fun _ => 0, fun _ => 0, none, 0, 0⟩, [], map, 0⟩ with
  | none => none
  | some s => some (s.art.marks, s.map)

/-- `find_biconnected_components`, `articulation_points.hpp:119-124`: the marks are not kept. -/
def findBiconnected (G : Graph V E) (key : E → K) (fuel : Nat) (map : K → Option Int) : Option (K → Option Int) :=
  (findBoth G key fuel (fun _ => false) map).map (·.2)

end Actl.Traversal
