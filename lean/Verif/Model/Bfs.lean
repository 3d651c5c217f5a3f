import Verif.Model.Traversal

/-!
Model of `graph/traversal/breadth_first_search.hpp`.

The queue is a FIFO list (`std::queue`), empty at the start: the code empties it (`:42-43`).
-/

namespace Actl.Traversal

variable {σ V E : Type} (G : Graph V E) (c : Comp σ V E) (term : V → Bool)

/-- The lambda `discover`, `breadth_first_search.hpp:44-52`: the queue, or the state after a terminator. -/
def bfsDiscover (u : V) (q : List V) (s : σ) : σ × Option (List V) :=
  let s := c.on (.discover u) s
  if term u then (c.on (.searchFinish u) s, none) else (s, some (q ++ [u]))

/-- The loop over the out-edges, `breadth_first_search.hpp:68-78`. -/
def bfsEdges : List E → List V → σ → σ × Option (List V)
  | [], q, s => (s, some q)
  | e :: es, q, s =>
    if c.disc s (G.tgt e) then bfsEdges es q (c.on (.nonTree e) s)
    else match bfsDiscover c term (G.tgt e) q (c.on (.treeStart e) s) with
      | (s, none) => (s, none)
      | (s, some q) => bfsEdges es q (c.on (.treeFinish e) s)

/-- The loop over the queue, `breadth_first_search.hpp:64-81`; `null` is `graph.null_vertex()`. -/
def bfsLoop (null : V) : Nat → List V → σ → Option σ
  | 0, _, _ => none
  | _ + 1, [], s => some (c.on (.searchFinish null) s)
  | fuel + 1, u :: q, s =>
    match bfsEdges G c term (G.out u) q (c.on (.start u) s) with
    | (s, none) => some s
    | (s, some q) => bfsLoop null fuel q (c.on (.finish u) s)

/-- The loop over the sources, `breadth_first_search.hpp:58-62` (`:54-56` for one source). -/
def bfsSources : List V → List V → σ → σ × Option (List V)
  | [], q, s => (s, some q)
  | u :: us, q, s =>
    match bfsDiscover c term u q (c.on (.searchStart u) s) with
    | (s, none) => (s, none)
    | (s, some q) => bfsSources us q s

/-- `operator()`, `breadth_first_search.hpp:33-82`. -/
def bfs (null : V) (fuel : Nat) (sources : List V) (s : σ) : Option σ :=
  match bfsSources c term sources [] (initAll c G.vertices s) with
  | (s, none) => some s
  | (s, some q) => bfsLoop G c term null fuel q s

end Actl.Traversal
