/-!
Model of the graph searches: `graph/traversal/depth_first_search.hpp`,
`graph/traversal/breadth_first_search.hpp`, with the events of `graph/events.hpp`.

A graph is seen through its vertices, the out-edges of every vertex in order, and the ends of the
edges.  Loops run on fuel: `none` is a loop not ended within it (or undefined behaviour).
-/

namespace Actl.Traversal

/-- What the searches use of a graph: `vertices()`, `out_edges(u)`, `e.source()`, `e.target()`. -/
structure Graph (V E : Type) where
  vertices : List V
  out : V → List E
  src : E → V
  tgt : E → V

/-- Distinct vertices, out-edges that leave their vertex and stay in the graph. -/
structure Graph.WF {V E : Type} (G : Graph V E) : Prop where
  nodup : G.vertices.Nodup
  src : ∀ u ∈ G.vertices, ∀ e ∈ G.out u, G.src e = u
  tgt : ∀ u ∈ G.vertices, ∀ e ∈ G.out u, G.tgt e ∈ G.vertices

/-- The events, `events.hpp:14-26`. -/
inductive Event (V E : Type)
  | searchStart (u : V)
  | searchFinish (u : V)
  | init (u : V)
  | discover (u : V)
  | start (u : V)
  | finish (u : V)
  | treeStart (e : E)
  | treeFinish (e : E)
  | nonTree (e : E)
deriving DecidableEq, Repr

/-- The components of a search: what `invoke_all_matching` does to their state, and what
`invoke_first_matching(is_vertex_discovered)` answers. -/
structure Comp (σ V E : Type) where
  on : Event V E → σ → σ
  disc : σ → V → Bool

/-- Two components of which the first answers `is_vertex_discovered`. -/
def Comp.fst {σ τ V E : Type} (a : Comp σ V E) (b : Event V E → τ → τ) : Comp (σ × τ) V E where
  on ev s := (a.on ev s.1, b ev s.2)
  disc s v := a.disc s.1 v

variable {σ V E : Type}

section Dfs

variable (G : Graph V E) (c : Comp σ V E) (term : V → Bool)

/-- The loop over the out-edges in `recurse`, `depth_first_search.hpp:56-66`.  Where the code returns
`true`, the model also returns the terminator found. -/
def recurseEdges (rec : V → σ → Option (σ × Option V)) : List E → σ → Option (σ × Option V)
  | [], s => some (s, none)
  | e :: es, s =>
    if c.disc s (G.tgt e) then recurseEdges rec es (c.on (.nonTree e) s)
    else match rec (G.tgt e) (c.on (.treeStart e) s) with
      | none => none
      | some (s, some w) => some (s, some w)
      | some (s, none) => recurseEdges rec es (c.on (.treeFinish e) s)

/-- `recurse`, `depth_first_search.hpp:48-69`; the fuel bounds the depth of recursion. -/
def recurse : Nat → V → σ → Option (σ × Option V)
  | 0, _, _ => none
  | fuel + 1, u, s =>
    let s := c.on (.start u) (c.on (.discover u) s)
    if term u then some (s, some u)
    else match recurseEdges G c (recurse fuel) (G.out u) s with
      | none => none
      | some (s, some w) => some (s, some w)
      | some (s, none) => some (c.on (.finish u) s, none)

/-- The loop of `visit`, `depth_first_search.hpp:99-120`: the current vertex, its out-edges from `it`
to `end`, the stack of contexts (a vertex with its out-edges from the stored one on), the state of
the components.  Returns the state and the vertex current at the end. -/
def loop : Nat → V → List E → List (V × List E) → σ → Option (σ × V)
  | 0, _, _, _, _ => none
  | fuel + 1, u, [], stack, s =>
    let s := c.on (.finish u) s
    match stack with
    | [] => some (s, u)
    | (_, []) :: _ => none          -- `*it` at the end of the out-edges; never happens
    | (u, e :: es) :: stack => loop fuel u es stack (c.on (.treeFinish e) s)
  | fuel + 1, u, e :: es, stack, s =>
    if c.disc s (G.tgt e) then loop fuel u es stack (c.on (.nonTree e) s)
    else
      let s := c.on (.treeStart e) s
      let v := G.tgt e
      let s := c.on (.start v) (c.on (.discover v) s)
      if term v then some (s, v) else loop fuel v (G.out v) ((u, e :: es) :: stack) s

/-- `visit`, `depth_first_search.hpp:80-122`. -/
def visit (fuel : Nat) (u : V) (s : σ) : Option σ :=
  let s := c.on (.searchStart u) s
  let s := c.on (.start u) (c.on (.discover u) s)
  if term u then some (c.on (.searchFinish u) s)
  else match loop G c term fuel u (G.out u) [] s with
    | none => none
    | some (s, w) => some (c.on (.searchFinish w) s)

/-- `for (auto u : graph.vertices()) on_vertex_initialize(u)`. -/
def initAll : List V → σ → σ
  | [], s => s
  | u :: us, s => initAll us (c.on (.init u) s)

/-- `operator()` from a source, `depth_first_search.hpp:128-137`. -/
def dfsFrom (fuel : Nat) (src : V) (s : σ) : Option σ := visit G c term fuel src (initAll c G.vertices s)

/-- The loop over the sources, `depth_first_search.hpp:151-154`. -/
def visitAll (fuel : Nat) : List V → σ → Option σ
  | [], s => some s
  | u :: us, s =>
    if !c.disc s u then
      match visit G c term fuel u s with
      | none => none
      | some s => visitAll fuel us s
    else visitAll fuel us s

/-- `operator()` on the whole graph, `depth_first_search.hpp:144-155`. -/
def dfsAll (fuel : Nat) (s : σ) : Option σ := visitAll G c term fuel G.vertices (initAll c G.vertices s)

end Dfs

end Actl.Traversal
