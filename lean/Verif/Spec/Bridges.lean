import Verif.Spec.Dfs

/-!
Undirected graphs, removal of edges and vertices.
-/

namespace Actl.Traversal

variable {V E : Type}

/-- An undirected graph: every edge is listed at both ends, once, and `rev` tells the two apart.
Parallel edges are different edges.  A loop may be listed once (it is its own `rev`) or twice. -/
structure Graph.Undirected (G : Graph V E) (rev : E → E) : Prop where
  invol : ∀ e, rev (rev e) = e
  tgt_rev : ∀ u ∈ G.vertices, ∀ e ∈ G.out u, G.tgt (rev e) = u
  mem_rev : ∀ u ∈ G.vertices, ∀ e ∈ G.out u, rev e ∈ G.out (G.tgt e)
  nodup : ∀ u ∈ G.vertices, (G.out u).Nodup

/-- There is an edge other than `e` (in either direction). -/
def Graph.AdjWithout (G : Graph V E) (rev : E → E) (e : E) (x y : V) : Prop :=
  ∃ f ∈ G.out x, G.tgt f = y ∧ f ≠ e ∧ f ≠ rev e

/-- There is a path after the removal of the edge `e`. -/
def Graph.ReachWithout (G : Graph V E) (rev : E → E) (e : E) : V → V → Prop :=
  Relation.ReflTransGen (G.AdjWithout rev e)

/-- Removal of the edge disconnects its ends. -/
def Graph.Bridge (G : Graph V E) (rev : E → E) (e : E) : Prop := ¬G.ReachWithout rev e (G.src e) (G.tgt e)

/-- There is a path, and there still is after the removal of any edge. -/
def Graph.TwoEdgeConnected (G : Graph V E) (rev : E → E) (u v : V) : Prop :=
  G.Reach u v ∧ ∀ w ∈ G.vertices, ∀ e ∈ G.out w, G.ReachWithout rev e u v

/-- No two edges between the same different vertices. -/
def Graph.Simple (G : Graph V E) : Prop :=
  ∀ u ∈ G.vertices, ∀ e ∈ G.out u, ∀ f ∈ G.out u, G.tgt e = G.tgt f → G.tgt e ≠ u → e = f

end Actl.Traversal
