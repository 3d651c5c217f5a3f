import Verif.Spec.Articulation
import Verif.Spec.Bridges

/-!
Biconnected components.
-/

namespace Actl.Traversal

variable {V E : Type}

/-- Two edges listed at the same vertex `u`, neither a loop, whose other ends are equal or connected without `u`. -/
def Graph.Linked (G : Graph V E) (e f : E) : Prop :=
  ∃ u ∈ G.vertices, e ∈ G.out u ∧ f ∈ G.out u ∧ G.tgt e ≠ u ∧ G.tgt f ≠ u ∧ G.ReachAvoid u (G.tgt e) (G.tgt f)

/-- Two edges are in the same biconnected component: one gets from the first to the second by turning at vertices whose
removal keeps the ends connected, and by looking at edges from their other end. -/
def Graph.SameBlock (G : Graph V E) (rev : E → E) : E → E → Prop :=
  Relation.ReflTransGen (fun e f => G.Linked e f ∨ f = rev e)

/-- Removal of any vertex disconnects all its neighbours: forests, with parallel edges and loops. -/
def Graph.Treelike (G : Graph V E) : Prop :=
  ∀ u ∈ G.vertices, ∀ x y, G.Adj u x → G.Adj u y → x ≠ u → y ≠ u → G.ReachAvoid u x y → x = y

/-- The keys of edges tell different edges apart, maybe also the two ends from which an edge is seen. -/
def Graph.Keys {K : Type} (G : Graph V E) (rev : E → E) (key : E → K) : Prop :=
  ∀ u ∈ G.vertices, ∀ e ∈ G.out u, ∀ v ∈ G.vertices, ∀ f ∈ G.out v, key e = key f → f = e ∨ f = rev e

end Actl.Traversal
