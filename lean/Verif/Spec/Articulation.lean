import Verif.Spec.Dfs

/-!
Removal of a vertex.
-/

namespace Actl.Traversal

variable {V E : Type}

/-- There is an edge between vertices other than `u`. -/
def Graph.AdjAvoid (G : Graph V E) (u x y : V) : Prop := G.Adj x y ∧ x ≠ u ∧ y ≠ u

/-- There is a path after the removal of the vertex `u`. -/
def Graph.ReachAvoid (G : Graph V E) (u : V) : V → V → Prop := Relation.ReflTransGen (G.AdjAvoid u)

/-- Removal of the vertex disconnects two of its neighbours. -/
def Graph.Articulation (G : Graph V E) (u : V) : Prop :=
  ∃ x y, G.Adj u x ∧ G.Adj u y ∧ x ≠ u ∧ y ≠ u ∧ ¬G.ReachAvoid u x y

/-- The vertex has two different neighbours without an edge between them. -/
def Graph.Gap (G : Graph V E) (u : V) : Prop :=
  ∃ x y, G.Adj u x ∧ G.Adj u y ∧ x ≠ u ∧ y ≠ u ∧ x ≠ y ∧ ¬G.Adj x y

end Actl.Traversal
