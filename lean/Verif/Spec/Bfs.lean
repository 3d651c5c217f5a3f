import Verif.Spec.Dfs

/-!
Distances in a graph.
-/

namespace Actl.Traversal

variable {V E : Type}

/-- There is a walk with this number of edges. -/
inductive Graph.Walk (G : Graph V E) : Nat → V → V → Prop
  | nil (u : V) : Walk G 0 u u
  | snoc {n : Nat} {u v w : V} (h : Walk G n u v) (hadj : G.Adj v w) : Walk G (n + 1) u w

/-- The least number of edges of a walk to `v` from a vertex of `S`. -/
def Graph.IsDist (G : Graph V E) (S : List V) (v : V) (n : Nat) : Prop :=
  (∃ s ∈ S, G.Walk n s v) ∧ ∀ m, ∀ s ∈ S, G.Walk m s v → n ≤ m

end Actl.Traversal
