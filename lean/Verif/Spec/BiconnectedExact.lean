import Verif.Spec.Dfs

/-!
The partition of the edges of a graph that `find_biconnected_components` computes, in terms of the events `l` of a
depth-first search and the times `T` of discovery.
-/

namespace Actl.Traversal

variable {V E : Type}

/-- The edge leads to a vertex discovered earlier than the one where it is listed. -/
def Graph.Back (G : Graph V E) (T : V → Int) (e : E) : Prop := T (G.tgt e) < T (G.src e)

/-- The search returns over a tree edge from a vertex none of whose neighbours was discovered earlier than the other end of
the tree edge. -/
def Graph.Closes (G : Graph V E) (T : V → Int) : Event V E → Prop
  | .treeFinish h => ∀ w, G.Adj (G.tgt h) w → T (G.src h) ≤ T w
  | _ => False

open Classical in
/-- How many such returns there are. -/
noncomputable def Graph.closings (G : Graph V E) (T : V → Int) (l : List (Event V E)) : Int :=
  ((l.filter (fun ev => decide (G.Closes T ev))).length : Nat)

/-- The edge `e`, or an edge back examined during the events `b`, leads to a vertex discovered earlier than `x`. -/
def Graph.Above (G : Graph V E) (T : V → Int) (e : E) (b : List (Event V E)) (x : V) : Prop :=
  ∃ g, (g = e ∨ Event.nonTree g ∈ b) ∧ G.Back T g ∧ T (G.tgt g) < T x

/-- The edge `e`, examined as a non-tree edge after the events `a`, waits during the events `b` for the return over the tree
edge `h`.  It is the first return that closes something such that since `e`, and including `e`, no edge leading to a vertex
discovered earlier than the end of `h` was examined; `i` such returns, for whatever edges, happened before. -/
def Graph.ClosedBy (G : Graph V E) (T : V → Int) (l : List (Event V E)) (e : E) (i : Int) : Prop :=
  ∃ a b h c, l = a ++ .nonTree e :: b ++ .treeFinish h :: c ∧
    G.Closes T (.treeFinish h) ∧ ¬G.Above T e b (G.src h) ∧
    (∀ b1 h' b2, b = b1 ++ .treeFinish h' :: b2 → G.Closes T (.treeFinish h') → G.Above T e b1 (G.src h')) ∧
    i = G.closings T (a ++ .nonTree e :: b)

end Actl.Traversal
