import Mathlib.Logic.Relation

/-! The graph of a list of edges: an edge is its two ends and what comes with it. -/

namespace Actl.Built

variable {V ι : Type}

/-- One of the edges leads from `u` to `v`; in an undirected graph in either direction. -/
def Link (undirected : Bool) (es : List (V × V × ι)) (u v : V) : Prop :=
  ∃ e ∈ es, (e.1 = u ∧ e.2.1 = v) ∨ (undirected = true ∧ e.1 = v ∧ e.2.1 = u)

/-- There is a path along the edges. -/
def Path (undirected : Bool) (es : List (V × V × ι)) : V → V → Prop := Relation.ReflTransGen (Link undirected es)

/-- There is a path of this number of edges. -/
def Steps (undirected : Bool) (es : List (V × V × ι)) : Nat → V → V → Prop
  | 0, u, v => u = v
  | n + 1, u, v => ∃ w, Steps undirected es n u w ∧ Link undirected es w v

end Actl.Built
