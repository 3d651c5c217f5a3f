import Mathlib.Data.List.Basic

/-! What a history of insertions of vertices and edges says: the calls, their answers, and what follows from them. -/

namespace Actl.Storage

variable {α β κ : Type}

/-- A call: a vertex with a value, or an edge between two vertices with a bundle. -/
inductive Insert (α β : Type)
  | vertex (x : α)
  | edge (u v : Int) (b : β)
deriving DecidableEq

/-- An answer: the vertex and whether it is new; the edge, if it was added. -/
inductive Got
  | vertex (u : Int) (isNew : Bool)
  | edge (e : Option (Int × Int × Int))
deriving DecidableEq

/-- The calls for vertices, each with the vertex returned and whether it is new. -/
def vertexCalls : List (Insert α β × Got) → List (α × Int × Bool)
  | [] => []
  | (.vertex x, .vertex u isNew) :: log => (x, u, isNew) :: vertexCalls log
  | _ :: log => vertexCalls log

/-- The calls for edges, with what they returned. -/
def edgeCalls : List (Insert α β × Got) → List ((Int × Int × β) × Option (Int × Int × Int))
  | [] => []
  | (.edge u v b, .edge e) :: log => ((u, v, b), e) :: edgeCalls log
  | _ :: log => edgeCalls log

/-- The number of vertices after these calls, if vertices are numbered: one more for each vertex, and enough for both ends of each
edge. -/
def numbered (n : Nat) : List (Insert α β × Got) → Nat
  | [] => n
  | (.vertex _, _) :: log => numbered (n + 1) log
  | (.edge u v _, _) :: log => numbered (max n (max u v + 1).toNat) log

/-- For each key whether it is the first of its kind; without `unique` they all count as such. -/
def firstOfKind [DecidableEq κ] (unique : Bool) : List κ → List κ → List Bool
  | _, [] => []
  | seen, x :: xs => (!(unique && decide (x ∈ seen))) :: firstOfKind unique (seen ++ [x]) xs

end Actl.Storage
