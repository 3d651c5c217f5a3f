import Mathlib.Order.Defs.LinearOrder

/-! What graph storages should contain after a sequence of calls. -/

namespace Actl.Storage

variable {V ι : Type} [LinearOrder V]

/-- The two ends of an edge seen as the storage sees them: ordered in an undirected graph. -/
def ends (undirected : Bool) (e : V × V × ι) : V × V :=
  if undirected then (min e.1 e.2.1, max e.1 e.2.1) else (e.1, e.2.1)

/-- The calls that are accepted, in order, and the answers to all the calls: with `unique` an edge with
the same ends as an earlier one is refused. -/
def accept (unique undirected : Bool) : List (V × V × ι) → List (V × V × ι) →
    List (V × V × ι) × List Bool
  | stored, [] => (stored, [])
  | stored, e :: calls =>
    if unique = true ∧ ∃ d ∈ stored, ends undirected d = ends undirected e then
      let r := accept unique undirected stored calls
      (r.1, false :: r.2)
    else
      let r := accept unique undirected (stored ++ [e]) calls
      (r.1, true :: r.2)

/-- What a vertex should have as its out-edges, in the order they were added: the other end and what
comes with the edge.  A loop of an undirected graph is there once. -/
def outOf (undirected : Bool) (es : List (V × V × ι)) (u : V) : List (V × ι) :=
  es.filterMap fun e =>
    if e.1 = u then some (e.2.1, e.2.2)
    else if undirected = true ∧ e.2.1 = u then some (e.1, e.2.2) else none

/-- The same with the bundles, where the copies of an edge at its second end have `moved` of it. -/
def outWith (moved : ι → ι) (undirected : Bool) (es : List (V × V × ι)) (u : V) : List (V × ι) :=
  es.filterMap fun e =>
    if e.1 = u then some (e.2.1, e.2.2)
    else if undirected = true ∧ e.2.1 = u then some (e.1, moved e.2.2) else none

/-- The in-edges of a vertex of a directed graph: the sources. -/
def inOf (es : List (V × V × ι)) (u : V) : List (V × ι) :=
  es.filterMap fun e => if e.2.1 = u then some (e.1, e.2.2) else none

end Actl.Storage
