import Verif.Model.Traversal
import Mathlib.Data.Set.Insert
import Mathlib.Logic.Relation

/-!
Reference for depth-first searches: the events of a search without terminator, as a relation;
reachability.
-/

namespace Actl.Traversal

variable {V E : Type}

/-- `Run G D es l D'`: examining the out-edges `es` while the vertices of `D` are discovered gives
the events `l` and leaves the vertices of `D'` discovered. -/
inductive Run (G : Graph V E) : Set V → List E → List (Event V E) → Set V → Prop
  | nil (D : Set V) : Run G D [] [] D
  | skip {D D' : Set V} {e : E} {es : List E} {l : List (Event V E)} (h : G.tgt e ∈ D)
      (r : Run G D es l D') : Run G D (e :: es) (.nonTree e :: l) D'
  | tree {D D1 D2 : Set V} {e : E} {es : List E} {l1 l2 : List (Event V E)} (h : G.tgt e ∉ D)
      (r1 : Run G (insert (G.tgt e) D) (G.out (G.tgt e)) l1 D1) (r2 : Run G D1 es l2 D2) :
      Run G D (e :: es)
        ([.treeStart e, .discover (G.tgt e), .start (G.tgt e)] ++ l1 ++ [.finish (G.tgt e), .treeFinish e] ++ l2) D2

/-- The events of the search from an undiscovered source. -/
def Visit (G : Graph V E) (D : Set V) (u : V) (l : List (Event V E)) (D' : Set V) : Prop :=
  ∃ l1, Run G (insert u D) (G.out u) l1 D' ∧
    l = [.searchStart u, .discover u, .start u] ++ l1 ++ [.finish u, .searchFinish u]

/-- The events of the search from every vertex of a list not discovered yet. -/
inductive VisitAll (G : Graph V E) : Set V → List V → List (Event V E) → Set V → Prop
  | nil (D : Set V) : VisitAll G D [] [] D
  | skip {D D' : Set V} {u : V} {us : List V} {l : List (Event V E)} (h : u ∈ D)
      (r : VisitAll G D us l D') : VisitAll G D (u :: us) l D'
  | visit {D D1 D2 : Set V} {u : V} {us : List V} {l1 l2 : List (Event V E)} (h : u ∉ D)
      (v : Visit G D u l1 D1) (r : VisitAll G D1 us l2 D2) : VisitAll G D (u :: us) (l1 ++ l2) D2

/-- There is an edge. -/
def Graph.Adj (G : Graph V E) (u v : V) : Prop := ∃ e ∈ G.out u, G.tgt e = v

/-- There is a path (maybe empty). -/
def Graph.Reach (G : Graph V E) : V → V → Prop := Relation.ReflTransGen G.Adj

/-- There is no cycle through a vertex of the graph. -/
def Graph.Acyclic (G : Graph V E) : Prop := ∀ u ∈ G.vertices, ¬Relation.TransGen G.Adj u u

/-! What the events say. -/

/-- The vertices discovered, in order. -/
def discs (l : List (Event V E)) : List V :=
  l.filterMap (fun ev => match ev with | .discover v => some v | _ => none)

/-- The vertices started, in order. -/
def starts (l : List (Event V E)) : List V :=
  l.filterMap (fun ev => match ev with | .start v => some v | _ => none)

/-- The vertices finished, in order. -/
def finishes (l : List (Event V E)) : List V :=
  l.filterMap (fun ev => match ev with | .finish v => some v | _ => none)

/-- The edges examined, in order. -/
def examined (l : List (Event V E)) : List E :=
  l.filterMap (fun ev => match ev with | .treeStart e => some e | .nonTree e => some e | _ => none)

/-- There is a tree edge from the first vertex to the second. -/
def TreeAdj (G : Graph V E) (l : List (Event V E)) (x y : V) : Prop :=
  ∃ e, Event.treeStart e ∈ l ∧ G.src e = x ∧ G.tgt e = y

/-- `Story G R D l`: events that make sense while the vertices of `D` are discovered.  Edges are
out-edges of discovered vertices; tree edges lead to new vertices, discovered next; non-tree edges
lead to discovered vertices; searches start from new vertices of `R`, discovered next; vertices are
started and finished after being discovered. -/
inductive Story (G : Graph V E) (R : V → Prop) : Set V → List (Event V E) → Prop
  | nil (D : Set V) : Story G R D []
  | root {D : Set V} {u : V} {l : List (Event V E)} (hR : R u) (h : u ∉ D) (r : Story G R (insert u D) l) :
      Story G R D (.searchStart u :: .discover u :: l)
  | tree {D : Set V} {e : E} {l : List (Event V E)} (he : e ∈ G.out (G.src e)) (hs : G.src e ∈ D) (ht : G.tgt e ∉ D)
      (r : Story G R (insert (G.tgt e) D) l) : Story G R D (.treeStart e :: .discover (G.tgt e) :: l)
  | nonTree {D : Set V} {e : E} {l : List (Event V E)} (he : e ∈ G.out (G.src e)) (hs : G.src e ∈ D) (ht : G.tgt e ∈ D)
      (r : Story G R D l) : Story G R D (.nonTree e :: l)
  | treeFinish {D : Set V} {e : E} {l : List (Event V E)} (hs : G.src e ∈ D) (ht : G.tgt e ∈ D) (r : Story G R D l) :
      Story G R D (.treeFinish e :: l)
  | start {D : Set V} {u : V} {l : List (Event V E)} (h : u ∈ D) (r : Story G R D l) : Story G R D (.start u :: l)
  | finish {D : Set V} {u : V} {l : List (Event V E)} (h : u ∈ D) (r : Story G R D l) : Story G R D (.finish u :: l)
  | searchFinish {D : Set V} {u : V} {l : List (Event V E)} (r : Story G R D l) : Story G R D (.searchFinish u :: l)

/-- The vertex reached from `v` in a number of predecessor steps. -/
def follow (p : V → Option V) : Nat → V → Option V
  | 0, v => some v
  | n + 1, v => (p v).bind (follow p n)

/-- The events of a search that explores the vertices of `R` completely. -/
structure Explores [DecidableEq V] (G : Graph V E) (R : V → Prop) (l : List (Event V E)) : Prop where
  /-- No vertex is discovered twice. -/
  once : (discs l).Nodup
  /-- Just the vertices of `R` are discovered. -/
  exactly : ∀ v, v ∈ discs l ↔ R v
  /-- They are started and finished once. -/
  starts_eq : starts l = discs l
  finishes_perm : (finishes l).Perm (discs l)
  /-- They are discovered, then started, then finished. -/
  order : ∀ v, R v → ∃ a b c, l = a ++ .discover v :: .start v :: b ++ .finish v :: c
  /-- Each of their out-edges is examined once, in order; no other edge is. -/
  edges : ∀ v, R v → (examined l).filter (fun e => G.src e = v) = G.out v
  no_edges : ∀ v, ¬R v → (examined l).filter (fun e => G.src e = v) = []
  /-- Tree edges lead to vertices not discovered yet, which are discovered next. -/
  tree : ∀ a e b, l = a ++ .treeStart e :: b →
    G.src e ∈ discs a ∧ G.tgt e ∉ discs a ∧ ∃ b', b = .discover (G.tgt e) :: b'
  /-- Non-tree edges lead to vertices already discovered. -/
  nonTree : ∀ a e b, l = a ++ .nonTree e :: b → G.src e ∈ discs a ∧ G.tgt e ∈ discs a

/-- When a vertex is started. -/
def startAt [DecidableEq V] [DecidableEq E] (l : List (Event V E)) (v : V) : Nat := l.idxOf (.start v)

/-- When a vertex is finished. -/
def finishAt [DecidableEq V] [DecidableEq E] (l : List (Event V E)) (v : V) : Nat := l.idxOf (.finish v)

end Actl.Traversal
