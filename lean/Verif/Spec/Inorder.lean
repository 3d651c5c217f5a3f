import Verif.Model.Traversal
import Mathlib.Data.Set.Insert

/-!
Depth-first trees, the orders of their vertices, and binary trees.
-/

namespace Actl.Traversal

variable {V E : Type}

/-- A sequence of trees: the root and the children of the first one, the other ones. -/
inductive Trees (V : Type)
  | nil
  | tree (u : V) (children rest : Trees V)

namespace Trees

/-- The number of trees. -/
def size : Trees V → Nat
  | nil => 0
  | tree _ _ rest => rest.size + 1

/-- Roots before their children. -/
def preorder : Trees V → List V
  | nil => []
  | tree u children rest => u :: children.preorder ++ rest.preorder

/-- Roots behind their children. -/
def postorder : Trees V → List V
  | nil => []
  | tree u children rest => children.postorder ++ [u] ++ rest.postorder

/-- One list for each tree: the root between each pair of children, or once behind them if there are less than two. -/
def inorder : Trees V → List (List V)
  | nil => []
  | tree u children rest =>
    (if children.size < 2 then children.inorder.flatten ++ [u] else [u].intercalate children.inorder) :: rest.inorder

/-- The numbers of children of all vertices, in preorder. -/
def degrees : Trees V → List Nat
  | nil => []
  | tree _ children rest => children.size :: children.degrees ++ rest.degrees

end Trees

/-- `Grows G D es F D'`: following the edges `es` in order, and from every vertex reached its out-edges, but never to a vertex
reached before, gives the trees `F`.  `D` are the vertices reached before, `D'` those reached in the end. -/
inductive Grows (G : Graph V E) : Set V → List E → Trees V → Set V → Prop
  | nil (D : Set V) : Grows G D [] .nil D
  | skip {D D' : Set V} {e : E} {es : List E} {F : Trees V} (h : G.tgt e ∈ D) (r : Grows G D es F D') :
      Grows G D (e :: es) F D'
  | tree {D D1 D2 : Set V} {e : E} {es : List E} {F1 F2 : Trees V} (h : G.tgt e ∉ D)
      (r1 : Grows G (insert (G.tgt e) D) (G.out (G.tgt e)) F1 D1) (r2 : Grows G D1 es F2 D2) :
      Grows G D (e :: es) (.tree (G.tgt e) F1 F2) D2

/-- The depth-first tree from a source: its children. -/
def DfsTree (G : Graph V E) (s : V) (F : Trees V) : Prop := ∃ D, Grows G {s} (G.out s) F D

/-- Binary trees. -/
inductive BTree (V : Type)
  | empty
  | node (left : BTree V) (x : V) (right : BTree V)

namespace BTree

def root : BTree V → List V
  | empty => []
  | node _ x _ => [x]

/-- The standard order: left, root, right. -/
def inorder : BTree V → List V
  | empty => []
  | node l x r => l.inorder ++ [x] ++ r.inorder

/-- No vertex has a right child but no left child. -/
def LeftFirst : BTree V → Prop
  | empty => True
  | node l _ r => (l.root = [] → r.root = []) ∧ l.LeftFirst ∧ r.LeftFirst

/-- The graph contains the tree below the vertices `above`: the edges of every vertex lead to its left child, then its
right child, and to the vertex above it if the graph is undirected. -/
def InGraph [DecidableEq V] (G : Graph V E) : List V → BTree V → Prop
  | _, empty => True
  | above, node l x r =>
    ((G.out x).map G.tgt).filter (· ∉ above) = l.root ++ r.root ∧ l.InGraph G [x] ∧ r.InGraph G [x]

end BTree

end Actl.Traversal
