import Verif.Model.Bfs

/-!
Counting copies of the loops of the searches: they also return the greatest size of the stack or of
the queue at the head of the loop.
-/

namespace Actl.Traversal

variable {σ V E : Type} (G : Graph V E) (c : Comp σ V E) (term : V → Bool)

/-- Copy of `loop`, `depth_first_search.hpp:99-120`, with the greatest size of the stack of contexts. -/
def loopDepth : Nat → V → List E → List (V × List E) → σ → Option ((σ × V) × Nat)
  | 0, _, _, _, _ => none
  | fuel + 1, u, [], stack, s =>
    let s := c.on (.finish u) s
    match stack with
    | [] => some ((s, u), 0)
    | (_, []) :: _ => none
    | (u, e :: es) :: stack' =>
      (loopDepth fuel u es stack' (c.on (.treeFinish e) s)).map fun r => (r.1, max stack.length r.2)
  | fuel + 1, u, e :: es, stack, s =>
    if c.disc s (G.tgt e) then
      (loopDepth fuel u es stack (c.on (.nonTree e) s)).map fun r => (r.1, max stack.length r.2)
    else
      let s := c.on (.treeStart e) s
      let v := G.tgt e
      let s := c.on (.start v) (c.on (.discover v) s)
      if term v then some ((s, v), stack.length)
      else (loopDepth fuel v (G.out v) ((u, e :: es) :: stack) s).map fun r => (r.1, max stack.length r.2)

/-- Copy of `visit`, `depth_first_search.hpp:80-122`, with the greatest size of the stack. -/
def visitDepth (fuel : Nat) (u : V) (s : σ) : Option (σ × Nat) :=
  let s := c.on (.searchStart u) s
  let s := c.on (.start u) (c.on (.discover u) s)
  if term u then some (c.on (.searchFinish u) s, 0)
  else match loopDepth G c term fuel u (G.out u) [] s with
    | none => none
    | some ((s, w), n) => some (c.on (.searchFinish w) s, n)

/-- Copy of `bfsLoop`, `breadth_first_search.hpp:64-81`, with the greatest size of the queue. -/
def bfsLoopWidth (null : V) : Nat → List V → σ → Option (σ × Nat)
  | 0, _, _ => none
  | _ + 1, [], s => some (c.on (.searchFinish null) s, 0)
  | fuel + 1, u :: q, s =>
    match bfsEdges G c term (G.out u) q (c.on (.start u) s) with
    | (s, none) => some (s, (u :: q).length)
    | (s, some q') => (bfsLoopWidth null fuel q' (c.on (.finish u) s)).map fun r => (r.1, max (u :: q).length r.2)

/-- Copy of `bfs`, `breadth_first_search.hpp:33-82`, with the greatest size of the queue. -/
def bfsWidth (null : V) (fuel : Nat) (sources : List V) (s : σ) : Option (σ × Nat) :=
  match bfsSources c term sources [] (initAll c G.vertices s) with
  | (s, none) => some (s, 0)
  | (s, some q) => bfsLoopWidth G c term null fuel q s

end Actl.Traversal
