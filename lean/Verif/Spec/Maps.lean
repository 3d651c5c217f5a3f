/-!
What maps are supposed to do.
-/

namespace Actl.Maps

/-- The distinct elements of a list, in order of first occurrence. -/
def firsts {K : Type} [DecidableEq K] (ks : List K) : List K :=
  ks.foldl (fun acc k => if k ∈ acc then acc else acc ++ [k]) []

/-- The value put last at a key, by a history of puts (oldest first). -/
def lastPut {K V : Type} [DecidableEq K] (h : List (K × V)) (k : K) : Option V :=
  h.foldl (fun r p => if p.1 = k then some p.2 else r) none

end Actl.Maps
