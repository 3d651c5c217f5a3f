import Verif.Model.Containers
import Verif.Model.LinePolygon
import Verif.Model.Hull
import Verif.Model.ClosestPair
import Verif.Model.BinaryPow

/-!
# Counting the steps of algorithms whose running time is documented

Every definition here is a function of another module of the model that also counts the operations it
performs; the comment says which operations are counted.  `Verif/Props/Steps.lean` proves that the
other component is the function itself.  Loops with a bound on the number of iterations return `none`
here when the bound is exhausted.
-/

namespace Actl.Containers

variable {α : Type}

/-- `moveAll` (`queue_using_stacks.hpp` 23-26): calls of `empty`, `push`, `top` and `pop` of the
stacks. -/
def moveAllCount : List α → List α → List α × Nat
  | [], out => (out, 1)
  | x :: inS, out => ((moveAllCount inS (x :: out)).1, 4 + (moveAllCount inS (x :: out)).2)

/-- `TwoStacks.fill` (`queue_using_stacks.hpp` 21-28): calls of functions of the stacks. -/
def TwoStacks.fillCount (q : TwoStacks α) : TwoStacks α × Nat :=
  if q.outS.isEmpty then (⟨[], (moveAllCount q.inS q.outS).1⟩, 1 + (moveAllCount q.inS q.outS).2)
  else (q, 1)

/-- `TwoStacks.step` (`queue_using_stacks.hpp` 37-66): calls of functions of the stacks. -/
def TwoStacks.stepCount (q : TwoStacks α) : QOp α → Option ((Out α × TwoStacks α) × Nat)
  | .push x => some ((.unit, { q with inS := x :: q.inS }), 1)
  | .pop => match q.fillCount.1.outS with
    | [] => none
    | _ :: out => some ((.unit, { q.fillCount.1 with outS := out }), q.fillCount.2 + 1)
  | .front => match q.fillCount.1.outS with
    | [] => none
    | x :: _ => some ((.val x, q.fillCount.1), q.fillCount.2 + 1)
  | .back => none
  | .size => some ((.nat (q.inS.length + q.outS.length), q), 2)
  | .empty => some ((.bool (q.inS.isEmpty && q.outS.isEmpty), q), if q.inS.isEmpty then 2 else 1)

/-- A history: its outputs and the total number of stack operations. -/
def TwoStacks.runCount : TwoStacks α → List (QOp α) → Option (List (Out α) × Nat)
  | _, [] => some ([], 0)
  | q, op :: ops =>
    match q.stepCount op with
    | none => none
    | some ((x, q), c) =>
      match TwoStacks.runCount q ops with
      | none => none
      | some (xs, d) => some (x :: xs, c + d)

end Actl.Containers

namespace Actl.Geo

variable {F : Type*} [Field F] [LinearOrder F]

/-- `isExtreme` (`extreme_vertex.hpp` 26-34): calls of `vertex_cmp`; the second operand of `&&` is
evaluated only if the first one is true. -/
def isExtremeCount (cmp : Nat → Nat → Turn) (n i : Nat) : (Bool × Turn) × Nat :=
  (isExtreme cmp n i, if cmp (nextAt n i) i ≠ .left then 2 else 1)

/-- `extremeLoop` (`extreme_vertex.hpp` 39-51): calls of `vertex_cmp`. -/
def extremeLoopCount (cmp : Nat → Nat → Turn) (n : Nat) : Nat → Nat → Nat → Turn → Option (Nat × Nat)
  | 0, _, _, _ => none
  | k + 1, first, last, firstSgn =>
    if first + 1 = last then some (first, 0)
    else
      let middle := first + (last - first) / 2
      let m := isExtremeCount cmp n middle
      if m.1.1 then some (middle, m.2)
      else
        let c := m.2 + if firstSgn ≠ m.1.2 then 0 else 1
        if (if firstSgn ≠ m.1.2 then firstSgn.value < m.1.2.value
            else firstSgn = cmp first middle) then
          (extremeLoopCount cmp n k first middle firstSgn).map fun r => (r.1, c + r.2)
        else (extremeLoopCount cmp n k middle last m.1.2).map fun r => (r.1, c + r.2)

/-- `extremeVertex` (`extreme_vertex.hpp` 15-53): calls of `vertex_cmp`. -/
def extremeVertexCount (poly : List (Vec F 2)) (direction : Vec F 2 → Vec F 2) :
    Option (Nat × Nat) :=
  if poly.length ≤ 1 then none
  else
    let cmp := vertexCmp direction poly
    let f := isExtremeCount cmp poly.length 0
    if f.1.1 then some (0, f.2)
    else (extremeLoopCount cmp poly.length poly.length 0 poly.length f.1.2).map fun r =>
      (r.1, f.2 + r.2)

/-- `chainLoop` (`line_convex_polygon.hpp` 47-54): calls of `vertex_orient`. -/
def chainLoopCount (orient : Nat → Turn) (n : Nat) (firstOrient : Turn) :
    Nat → Nat → Nat → Option ((Nat × Nat) × Nat)
  | 0, _, _ => none
  | k + 1, first, last =>
    if nextAt n first = last then some ((first, last), 0)
    else
      let middle := (first + (last + n - first) % n / 2) % n
      if orient middle = firstOrient then
        (chainLoopCount orient n firstOrient k middle last).map fun r => (r.1, 1 + r.2)
      else (chainLoopCount orient n firstOrient k first middle).map fun r => (r.1, 1 + r.2)

/-- `intersectConvex` (`line_convex_polygon.hpp` 18-61): calls of `vertex_cmp` and `vertex_orient`. -/
def intersectConvexCount (l : Line F 2) (poly : List (Vec F 2)) : Option (List F × Nat) :=
  if degenerate l.vector then none
  else (extremeVertexCount poly fun _ => l.vector).bind fun right =>
    (extremeVertexCount poly fun _ => -l.vector).bind fun left =>
      let rightOrient := vertexOrient l poly right.1
      let leftOrient := vertexOrient l poly left.1
      let c := right.2 + left.2 + 2
      if leftOrient = .left ∨ rightOrient = .right then some ([], c)
      else
        let n := poly.length
        (chainLoopCount (vertexOrient l poly) n leftOrient n left.1 right.1).bind fun r =>
          (chainLoopCount (vertexOrient l poly) n rightOrient n right.1 left.1).map fun s =>
            (intersectScalar l (Line.through (polyAt poly r.1.1) (polyAt poly r.1.2) .free) ++
              intersectScalar l (Line.through (polyAt poly s.1.1) (polyAt poly s.1.2) .free),
             c + r.2 + s.2)

/-- `popLast` (`andrew_monotone_chain.hpp` 41-45): calls of `right_turn`. -/
def popLastCount (points : List (Vec F 2)) (p : Vec F 2) : Nat → Nat × Nat
  | 0 => (0, 0)
  | last + 1 =>
    if rightTurn p (pointAt points (last + 1)) (pointAt points last) then (last + 1, 1)
    else ((popLastCount points p last).1, (popLastCount points p last).2 + 1)

/-- `hullLoop` (`andrew_monotone_chain.hpp` 46-52): calls of `right_turn`. -/
def hullLoopCount (pivot : Nat) : Nat → Nat → List (Vec F 2) → Nat → (List (Vec F 2) × Nat) × Nat
  | 0, _, points, last => ((points, last), 0)
  | fuel + 1, i, points, last =>
    let points := if i = pivot then points.take i ++ sortPointsDown (points.drop i) else points
    let l := popLastCount points (pointAt points i) last
    let r := hullLoopCount pivot fuel (i + 1) (points.set (l.1 + 1) (pointAt points i)) (l.1 + 1)
    (r.1, l.2 + r.2)

/-- `convexHull` (`andrew_monotone_chain.hpp` 27-57): the calls of `orientation` by the predicate of
`partition` (one for every point) and of `right_turn`.  Not counted: `minmax_element` and the two
sorts, whose complexity the standard prescribes. -/
def convexHullCount (points : List (Vec F 2)) : List (Vec F 2) × Nat :=
  match points with
  | [] => ([], 0)
  | [x] => ([x], 0)
  | x :: y :: rest =>
    let a := minPoint x (y :: rest)
    let b := maxPoint x (y :: rest)
    let comp := fun p => !decide (orientationLine p (Line.through a b .free) = .right)
    let pivot := (points.filter comp).length
    let points := sortPoints (points.filter comp) ++ points.filter fun p => !comp p
    let r := hullLoopCount pivot (points.length - 2) 2 points 1
    let f := popLastCount r.1.1 (pointAt r.1.1 0) r.1.2
    let last := if f.1 = 1 ∧ isEqual (pointAt r.1.1 0) (pointAt r.1.1 1) = true then f.1 - 1
      else f.1
    (r.1.1.take (last + 1), points.length + r.2 + f.2)

/-- `scanStrip` (`nearest/multi_point.hpp` 50-56): iterations of the loop, the one that leaves it
included. -/
def scanStripCount (sqrt : F → F) (p : Vec F 2) : DistPair F → List (Vec F 2) → DistPair F × Nat
  | res, [] => (res, 0)
  | res, q :: qs =>
    if p 1 - q 1 < res.1 then
      let dist := distancePoint sqrt p q
      let r := scanStripCount sqrt p (if dist < res.1 then (dist, p, q) else res) qs
      (r.1, r.2 + 1)
    else (res, 1)

/-- `stripLoop` (`nearest/multi_point.hpp` 47-59): iterations of both loops. -/
def stripLoopCount (sqrt : F → F) (mx : F) :
    DistPair F → List (Vec F 2) → List (Vec F 2) → DistPair F × Nat
  | res, _, [] => (res, 0)
  | res, kept, p :: ps =>
    if absValue (p 0 - mx) < res.1 then
      let s := scanStripCount sqrt p res kept
      let r := stripLoopCount sqrt mx s.1 (p :: kept) ps
      (r.1, s.2 + r.2 + 1)
    else
      let r := stripLoopCount sqrt mx res kept ps
      (r.1, r.2 + 1)

/-- `nearestRec` (`nearest/multi_point.hpp` 19-61): the pairs of the double loop of lines 28-35, the
elements merged by `std::merge` and copied back, and the iterations of the loops of lines 47-59. Not
counted: the sort of at most three points. -/
def nearestRecCount (sqrt : F → F) (alg : StdAlgorithms (Vec F 2)) (points : List (Vec F 2)) :
    (DistPair F × List (Vec F 2)) × Nat :=
  if points.length ≤ 3 then
    ((bruteForce sqrt points, alg.sort yLess points), points.length * (points.length - 1) / 2)
  else
    let middle := points.length / 2
    let mx := elemAt points middle 0
    let l := nearestRecCount sqrt alg (points.take middle)
    let r := nearestRecCount sqrt alg (points.drop middle)
    let res := if r.1.1.1 < l.1.1.1 then r.1.1 else l.1.1
    let points := List.merge l.1.2 r.1.2 fun a b => !yLess b a
    let s := stripLoopCount sqrt mx res [] points
    ((s.1, points), l.2 + r.2 + (points.length + points.length) + s.2)
termination_by points.length
decreasing_by
  all_goals simp only [List.length_take, List.length_drop]; omega

/-- `equalNeighbours` (`nearest/multi_point.hpp` 71-74): comparisons. -/
def equalNeighboursCount : List (Vec F 2) → Option (Vec F 2 × Vec F 2) × Nat
  | a :: b :: rest =>
    if isEqual a b then (some (a, b), 1)
    else
      let r := equalNeighboursCount (b :: rest)
      (r.1, r.2 + 1)
  | _ => (none, 0)

/-- `nearestPair` (`nearest/multi_point.hpp` 65-78).  Not counted: the sort of line 70. -/
def nearestPairCount (sqrt : F → F) (alg : StdAlgorithms (Vec F 2)) (points : List (Vec F 2)) :
    Option (((Vec F 2 × Vec F 2) × List (Vec F 2)) × Nat) :=
  if points.length ≤ 1 then none
  else
    let points := alg.sort less points
    let e := equalNeighboursCount points
    match e.1 with
    | some pair => some ((pair, points), e.2)
    | none =>
      let r := nearestRecCount sqrt alg points
      some ((r.1.1.2, r.1.2), e.2 + r.2)

end Actl.Geo

namespace Actl.BinaryPow

/-- `loop` (`binary_pow.hpp` 19-24): multiplications. -/
def loopCount {α : Type _} (mul : α → α → α) (res value : α) (power : Nat) : α × Nat :=
  if power > 1 then
    let r := loopCount mul (if power % 2 = 1 then mul res value else res) (mul value value) (power / 2)
    (r.1, (if power % 2 = 1 then 2 else 1) + r.2)
  else (mul res value, 1)
termination_by power

/-- `binaryPow` (`binary_pow.hpp` 14-25): multiplications. -/
def binaryPowCount {α : Type _} (mul : α → α → α) (one value : α) (power : Nat) : α × Nat :=
  if power = 0 then (one, 0) else loopCount mul one value power

end Actl.BinaryPow
