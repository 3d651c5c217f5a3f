import Verif.Model.IntGeometry
import Verif.Props.Hull
import Verif.Props.WithinTriangle
import Verif.Props.Winding
import Verif.Props.Area
import Mathlib.Tactic.Linarith
import Mathlib.Data.Int.Cast.Lemmas
import Mathlib.Algebra.Order.Ring.Cast

/-!
# C103: geometry on integer coordinates

Points whose coordinates lie in a box of side `D` anywhere in the plane: when `D` fits the type of
the coordinates and `D * D` the type of the products, orientations, the convex hull, the point in
triangle test and the point in polygon test overflow nowhere and give what exact arithmetic gives.
The bound is exact for orientations.  The area of a polygon is not invariant under moving the
polygon: it overflows for a triangle of doubled area 1 far from the origin.
-/

namespace Actl.Geo

variable {F : Type*} [Field F] [LinearOrder F] [IsStrictOrderedRing F]

/-- The same point in an ordered field. -/
def exact (p : Vec Int 2) : Vec F 2 := fun i => (p i : F)

/-- The point lies in the square of side `D` with the lowest corner `c`. -/
def InBox (c : Vec Int 2) (D : Int) (p : Vec Int 2) : Prop :=
  c 0 ≤ p 0 ∧ p 0 ≤ c 0 + D ∧ c 1 ≤ p 1 ∧ p 1 ≤ c 1 + D

theorem exact_injective : Function.Injective (exact : Vec Int 2 → Vec F 2) := by
  intro p q h
  funext i
  have := congrFun h i
  exact Int.cast_injective this

theorem fitInt_some {w : Nat} {x : Int} (h0 : -2 ^ (w - 1) ≤ x) (h1 : x < 2 ^ (w - 1)) :
    fitInt w x = some x := if_pos ⟨h0, h1⟩

theorem fitInt_none {w : Nat} {x : Int} (h : x < -2 ^ (w - 1) ∨ 2 ^ (w - 1) ≤ x) :
    fitInt w x = none := if_neg (by omega)

theorem fitInt_eq {w : Nat} {x y : Int} (h : fitInt w x = some y) : y = x := by
  unfold fitInt at h
  split at h
  · exact (Option.some.inj h).symm
  · cases h

/-- Half of the bound of an orientation: a sum of three products in a square. -/
theorem square_sum_le {D a b c d e f : Int} (ha : 0 ≤ a ∧ a ≤ D) (hb : 0 ≤ b ∧ b ≤ D)
    (hc : 0 ≤ c ∧ c ≤ D) (hd : 0 ≤ d ∧ d ≤ D) (he : 0 ≤ e ∧ e ≤ D) (hf : 0 ≤ f ∧ f ≤ D) :
    (c - e) * (b - f) - (d - f) * (a - e) ≤ D * D := by
  have key : ∀ x y : Int, 0 ≤ x → x ≤ D → x * y ≤ D * max y 0 := by
    intro x y h0 h1
    rcases le_total y 0 with h | h
    · rw [max_eq_right h]; nlinarith
    · rw [max_eq_left h]; nlinarith
  have h1 := key c (b - f) hc.1 hc.2
  have h2 := key e (d - b) he.1 he.2
  have h3 := key a (f - d) ha.1 ha.2
  have h4 : max (b - f) 0 + max (d - b) 0 + max (f - d) 0 ≤ D := by omega
  have h5 : D * (max (b - f) 0 + max (d - b) 0 + max (f - d) 0) ≤ D * D :=
    mul_le_mul_of_nonneg_left h4 (by omega)
  have e1 : (c - e) * (b - f) - (d - f) * (a - e) = c * (b - f) + e * (d - b) + a * (f - d) := by
    ring
  rw [e1]
  linarith [h5, mul_add D (max (b - f) 0 + max (d - b) 0) (max (f - d) 0),
    mul_add D (max (b - f) 0) (max (d - b) 0)]

theorem sub_box {w : Nat} {c p q : Vec Int 2} {D : Int} (hp : InBox c D p) (hq : InBox c D q)
    (hw : D < 2 ^ (w - 1)) : subI w p q = some (p - q) := by
  obtain ⟨p1, p2, p3, p4⟩ := hp
  obtain ⟨q1, q2, q3, q4⟩ := hq
  rw [subI, fitInt_some (by linarith) (by linarith), fitInt_some (by linarith) (by linarith)]
  simp only [Option.bind_some, Option.map_some, Option.some.injEq]
  exact vec2_ext rfl rfl

theorem area_box {W : Nat} {c l r o : Vec Int 2} {D : Int} (hl : InBox c D l) (hr : InBox c D r)
    (ho : InBox c D o) (hW : D * D < 2 ^ (W - 1)) :
    areaI W (r - o) (l - o) = some (area (r - o) (l - o)) := by
  obtain ⟨l1, l2, l3, l4⟩ := hl
  obtain ⟨r1, r2, r3, r4⟩ := hr
  obtain ⟨o1, o2, o3, o4⟩ := ho
  have hp : ∀ x y : Int, -D ≤ x → x ≤ D → -D ≤ y → y ≤ D → -(D * D) ≤ x * y ∧ x * y ≤ D * D := by
    intro x y h1 h2 h3 h4
    constructor <;> nlinarith
  obtain ⟨a1, a2⟩ := hp (r 0 - o 0) (l 1 - o 1) (by linarith) (by linarith) (by linarith)
    (by linarith)
  obtain ⟨b1, b2⟩ := hp (r 1 - o 1) (l 0 - o 0) (by linarith) (by linarith) (by linarith)
    (by linarith)
  have u := square_sum_le (D := D) (a := l 0 - c 0) (b := l 1 - c 1) (c := r 0 - c 0)
    (d := r 1 - c 1) (e := o 0 - c 0) (f := o 1 - c 1) (by omega) (by omega) (by omega) (by omega)
    (by omega) (by omega)
  have v := square_sum_le (D := D) (a := r 0 - c 0) (b := r 1 - c 1) (c := l 0 - c 0)
    (d := l 1 - c 1) (e := o 0 - c 0) (f := o 1 - c 1) (by omega) (by omega) (by omega) (by omega)
    (by omega) (by omega)
  simp only [sub_sub_sub_cancel_right] at u v
  rw [areaI]
  simp only [Pi.sub_apply]
  rw [fitInt_some (by linarith) (by linarith), fitInt_some (by linarith) (by linarith)]
  simp only [Option.bind_some]
  rw [fitInt_some (by linarith) (by linarith)]
  rfl

theorem ofSign_cast (x : Int) : Turn.ofSign ((x : Int) : F) = Turn.ofSign x := by
  unfold Turn.ofSign
  simp only [Int.cast_lt_zero, Int.cast_pos]

theorem orientation3_exact (l r o : Vec Int 2) :
    orientation3 (exact l : Vec F 2) (exact r) (exact o) = orientation3 l r o := by
  unfold orientation3 orientation
  rw [← ofSign_cast (F := F)]
  congr 1
  simp only [area, Pi.sub_apply, exact]
  push_cast
  ring

/-- Three points of a box of side `D`: the orientation overflows nowhere and is the exact one. -/
theorem orientation_box {w W : Nat} {c l r o : Vec Int 2} {D : Int} (hl : InBox c D l)
    (hr : InBox c D r) (ho : InBox c D o) (hw : D < 2 ^ (w - 1)) (hW : D * D < 2 ^ (W - 1)) :
    orientation3I w W l r o = some (orientation3 (exact l : Vec F 2) (exact r) (exact o)) := by
  rw [orientation3_exact, orientation3I, sub_box hl ho hw, sub_box hr ho hw, Option.bind_some,
    Option.bind_some, orientationI, area_box hl hr ho hW]
  rfl

/-- The bound is exact: in every box whose side does not meet it, three corners overflow. -/
theorem orientation_overflow {w W : Nat} (c : Vec Int 2) {D : Int} (h0 : 0 ≤ D)
    (h : 2 ^ (w - 1) ≤ D ∨ 2 ^ (W - 1) ≤ D * D) :
    orientation3I w W ![c 0 + D, c 1] ![c 0, c 1 + D] c = none := by
  unfold orientation3I subI
  by_cases hw : 2 ^ (w - 1) ≤ D
  · rw [show (![c 0 + D, c 1] : Vec Int 2) 0 - c 0 = D by simp, fitInt_none (.inr hw)]
    rfl
  · have hW := h.resolve_left hw
    have hz : (0 : Int) < 2 ^ (w - 1) := by positivity
    rw [show (![c 0 + D, c 1] : Vec Int 2) 0 - c 0 = D by simp,
      show (![c 0 + D, c 1] : Vec Int 2) 1 - c 1 = 0 by simp,
      show (![c 0, c 1 + D] : Vec Int 2) 0 - c 0 = 0 by simp,
      show (![c 0, c 1 + D] : Vec Int 2) 1 - c 1 = D by simp,
      fitInt_some (w := w) (x := D) (by omega) (by omega),
      fitInt_some (w := w) (x := 0) (by omega) (by omega)]
    simp only [Option.bind_some, Option.map_some, orientationI, areaI]
    rw [show (![0, D] : Vec Int 2) 1 * (![D, 0] : Vec Int 2) 0 = D * D by simp,
      fitInt_none (.inr hW)]
    cases fitInt W ((![0, D] : Vec Int 2) 0 * (![D, 0] : Vec Int 2) 1) <;> rfl

/-! ## The hull -/

theorem lexLess_cast : ∀ l r : List Int,
    lexLess (l.map (Int.cast : Int → F)) (r.map Int.cast) = lexLess l r
  | [], _ => by simp [lexLess]
  | _ :: _, [] => by simp [lexLess]
  | a :: l, b :: r => by
    simp only [List.map_cons, lexLess, Int.cast_lt, lexLess_cast l r]

theorem less_exact (p q : Vec Int 2) : less (exact p : Vec F 2) (exact q) = less p q := by
  unfold less
  rw [← lexLess_cast (F := F), List.map_ofFn, List.map_ofFn]
  rfl

theorem isEqual_exact (p q : Vec Int 2) :
    isEqual (exact p : Vec F 2) (exact q) = isEqual p q := by
  unfold isEqual exact
  simp only [Int.cast_inj]

theorem sortI_exact (l : List (Vec Int 2)) :
    (sortI l).map (exact : Vec Int 2 → Vec F 2) = sortPoints (l.map exact) :=
  List.map_mergeSort fun _ _ _ _ => by rw [less_exact]

theorem sortDownI_exact (l : List (Vec Int 2)) :
    (sortDownI l).map (exact : Vec Int 2 → Vec F 2) = sortPointsDown (l.map exact) :=
  List.map_mergeSort fun _ _ _ _ => by rw [less_exact]

theorem minPointI_exact : ∀ (l : List (Vec Int 2)) (x : Vec Int 2),
    (exact (minPointI x l) : Vec F 2) = minPoint (exact x) (l.map exact)
  | [], _ => rfl
  | y :: ys, x => by
    rw [minPointI, List.map_cons, minPoint, minPointI_exact ys, less_exact]
    split <;> rfl

theorem maxPointI_exact : ∀ (l : List (Vec Int 2)) (x : Vec Int 2),
    (exact (maxPointI x l) : Vec F 2) = maxPoint (exact x) (l.map exact)
  | [], _ => rfl
  | y :: ys, x => by
    rw [maxPointI, List.map_cons, maxPoint, maxPointI_exact ys, less_exact]
    split <;> rfl

theorem minPointI_mem : ∀ (l : List (Vec Int 2)) (x : Vec Int 2), minPointI x l ∈ x :: l
  | [], x => List.mem_cons_self
  | y :: ys, x => by
    rw [minPointI]
    have := minPointI_mem ys (if less y x then y else x)
    rcases List.mem_cons.1 this with h | h
    · rw [h]; split <;> simp
    · simp [h]

theorem maxPointI_mem : ∀ (l : List (Vec Int 2)) (x : Vec Int 2), maxPointI x l ∈ x :: l
  | [], x => List.mem_cons_self
  | y :: ys, x => by
    rw [maxPointI]
    have := maxPointI_mem ys (if less y x then x else y)
    rcases List.mem_cons.1 this with h | h
    · rw [h]; split <;> simp
    · simp [h]

theorem pointAt_exact {points : List (Vec Int 2)} {i : Nat} {p : Vec Int 2}
    (h : points[i]? = some p) :
    pointAt (points.map (exact : Vec Int 2 → Vec F 2)) i = exact p := by
  simp [pointAt, h]

section box

variable {w W : Nat} {c : Vec Int 2} {D : Int}

theorem splitI_exact (hw : D < 2 ^ (w - 1)) (hW : D * D < 2 ^ (W - 1)) {a b : Vec Int 2}
    (ha : InBox c D a) (hb : InBox c D b) : ∀ (l : List (Vec Int 2)), (∀ p ∈ l, InBox c D p) →
    splitI w W a (b - a) l = some
      (l.filter fun p => !decide (orientationLine (exact p : Vec F 2)
        (Line.through (exact a) (exact b) .free) = .right),
      l.filter fun p => decide (orientationLine (exact p : Vec F 2)
        (Line.through (exact a) (exact b) .free) = .right))
  | [], _ => rfl
  | p :: ps, h => by
    have hp := h p List.mem_cons_self
    have ho := orientation_box (F := F) hp hb ha hw hW
    rw [orientation3I, sub_box hp ha hw, sub_box hb ha hw, Option.bind_some, Option.bind_some] at ho
    rw [splitI, sub_box hp ha hw, Option.bind_some, ho, Option.bind_some,
      splitI_exact hw hW ha hb ps fun q hq => h q (List.mem_cons_of_mem _ hq), Option.map_some]
    have e : orientationLine (exact p : Vec F 2) (Line.through (exact a) (exact b) .free) =
        orientation3 (exact p : Vec F 2) (exact b) (exact a) := rfl
    simp only [List.filter_cons, e]
    by_cases ht : orientation3 (exact p : Vec F 2) (exact b) (exact a) = .right <;> simp [ht]

theorem popLastI_exact (hw : D < 2 ^ (w - 1)) (hW : D * D < 2 ^ (W - 1))
    {points : List (Vec Int 2)} (h : ∀ p ∈ points, InBox c D p) {p : Vec Int 2}
    (hp : InBox c D p) : ∀ last, last < points.length → popLastI w W points p last =
      some (popLast (points.map (exact : Vec Int 2 → Vec F 2)) (exact p) last)
  | 0, _ => rfl
  | last + 1, hl => by
    have e1 : points[last + 1]? = some points[last + 1] := List.getElem?_eq_getElem hl
    have e0 : points[last]? = some points[last] := List.getElem?_eq_getElem (by omega)
    rw [popLastI, popLast, e1, e0, Option.bind_some, Option.bind_some,
      orientation_box (F := F) hp (h _ (List.getElem_mem _)) (h _ (List.getElem_mem _)) hw hW,
      Option.bind_some, pointAt_exact e1, pointAt_exact e0, rightTurn,
      popLastI_exact hw hW h hp last (by omega)]
    by_cases ht : orientation3 (exact p : Vec F 2) (exact points[last + 1]) (exact points[last]) =
      .right <;> simp [ht]

theorem resortI_mem {pivot i : Nat} {points : List (Vec Int 2)} {p : Vec Int 2}
    (h : p ∈ resortI pivot i points) : p ∈ points := by
  unfold resortI at h
  split at h
  · rcases List.mem_append.1 h with h | h
    · exact List.mem_of_mem_take h
    · exact List.mem_of_mem_drop (List.mem_mergeSort.1 h)
  · exact h

theorem resortI_length (pivot i : Nat) (points : List (Vec Int 2)) :
    (resortI pivot i points).length = points.length := by
  unfold resortI sortDownI
  split
  · simp; omega
  · rfl

theorem resortI_exact (pivot i : Nat) (points : List (Vec Int 2)) :
    (resortI pivot i points).map (exact : Vec Int 2 → Vec F 2) =
      if i = pivot then (points.map exact).take i ++ sortPointsDown ((points.map exact).drop i)
      else points.map exact := by
  unfold resortI
  split
  · rw [List.map_append, sortDownI_exact, List.map_take, List.map_drop]
  · rfl

theorem hullLoopI_exact (hw : D < 2 ^ (w - 1)) (hW : D * D < 2 ^ (W - 1)) (pivot : Nat) :
    ∀ (fuel i : Nat) (points : List (Vec Int 2)) (last : Nat), (∀ p ∈ points, InBox c D p) →
    i + fuel = points.length → last < i → ∃ points' last',
      hullLoopI w W pivot fuel i points last = some (points', last') ∧
      hullLoop pivot fuel i (points.map (exact : Vec Int 2 → Vec F 2)) last =
        (points'.map exact, last') ∧
      (∀ p ∈ points', InBox c D p) ∧ points'.length = points.length ∧ last' < points.length
  | 0, i, points, last, h, hi, hl => ⟨points, last, rfl, rfl, h, rfl, by omega⟩
  | fuel + 1, i, points, last, h, hi, hl => by
    have hlen := resortI_length pivot i points
    have hmem : ∀ p ∈ resortI pivot i points, InBox c D p := fun p hp => h p (resortI_mem hp)
    have hget : (resortI pivot i points)[i]? = some ((resortI pivot i points)[i]'(by omega)) :=
      List.getElem?_eq_getElem (by omega)
    have hpb : InBox c D ((resortI pivot i points)[i]'(by omega)) := hmem _ (List.getElem_mem _)
    generalize (resortI pivot i points)[i]'(by omega) = p at hget hpb
    rw [hullLoopI, hget, Option.bind_some,
      popLastI_exact (F := F) hw hW hmem hpb last (by omega), Option.bind_some]
    have hle := popLast_le ((resortI pivot i points).map (exact : Vec Int 2 → Vec F 2)) (exact p)
      last
    obtain ⟨k, hk⟩ : ∃ k, popLast ((resortI pivot i points).map (exact : Vec Int 2 → Vec F 2))
      (exact p) last = k := ⟨_, rfl⟩
    rw [hk] at hle ⊢
    rw [if_pos (by omega)]
    obtain ⟨points', last', h1, h2, h3, h4, h5⟩ := hullLoopI_exact hw hW pivot fuel (i + 1)
      ((resortI pivot i points).set (k + 1) p) (k + 1) (fun q hq => by
        rcases List.mem_or_eq_of_mem_set hq with hq | rfl
        · exact hmem q hq
        · exact hpb) (by rw [List.length_set, hlen]; omega) (by omega)
    rw [List.length_set, hlen] at h4 h5
    refine ⟨points', last', h1, ?_, h3, h4, h5⟩
    rw [hullLoop]
    simp only [← resortI_exact]
    rw [pointAt_exact hget, hk, ← List.map_set, h2]

/-- Points of a box of side `D`: the hull overflows nowhere, reads and writes within the array, and is
the hull computed exactly. -/
theorem convexHull_box (hw : D < 2 ^ (w - 1)) (hW : D * D < 2 ^ (W - 1))
    {points : List (Vec Int 2)} (h : ∀ p ∈ points, InBox c D p) :
    ∃ hull, convexHullI w W points = some hull ∧
      hull.map (exact : Vec Int 2 → Vec F 2) = convexHull (points.map exact) := by
  match points, h with
  | [], _ => exact ⟨[], rfl, rfl⟩
  | [x], _ => exact ⟨[x], rfl, rfl⟩
  | x :: y :: rest, h =>
    have ha : InBox c D (minPointI x (y :: rest)) := h _ (minPointI_mem _ _)
    have hb : InBox c D (maxPointI x (y :: rest)) := h _ (maxPointI_mem _ _)
    have hp2 := convexHull_pivot (exact x : Vec F 2) (exact y) (rest.map exact)
    rw [convexHullI, convexHull.eq_def]
    simp only [List.map_cons]
    have emin : minPoint (exact x : Vec F 2) (exact y :: rest.map exact) =
      exact (minPointI x (y :: rest)) := (minPointI_exact (y :: rest) x).symm
    have emax : maxPoint (exact x : Vec F 2) (exact y :: rest.map exact) =
      exact (maxPointI x (y :: rest)) := (maxPointI_exact (y :: rest) x).symm
    have epts : (exact x : Vec F 2) :: exact y :: rest.map exact = (x :: y :: rest).map exact := rfl
    rw [emin, emax, epts] at hp2 ⊢
    rw [sub_box hb ha hw, Option.bind_some, splitI_exact (F := F) hw hW ha hb _ h, Option.bind_some]
    generalize minPointI x (y :: rest) = a at *
    generalize maxPointI x (y :: rest) = b at *
    generalize hP : x :: y :: rest = points at *
    rw [List.filter_map, List.filter_map, List.length_map] at *
    simp only [Function.comp_def, Bool.not_not] at hp2 ⊢
    generalize hl : (points.filter fun p => !decide (orientationLine (exact p : Vec F 2)
      (Line.through (exact a) (exact b) .free) = .right)) = low at *
    generalize hu : (points.filter fun p => decide (orientationLine (exact p : Vec F 2)
      (Line.through (exact a) (exact b) .free) = .right)) = upp at *
    have hlen : low.length + upp.length = points.length := by
      rw [← hl, ← hu, add_comm]
      exact (List.length_eq_length_filter_add _).symm
    have hbox : ∀ p ∈ sortI low ++ upp, InBox c D p := by
      intro p hp
      rcases List.mem_append.1 hp with hp | hp
      · have := List.mem_mergeSort.1 hp
        rw [← hl] at this
        exact h p (List.mem_of_mem_filter this)
      · rw [← hu] at hp
        exact h p (List.mem_of_mem_filter hp)
    have hlen' : (sortI low ++ upp).length = points.length := by
      rw [List.length_append, sortI, List.length_mergeSort, hlen]
    obtain ⟨points', last', h1, h2, h3, h4, h5⟩ := hullLoopI_exact (F := F) hw hW low.length
      (points.length - 2) 2 (sortI low ++ upp) 1 hbox (by omega) (by omega)
    rw [h1, Option.bind_some]
    rw [List.map_append, sortI_exact] at h2
    have elen : (sortPoints (low.map (exact : Vec Int 2 → Vec F 2)) ++ upp.map exact).length - 2 =
        points.length - 2 := by
      rw [← sortI_exact, ← List.map_append, List.length_map, hlen']
    rw [elen, h2]
    have e0 : points'[0]? = some (points'[0]'(by omega)) := List.getElem?_eq_getElem _
    have e1 : points'[1]? = some (points'[1]'(by omega)) := List.getElem?_eq_getElem _
    have hb0 : InBox c D (points'[0]'(by omega)) := h3 _ (List.getElem_mem _)
    rw [closeI, e0, e1, Option.bind_some,
      popLastI_exact (F := F) hw hW h3 hb0 last' (by omega), Option.bind_some, Option.map_some]
    refine ⟨_, rfl, ?_⟩
    simp only [pointAt_exact e0, pointAt_exact e1, isEqual_exact]
    rw [List.map_take]

/-- The hull of integer points that do not lie on one line: its vertices are points of the input, it
turns left at every vertex, and every point of the input is in it. -/
theorem convexHull_int (hw : D < 2 ^ (w - 1)) (hW : D * D < 2 ^ (W - 1))
    {points : List (Vec Int 2)} (h : ∀ p ∈ points, InBox c D p)
    (hnc : ¬ AllCollinear (points.map (exact : Vec Int 2 → Vec F 2))) :
    ∃ hull, convexHullI w W points = some hull ∧ (∀ p ∈ hull, p ∈ points) ∧
      TurnsLeft (hull.map (exact : Vec Int 2 → Vec F 2)) ∧
      ∀ p ∈ points, InPolygon (exact p : Vec F 2) (hull.map exact) := by
  obtain ⟨hull, h1, h2⟩ := convexHull_box (F := F) hw hW h
  obtain ⟨g1, g2, g3, g4⟩ := convexHull_convex hnc
  rw [← h2] at g1 g2 g3 g4
  refine ⟨hull, h1, fun p hp => ?_, g3, fun p hp => g4 _ (List.mem_map_of_mem hp)⟩
  obtain ⟨q, hq, e⟩ := List.mem_map.1 (g1 _ (List.mem_map_of_mem hp))
  rwa [← exact_injective e]

/-- The bound is exact for the hull too: in every box whose side does not meet it, the hull of three
corners is undefined. -/
theorem convexHull_overflow (c : Vec Int 2) {D : Int} (h0 : 0 < D)
    (h : 2 ^ (w - 1) ≤ D ∨ 2 ^ (W - 1) ≤ D * D) :
    convexHullI w W [c, ![c 0 + D, c 1], ![c 0, c 1 + D]] = none := by
  have hz : (0 : Int) < 2 ^ (w - 1) := by positivity
  have hZ : (0 : Int) < 2 ^ (W - 1) := by positivity
  have l1 : less (![c 0 + D, c 1] : Vec Int 2) c = false := by
    simp only [less, List.ofFn_succ, lexLess]
    rw [if_neg (by simp; omega), if_pos (by simp; omega)]
  have l2 : less (![c 0, c 1 + D] : Vec Int 2) c = false := by
    simp only [less, List.ofFn_succ, lexLess]
    rw [if_neg (by simp), if_neg (by simp), if_neg (by simp; omega), if_pos (by simp; omega)]
  have l3 : less (![c 0, c 1 + D] : Vec Int 2) ![c 0 + D, c 1] = true := by
    simp only [less, List.ofFn_succ, lexLess]
    rw [if_pos (by simp; omega)]
  simp only [convexHullI, minPointI, maxPointI, l1, l2, l3, Bool.false_eq_true, if_false, if_true]
  by_cases hw : 2 ^ (w - 1) ≤ D
  · rw [subI, show (![c 0 + D, c 1] : Vec Int 2) 0 - c 0 = D by simp, fitInt_none (.inr hw)]
    rfl
  · have hW := h.resolve_left hw
    have fD : fitInt w D = some D := fitInt_some (by omega) (by omega)
    have f0 : fitInt w 0 = some 0 := fitInt_some (by omega) (by omega)
    have g0 : fitInt W 0 = some 0 := fitInt_some (by omega) (by omega)
    have gD : fitInt W (D * D) = none := fitInt_none (.inr hW)
    have s1 : subI w ![c 0 + D, c 1] c = some ![D, 0] := by simp [subI, fD, f0]
    have s2 : subI w c c = some ![0, 0] := by simp [subI, f0]
    have s3 : subI w ![c 0, c 1 + D] c = some ![0, D] := by simp [subI, fD, f0]
    rw [s1]
    simp only [Option.bind_some, splitI, s1, s2, s3]
    have a1 : orientationI W ![0, 0] ![D, 0] = some .collinear := by
      simp [orientationI, areaI, g0, Turn.ofSign]
    have a2 : orientationI W ![D, 0] ![D, 0] = some .collinear := by
      simp [orientationI, areaI, g0, Turn.ofSign]
    have a3 : orientationI W ![0, D] ![D, 0] = none := by
      simp [orientationI, areaI, gD]
    rw [a1, a2, a3]
    rfl

/-! ## Point in a triangle, point in a polygon -/

/-- The point and the triangle in a box of side `D`: the test is defined and the exact one. -/
theorem withinTriangle_box (hw : D < 2 ^ (w - 1)) (hW : D * D < 2 ^ (W - 1)) {p a b c' : Vec Int 2}
    (hp : InBox c D p) (ha : InBox c D a) (hb : InBox c D b) (hc : InBox c D c') :
    withinTriangleI w W p a b c' =
      some (withinTriangle (exact p : Vec F 2) (exact a) (exact b) (exact c')) := by
  rw [withinTriangleI, orientation_box (F := F) hp hb ha hw hW,
    orientation_box (F := F) hp hc hb hw hW, orientation_box (F := F) hp ha hc hw hW]
  rfl

theorem windStepI_exact (hw : D < 2 ^ (w - 1)) (hW : D * D < 2 ^ (W - 1)) {p a b : Vec Int 2}
    (hp : InBox c D p) (ha : InBox c D a) (hb : InBox c D b) :
    windStepI w W p a b = some (windStep (exact p : Vec F 2) (exact a) (exact b)) := by
  unfold windStepI windStep
  rw [isEqual_exact, orientation_box (F := F) hp hb ha hw hW, Option.map_some]
  simp only [exact, Int.cast_inj, Int.cast_lt]
  repeat' split
  all_goals first | rfl | simp_all

theorem windStep_bound (p a b : Vec F 2) {d : Int} (h : windStep p a b = some d) :
    -1 ≤ d ∧ d ≤ 1 := by
  unfold windStep at h
  dsimp only at h
  repeat' split at h
  all_goals first | (cases h; done) | (cases h; constructor <;> decide)

theorem cyclicAtI_exact {poly : List (Vec Int 2)} {i k : Int} (hi : 0 ≤ i)
    (hl : i < poly.length) (hk : -1 ≤ k ∧ k ≤ 1) :
    ∃ p ∈ poly, cyclicAtI poly i k = some p ∧
      cyclicAt (poly.map (exact : Vec Int 2 → Vec F 2)) i k = exact p := by
  have hr : 0 ≤ cyclicAdd poly.length i k ∧ cyclicAdd poly.length i k < poly.length := by
    unfold cyclicAdd
    repeat' split
    all_goals omega
  have e : poly[(cyclicAdd poly.length i k).toNat]? =
      some (poly[(cyclicAdd poly.length i k).toNat]'(by omega)) := List.getElem?_eq_getElem _
  refine ⟨_, List.getElem_mem _, e, ?_⟩
  rw [cyclicAt, List.length_map, List.getElem?_map, e]
  rfl

theorem cyclicNext_range {n i : Int} (hi : 0 ≤ i) (hl : i < n) :
    0 ≤ cyclicNext n i ∧ cyclicNext n i < n := by
  unfold cyclicNext
  split <;> omega

theorem windLoopI_exact (hw : D < 2 ^ (w - 1)) (hW : D * D < 2 ^ (W - 1)) {p : Vec Int 2}
    {poly : List (Vec Int 2)} (hp : InBox c D p) (h : ∀ v ∈ poly, InBox c D v) :
    ∀ (n : Nat) (i res : Int), 0 ≤ i → i < poly.length → -2 ^ 31 ≤ res - n → res + n < 2 ^ 31 →
    windLoopI w W p poly n i res =
      some (windLoop (exact p : Vec F 2) (poly.map exact) n i res)
  | 0, _, _, _, _, _, _ => rfl
  | n + 1, i, res, hi, hl, h0, h1 => by
    obtain ⟨a, ma, ea, fa⟩ := cyclicAtI_exact (F := F) hi hl (k := 0) (by omega)
    obtain ⟨b, mb, eb, fb⟩ := cyclicAtI_exact (F := F) hi hl (k := 1) (by omega)
    rw [windLoopI, ea, eb, Option.bind_some, Option.bind_some,
      windStepI_exact (F := F) hw hW hp (h a ma) (h b mb), Option.bind_some, windLoop, fa, fb]
    cases hs : windStep (exact p : Vec F 2) (exact a) (exact b) with
    | none => rfl
    | some d =>
      have hd := windStep_bound _ _ _ hs
      obtain ⟨n0, n1⟩ := cyclicNext_range hi hl
      push_cast at h0 h1
      simp only
      rw [fitInt_some (by norm_num; omega) (by norm_num; omega), Option.bind_some,
        windLoopI_exact hw hW hp h n _ _ n0 n1 (by omega) (by omega), List.length_map]

/-- The point and the polygon in a box of side `D`: the winding number is defined and the exact
one. -/
theorem windingNumber_box (hw : D < 2 ^ (w - 1)) (hW : D * D < 2 ^ (W - 1)) {p : Vec Int 2}
    {poly : List (Vec Int 2)} (hp : InBox c D p) (h : ∀ v ∈ poly, InBox c D v)
    (hn : poly.length < 2 ^ 31) :
    windingNumberI w W p poly = some (windingNumber (exact p : Vec F 2) (poly.map exact)) := by
  match poly, h, hn with
  | [], _, _ => rfl
  | [v], _, _ => simp only [windingNumberI, List.map_cons, List.map_nil, windingNumber,
      isEqual_exact]
  | v :: v' :: vs, h, hn =>
    simp only [windingNumberI, List.map_cons, windingNumber]
    rw [windLoopI_exact (F := F) hw hW hp h _ 0 0 (by omega) (by simp; omega) (by omega)
      (by omega)]
    simp

/-- The point and the polygon in a box of side `D`: the test is defined and the exact one. -/
theorem withinSimple_box (hw : D < 2 ^ (w - 1)) (hW : D * D < 2 ^ (W - 1)) {p : Vec Int 2}
    {poly : List (Vec Int 2)} (hp : InBox c D p) (h : ∀ v ∈ poly, InBox c D v)
    (hn : poly.length < 2 ^ 31) :
    withinSimpleI w W p poly = some (withinSimple (exact p : Vec F 2) (poly.map exact)) := by
  rw [withinSimpleI, windingNumber_box (F := F) hw hW hp h hn]
  rfl

/-! ## The area of a polygon -/

theorem polyAreaLoopI_exact {X : Int} (hX0 : 0 ≤ X) (hw : D < 2 ^ (w - 1)) (hD : 0 ≤ D)
    {poly : List (Vec Int 2)} (h : ∀ v ∈ poly, -X ≤ v 0 ∧ v 0 ≤ X ∧ c 1 ≤ v 1 ∧ v 1 ≤ c 1 + D) :
    ∀ (n : Nat) (i res : Int), 0 ≤ i → i < poly.length → -2 ^ (W - 1) < res - n * (X * D) →
    res + n * (X * D) < 2 ^ (W - 1) →
    polyAreaLoopI w W poly n i res = some (polyAreaLoop poly n i res)
  | 0, _, _, _, _, _, _ => rfl
  | n + 1, i, res, hi, hl, h0, h1 => by
    have ex : ∀ k, -1 ≤ k ∧ k ≤ 1 → ∃ p ∈ poly, cyclicAtI poly i k = some p ∧
        cyclicAt poly i k = p := by
      intro k hk
      obtain ⟨p, mp, ep, -⟩ := cyclicAtI_exact (F := ℚ) hi hl hk
      refine ⟨p, mp, ep, ?_⟩
      rw [cyclicAt]
      rw [cyclicAtI] at ep
      rw [ep]; rfl
    obtain ⟨a, ma, ea, fa⟩ := ex 0 (by omega)
    obtain ⟨b, mb, eb, fb⟩ := ex 1 (by omega)
    obtain ⟨e, me, ee, fe⟩ := ex (-1) (by omega)
    obtain ⟨a1, a2, a3, a4⟩ := h a ma
    obtain ⟨b1, b2, b3, b4⟩ := h b mb
    obtain ⟨e1, e2, e3, e4⟩ := h e me
    obtain ⟨n0, n1⟩ := cyclicNext_range hi hl
    have hXD : 0 ≤ X * D := mul_nonneg hX0 hD
    have hnXD : 0 ≤ (n : Int) * (X * D) := mul_nonneg (by positivity) hXD
    have t1 : a 0 * (b 1 - e 1) ≤ X * D := by nlinarith
    have t2 : -(X * D) ≤ a 0 * (b 1 - e 1) := by nlinarith
    push_cast at h0 h1
    rw [add_mul, one_mul] at h0 h1
    have hd1 : b 1 - e 1 ≤ D := by linarith
    have hd2 : -D ≤ b 1 - e 1 := by linarith
    have r1 : res ≤ 2 ^ (W - 1) ∨ True := .inr trivial
    rw [polyAreaLoopI, ea, eb, ee, Option.bind_some, Option.bind_some, Option.bind_some,
      fitInt_some (by linarith) (by linarith), Option.bind_some]
    have hsum : X * D < 2 ^ (W - 1) := by linarith
    rw [fitInt_some (by linarith) (by linarith), Option.bind_some,
      fitInt_some (by linarith) (by linarith), Option.bind_some,
      polyAreaLoopI_exact hX0 hw hD h n _ _ n0 n1 (by linarith) (by linarith), polyAreaLoop, fa, fb,
      fe]

/-- A polygon of `n` vertices between `x = -X` and `x = X` and in a strip of height `D`: the area is
defined and the exact one when `n * X * D` fits. -/
theorem polyArea_box {X : Int} (hX0 : 0 ≤ X) (hD : 0 ≤ D) (hw : D < 2 ^ (w - 1))
    {poly : List (Vec Int 2)} (h : ∀ v ∈ poly, -X ≤ v 0 ∧ v 0 ≤ X ∧ c 1 ≤ v 1 ∧ v 1 ≤ c 1 + D)
    (hW : poly.length * (X * D) < 2 ^ (W - 1)) :
    polyAreaI w W poly = some (shoelace poly) := by
  rw [polyAreaI, ← polyArea_shoelace, polyArea]
  match poly, h, hW with
  | [], _, _ => rfl
  | v :: vs, h, hW =>
    exact polyAreaLoopI_exact hX0 hw hD h _ 0 0 (by omega) (by simp) (by linarith)
      (by linarith)

end box

/-- The area is not safe for small polygons far from the origin: a triangle of height `h` and doubled
area `h` next to the line `x`, as soon as `x * h` does not fit the products.  For 32 bits this is
height 2 at `x = 2 ^ 30`; the exact area is 2. -/
theorem polyArea_overflow {w W : Nat} (hw : 2 ≤ w) (x h : Int) (h0 : 0 < h) (hh : h < 2 ^ (w - 1))
    (hx : 2 ^ (W - 1) ≤ x * h) :
    polyAreaI w W [![x, 0], ![x, h], ![x - 1, 0]] = none ∧
      shoelace [![x, 0], ![x, h], ![x - 1, 0]] = h := by
  have hz : (2 : Int) ≤ 2 ^ (w - 1) := by
    calc (2 : Int) = 2 ^ 1 := by norm_num
      _ ≤ 2 ^ (w - 1) := pow_le_pow_right₀ (by norm_num) (by omega)
  constructor
  · have a0 : cyclicAtI [![x, 0], ![x, h], ![x - 1, 0]] 0 0 = some ![x, 0] := rfl
    have a1 : cyclicAtI [![x, 0], ![x, h], ![x - 1, 0]] 0 1 = some ![x, h] := rfl
    have a2 : cyclicAtI [![x, 0], ![x, h], ![x - 1, 0]] 0 (-1) = some ![x - 1, 0] := rfl
    rw [polyAreaI]
    simp only [List.length_cons, List.length_nil]
    rw [polyAreaLoopI, a0, a1, a2]
    simp only [Option.bind_some]
    rw [show (![x, h] : Vec Int 2) 1 - (![x - 1, 0] : Vec Int 2) 1 = h by simp,
      fitInt_some (by omega) hh, Option.bind_some,
      show (![x, 0] : Vec Int 2) 0 * h = x * h by simp, fitInt_none (.inr hx)]
    rfl
  · simp [shoelace, chainSum]
    ring

/-! ## Concrete cases -/

/-- The bounds for `int`: a box of side 46340 with products in `int`, any two coordinates that can be
subtracted with products in `long long`. -/
example : (46340 : Int) * 46340 < 2 ^ (32 - 1) ∧ 2 ^ (32 - 1) ≤ (46341 : Int) * 46341 ∧
    (2 ^ 31 - 1 : Int) < 2 ^ (32 - 1) ∧ (2 ^ 31 - 1 : Int) * (2 ^ 31 - 1) < 2 ^ (64 - 1) := by
  decide +kernel

example : orientation3I 32 32 ![46340, 0] ![0, 46340] ![0, 0] = some .left := by decide +kernel

example : orientation3I 32 32 ![46341, 0] ![0, 46341] ![0, 0] = none := by decide +kernel

/-- Far from the origin: the box need not contain it. -/
example : InBox ![2000000000, -2000000000] 46340 ![2000046340, -1999953660] := by
  unfold InBox; decide +kernel

example : withinTriangleI 32 32 ![1, 1] ![0, 0] ![5, 0] ![0, 5] = some .inside := by decide +kernel

example : withinTriangleI 32 32 ![1, 1] ![0, 0] ![60000, 0] ![0, 60000] = none := by
  decide +kernel

example : withinSimpleI 32 32 ![2, 1] [![0, 0], ![4, 0], ![4, 4], ![2, 2], ![0, 4]] =
    some .inside := by decide +kernel

example : polyAreaI 32 32 [![0, 0], ![4, 0], ![4, 3], ![1, 5]] = some 29 := by decide +kernel

example : polyAreaI 32 32 [![1073741824, 0], ![1073741824, 2], ![1073741823, 0]] = none := by
  decide +kernel

/-- A set of points that meets the hypotheses of `convexHull_int` far from the origin. -/
def intHullExample : List (Vec Int 2) :=
  [![2000000000, 5], ![2000000002, 5], ![2000000001, 6], ![2000000000, 46340], ![2000000000, 5]]

example : (∀ p ∈ intHullExample, InBox ![2000000000, 0] 46340 p) ∧
    ¬ AllCollinear (intHullExample.map (exact : Vec Int 2 → Vec ℚ 2)) := by
  constructor
  · unfold InBox; decide +kernel
  · intro h
    have := h (exact ![2000000000, 5]) (by simp [intHullExample]) (exact ![2000000002, 5])
      (by simp [intHullExample]) (exact ![2000000001, 6]) (by simp [intHullExample])
    norm_num [exact] at this

end Actl.Geo
