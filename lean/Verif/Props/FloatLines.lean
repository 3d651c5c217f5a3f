import Verif.Lemmas.FloatLines
import Verif.Props.FloatGeometry
import Verif.Props.WithinLine
import Mathlib.Analysis.Real.Sqrt

/-!
# C128: lines with floating point coordinates
-/

namespace Actl.Geo

variable {F : Type*} [Field F] [LinearOrder F] [IsStrictOrderedRing F]
variable {fl : F → F} {u : F}

/-! ### Any lines -/

/-- C128. Two lines whose common point is clear of the error of the arithmetic: the computed answer is a point exactly when the lines
have a common point, and then every coordinate of it is as near as the bound says. -/
theorem intersect_rounded (h : SignedRounding fl u) (l r : Line F 2) (hc : ClearlyMeet u l r) :
    (intersectR fl l r = [] ∧ intersectGeneralR fl l r = [] ∧ ∀ p, ¬ (On p l ∧ On p r)) ∨
      ∃ t q p, intersectR fl l r = [{ start := p, vector := 0, kind := .closedSegment }] ∧ intersectGeneralR fl l r = [p] ∧
        q = l.start + t • l.vector ∧ (∀ x, On x l ∧ On x r ↔ x = q) ∧
        (∀ s ∈ intersectScalarR fl l r, |s - t| ≤ paramError u l r t) ∧
        ∀ i, |p i - q i| ≤ pointError u (l.start i) (l.vector i) t (paramError u l r t) := by
  have eT := areaR_error h r.vector l.vector
  have eL := areaR_sub_error h l.start r.start r.vector
  have eR := areaR_sub_error h l.start r.start l.vector
  obtain ⟨-, -, n1, n2⟩ := clear_sign eT hc.parallel
  have hcross := crossTest_clear (l := l) (r := r) eT eL eR hc.parallel hc.left hc.right hc.leftEnd hc.rightEnd
  have n2' : area r.vector l.vector ≠ 0 := n2
  have eS : intersectScalarR fl l r = if crossTest l r (area r.vector l.vector) (area (l.start - r.start) r.vector)
      (area (l.start - r.start) l.vector) then
        [fl (areaR fl (subR fl l.start r.start) r.vector / areaR fl r.vector l.vector)] else [] := by
    simp only [intersectScalarR, if_neg n1, hcross]
    change (if (!crossTest l r (area r.vector l.vector) (area (l.start - r.start) r.vector)
      (area (l.start - r.start) l.vector)) = true then _ else _) = _
    cases crossTest l r (area r.vector l.vector) (area (l.start - r.start) r.vector) (area (l.start - r.start) l.vector) <;> rfl
  have eI : intersectR fl l r = (intersectScalarR fl l r).map
      fun t => { start := atR fl l t, vector := 0, kind := .closedSegment } := by
    simp only [intersectR, intersectScalarR, if_neg n1]
    split <;> rfl
  have eX : intersectScalar l r = if crossTest l r (area r.vector l.vector) (area (l.start - r.start) r.vector)
      (area (l.start - r.start) l.vector) then [area (l.start - r.start) r.vector / area r.vector l.vector] else [] := by
    simp only [intersectScalar, if_neg n2']
    cases crossTest l r (area r.vector l.vector) (area (l.start - r.start) r.vector) (area (l.start - r.start) l.vector) <;> rfl
  rcases intersectScalar_correct l r n2' with ⟨h1, h2⟩ | ⟨t, h1, h2⟩
  · left
    rw [eX] at h1
    split at h1
    · simp at h1
    · next hn =>
      rw [if_neg hn] at eS
      rw [eI, intersectGeneralR, eS]
      exact ⟨rfl, rfl, h2⟩
  · right
    rw [eX] at h1
    split at h1
    · next hn =>
      rw [if_pos hn] at eS
      have ht : t = wedge (l.start - r.start) r.vector / wedge r.vector l.vector := (List.cons.inj h1).1.symm
      have e1 := quotient_error h eL eT hc.parallel
      rw [← ht] at e1
      refine ⟨t, l.at t, atR fl l (fl (areaR fl (subR fl l.start r.start) r.vector / areaR fl r.vector l.vector)), ?_, ?_, rfl, h2, ?_, ?_⟩
      · rw [eI, eS]; rfl
      · rw [intersectGeneralR, eS]; rfl
      · intro s hs
        rw [eS, List.mem_singleton] at hs
        rw [hs]
        exact e1
      · intro i
        exact at_error h e1
    · simp at h1

/-! ### Lines through points of a grid -/

/-- C128. Lines through points of a grid on which areas are exact: parallel lines give exactly the common part, and other lines a point
exactly when they have a common point; every coordinate of it has a relative error of three roundings of its distance from the
starting point, and one of its own. -/
theorem intersect_grid (h : SignedRounding fl u) {g : F} {M : Int} (he : Exact fl g M) {a b c d : Vec F 2} (ha : OnGrid g M a)
    (hb : OnGrid g M b) (hc : OnGrid g M c) (hd : OnGrid g M d) (k m : LineKind) :
    throughR fl a b k = Line.through a b k ∧ throughR fl c d m = Line.through c d m ∧
    (wedge (d - c) (b - a) = 0 → intersectR fl (Line.through a b k) (Line.through c d m) =
      intersect (Line.through a b k) (Line.through c d m)) ∧
    (wedge (d - c) (b - a) ≠ 0 →
      (intersectR fl (Line.through a b k) (Line.through c d m) = [] ∧
        intersectGeneralR fl (Line.through a b k) (Line.through c d m) = [] ∧
        ∀ x, ¬ (On x (Line.through a b k) ∧ On x (Line.through c d m))) ∨
      ∃ q p, intersectR fl (Line.through a b k) (Line.through c d m) = [{ start := p, vector := 0, kind := .closedSegment }] ∧
        intersectGeneralR fl (Line.through a b k) (Line.through c d m) = [p] ∧
        (∀ x, On x (Line.through a b k) ∧ On x (Line.through c d m) ↔ x = q) ∧
        ∀ i, |p i - q i| ≤ u * |q i| + ((1 + u) ^ 3 - (1 + u)) * |q i - a i|) := by
  have gT : areaR fl (d - c) (b - a) = area (d - c) (b - a) := areaR_grid he (grid_diff hd hc) (grid_diff hb ha)
  have gL : areaR fl (subR fl a c) (d - c) = area (a - c) (d - c) := by
    rw [subR_grid he ha hc, areaR_grid he (grid_diff ha hc) (grid_diff hd hc)]
  have gR : areaR fl (subR fl a c) (b - a) = area (a - c) (b - a) := by
    rw [subR_grid he ha hc, areaR_grid he (grid_diff ha hc) (grid_diff hb ha)]
  have gC := commonLineR_grid he ha hb hc hd k m
  refine ⟨throughR_grid he ha hb k, throughR_grid he hc hd m, ?_, ?_⟩
  · intro hp
    exact (intersectR_exact gT gL gR gC).1 hp
  · intro hp
    have hp' : area (d - c) (b - a) ≠ 0 := hp
    set l := Line.through a b k with hl
    set r := Line.through c d m with hr
    have eS : intersectScalarR fl l r = (intersectScalar l r).map fl := by
      simp only [hl, hr, intersectScalarR, intersectScalar, Line.through, gT, gL, gR, if_neg hp']
      split <;> rfl
    have eI : intersectR fl l r = (intersectScalarR fl l r).map
        fun t => { start := atR fl l t, vector := 0, kind := .closedSegment } := by
      have n1 : areaR fl r.vector l.vector ≠ 0 := by
        rw [hl, hr]
        simp only [Line.through, gT]
        exact hp'
      simp only [intersectR, intersectScalarR, if_neg n1]
      split <;> rfl
    rcases intersectScalar_correct l r hp' with ⟨h1, h2⟩ | ⟨t, h1, h2⟩
    · left
      rw [eI, intersectGeneralR, eS, h1]
      exact ⟨rfl, rfl, h2⟩
    · right
      refine ⟨l.at t, atR fl l (fl t), ?_, ?_, h2, ?_⟩
      · rw [eI, eS, h1]; rfl
      · rw [intersectGeneralR, eS, h1]; rfl
      · intro i
        have e1 := at_error h (s := l.start i) (v := l.vector i) (h.near t)
        refine e1.trans (le_of_eq ?_)
        have e2 : l.at t i = l.start i + t * l.vector i := rfl
        have e3 : l.at t i - a i = t * l.vector i := by
          rw [e2]
          exact add_sub_cancel_left _ _
        rw [pointError, e3, e2, abs_mul t]
        ring

/-- C128. And whether they cross is decided exactly. -/
theorem crosses_grid {g : F} {M : Int} (he : Exact fl g M) {a b c d : Vec F 2} (ha : OnGrid g M a)
    (hb : OnGrid g M b) (hc : OnGrid g M c) (hd : OnGrid g M d) (k m : LineKind) :
    crossesLinesR fl (throughR fl a b k) (throughR fl c d m) = crossesLines (Line.through a b k) (Line.through c d m) ∧
      (wedge (d - c) (b - a) ≠ 0 → (crossesLinesR fl (throughR fl a b k) (throughR fl c d m) = true ↔
        ∃ x, On x (Line.through a b k) ∧ On x (Line.through c d m))) := by
  suffices hx : crossesLinesR fl (throughR fl a b k) (throughR fl c d m) =
      crossesLines (Line.through a b k) (Line.through c d m) by
    refine ⟨hx, fun hp => ?_⟩
    rw [hx]
    exact crossesLines_correct _ _ hp
  have gT : areaR fl (d - c) (b - a) = area (d - c) (b - a) := areaR_grid he (grid_diff hd hc) (grid_diff hb ha)
  have gL : areaR fl (subR fl a c) (d - c) = area (a - c) (d - c) := by
    rw [subR_grid he ha hc, areaR_grid he (grid_diff ha hc) (grid_diff hd hc)]
  have gR : areaR fl (subR fl a c) (b - a) = area (a - c) (b - a) := by
    rw [subR_grid he ha hc, areaR_grid he (grid_diff ha hc) (grid_diff hb ha)]
  have gC := commonLineR_grid he ha hb hc hd k m
  rw [throughR_grid he ha hb, throughR_grid he hc hd]
  exact (intersectR_exact gT gL gR gC).2

/-- C128. Whether a point is on a line is decided exactly as well. -/
theorem withinLine_grid {g : F} {M : Int} (he : Exact fl g M) {a b p : Vec F 2} (ha : OnGrid g M a)
    (hb : OnGrid g M b) (hp : OnGrid g M p) (k : LineKind) :
    (withinLineR fl p (throughR fl a b k) = .border ↔ On p (Line.through a b k)) ∧
      (withinLineR fl p (throughR fl a b k) = .outside ↔ ¬ On p (Line.through a b k)) := by
  suffices hx : withinLineR fl p (throughR fl a b k) = withinLine p (Line.through a b k) by
    rw [hx]
    exact withinLine_plane p _
  rw [throughR_grid he ha hb]
  have e0 : areaR fl (b - a) (subR fl p a) = area (b - a) (p - a) := by
    rw [subR_grid he hp ha, areaR_grid he (grid_diff hb ha) (grid_diff hp ha)]
  have e1 : dotR fl (subR fl p a) (b - a) = dot (p - a) (b - a) := by
    rw [subR_grid he hp ha, dotR_grid he (grid_diff hp ha) (grid_diff hb ha)]
  have e2 : dotR fl (subR fl a p) (subR fl p b) = dot (a - p) (p - b) := by
    rw [subR_grid he ha hp, subR_grid he hp hb, dotR_grid he (grid_diff ha hp) (grid_diff hp hb)]
  have e3 : betweenEndpointsR fl p (Line.through a b k) = betweenEndpoints p (Line.through a b k) := by
    simp only [betweenEndpointsR, betweenEndpoints, stopR_grid he hb, stop_through]
    simp only [Line.through, e1, e2]
    rfl
  simp only [withinLineR, withinLine, e3]
  simp only [Line.through, e0]
  rfl

/-! ### Distances -/

/-- C128. The distance of two points in any dimension: its square is the square of the distance up to `n + 5` roundings, and it is zero
exactly for equal points. -/
theorem distance_rounded (h : SignedRounding fl u) {sqrt : F → F} (hs : IsSqrt sqrt) {n : Nat} (p q : Vec F n) :
    0 ≤ distancePointR fl sqrt p q ∧
    (1 - u) ^ (n + 5) * dist2 p q ≤ distancePointR fl sqrt p q ^ 2 ∧
    distancePointR fl sqrt p q ^ 2 ≤ (1 + u) ^ (n + 5) * dist2 p q ∧ (distancePointR fl sqrt p q = 0 ↔ p = q) := by
  have hu := h.nonneg
  have hu1 : 0 < 1 - u := sub_pos.2 h.small
  set v : Vec F n := fun i => fl (p i - q i) with hv
  have fe := fold_error h (fun i => v i * v i) (fun i => mul_self_nonneg _) (List.finRange n) 0 le_rfl
  have hsum : ((List.finRange n).map fun i => v i * v i).sum = ∑ i, v i * v i := by
    rw [Fin.sum_univ_def]
  rw [hsum, zero_add, zero_add, List.length_finRange] at fe
  change _ ≤ dotR fl v v ∧ dotR fl v v ≤ _ at fe
  have term : ∀ i, (1 - u) ^ 2 * (p i - q i) ^ 2 ≤ v i * v i ∧ v i * v i ≤ (1 + u) ^ 2 * (p i - q i) ^ 2 := by
    intro i
    have := h.near (p i - q i)
    have a1 : |v i| ≤ (1 + u) * |p i - q i| := by
      have := abs_sub_abs_le_abs_sub (v i) (p i - q i)
      simp only [hv] at this ⊢
      linarith
    have a2 : (1 - u) * |p i - q i| ≤ |v i| := by
      have := abs_sub_abs_le_abs_sub (p i - q i) (v i)
      rw [abs_sub_comm (p i - q i) (v i)] at this
      simp only [hv] at this ⊢
      linarith
    rw [← sq_abs (p i - q i), ← mul_pow, ← mul_pow, ← sq, ← sq_abs (v i)]
    exact ⟨pow_le_pow_left₀ (mul_nonneg hu1.le (abs_nonneg _)) a2 2, pow_le_pow_left₀ (abs_nonneg _) a1 2⟩
  have s1 : (1 - u) ^ 2 * dist2 p q ≤ ∑ i, v i * v i := by
    rw [dist2, Finset.mul_sum]
    exact Finset.sum_le_sum fun i _ => (term i).1
  have s2 : ∑ i, v i * v i ≤ (1 + u) ^ 2 * dist2 p q := by
    rw [dist2, Finset.mul_sum]
    exact Finset.sum_le_sum fun i _ => (term i).2
  have hd : 0 ≤ dist2 p q := Finset.sum_nonneg fun i _ => sq_nonneg _
  set D := dotR fl v v with hD
  have l1 : (1 - u) ^ (n + 3) * dist2 p q ≤ D := by
    refine le_trans ?_ fe.1
    rw [show (1 - u) ^ (n + 3) * dist2 p q = (1 - u) ^ n * ((1 - u) * ((1 - u) ^ 2 * dist2 p q)) by ring]
    exact mul_le_mul_of_nonneg_left (mul_le_mul_of_nonneg_left s1 hu1.le) (pow_nonneg hu1.le _)
  have l2 : D ≤ (1 + u) ^ (n + 3) * dist2 p q := by
    refine le_trans fe.2 ?_
    rw [show (1 + u) ^ (n + 3) * dist2 p q = (1 + u) ^ n * ((1 + u) * ((1 + u) ^ 2 * dist2 p q)) by ring]
    exact mul_le_mul_of_nonneg_left (mul_le_mul_of_nonneg_left s2 (by linarith)) (pow_nonneg (by linarith) _)
  have hD0 : 0 ≤ D := le_trans (mul_nonneg (pow_nonneg hu1.le _) hd) l1
  obtain ⟨q0, q1⟩ := hs D hD0
  have hr := abs_le.1 (h.near (sqrt D))
  rw [abs_of_nonneg q0] at hr
  have ed : distancePointR fl sqrt p q = fl (sqrt D) := rfl
  have r1 : (1 - u) * sqrt D ≤ fl (sqrt D) := by linarith [hr.1]
  have r2 : fl (sqrt D) ≤ (1 + u) * sqrt D := by linarith [hr.2]
  have r0 : 0 ≤ (1 - u) * sqrt D := mul_nonneg hu1.le q0
  rw [← sq] at q1
  have b1 : (1 - u) ^ (n + 5) * dist2 p q ≤ fl (sqrt D) ^ 2 := by
    refine le_trans ?_ (pow_le_pow_left₀ r0 r1 2)
    rw [mul_pow, q1, show (1 - u) ^ (n + 5) * dist2 p q = (1 - u) ^ 2 * ((1 - u) ^ (n + 3) * dist2 p q) by ring]
    exact mul_le_mul_of_nonneg_left l1 (sq_nonneg _)
  have b2 : fl (sqrt D) ^ 2 ≤ (1 + u) ^ (n + 5) * dist2 p q := by
    refine le_trans (pow_le_pow_left₀ (r0.trans r1) r2 2) ?_
    rw [mul_pow, q1, show (1 + u) ^ (n + 5) * dist2 p q = (1 + u) ^ 2 * ((1 + u) ^ (n + 3) * dist2 p q) by ring]
    exact mul_le_mul_of_nonneg_left l2 (sq_nonneg _)
  rw [ed]
  refine ⟨r0.trans r1, b1, b2, ?_⟩
  constructor
  · intro hz
    rw [hz] at b1
    have h0 : dist2 p q = 0 := by
      refine le_antisymm ?_ hd
      by_contra hc
      have := mul_pos (pow_pos hu1 (n + 5)) (not_le.1 hc)
      simp at b1
      linarith
    funext i
    have := (Finset.sum_eq_zero_iff_of_nonneg fun i _ => sq_nonneg (p i - q i)).1 h0 i (Finset.mem_univ i)
    exact sub_eq_zero.1 (pow_eq_zero_iff (two_ne_zero) |>.1 this)
  · rintro rfl
    have h0 : dist2 p p = 0 := by simp [dist2]
    rw [h0, mul_zero] at b2
    exact pow_eq_zero_iff (two_ne_zero) |>.1 (le_antisymm b2 (sq_nonneg _))

/-! ### Where the answer is wrong -/

/-- C128 does not hold without the conditions: the computed common point of the segment from the origin to `(5, 3)` and the line `x = 1`
is not on the segment for the code itself; and two lines through the origin in different directions are reported to coincide. -/
theorem intersect_rounded_fails :
    ((intersectGeneralR (roundSigned 53) (Line.through ![0, 0] ![(5 : ℚ), 3] .closedSegment)
      (Line.through ![1, 1] ![1, 0] .free)).map fun p =>
        withinLineR (roundSigned 53) p (Line.through ![0, 0] ![(5 : ℚ), 3] .closedSegment)) = [.outside] ∧
    ((intersectR (roundSigned 53) { start := 0, vector := ![(1 : ℚ) - 1 / 2 ^ 52, 1], kind := .free }
      { start := 0, vector := ![1, 1 + 1 / 2 ^ 52], kind := .free }).map fun m => (m.kind, m.vector 0 = 0)) =
        [(LineKind.free, False)] ∧
    ∀ x, On x { start := 0, vector := ![(1 : ℚ) - 1 / 2 ^ 52, 1], kind := .free } ∧
      On x { start := 0, vector := ![1, 1 + 1 / 2 ^ 52], kind := .free } ↔ x = 0 := by
  refine ⟨by decide +kernel, ?_, ?_⟩
  · have e : ((intersectR (roundSigned 53) { start := 0, vector := ![(1 : ℚ) - 1 / 2 ^ 52, 1], kind := .free }
      { start := 0, vector := ![1, 1 + 1 / 2 ^ 52], kind := .free }).map fun m => (m.kind, decide (m.vector 0 = 0))) =
        [(LineKind.free, false)] := by decide +kernel
    have := congrArg (List.map fun x : LineKind × Bool => (x.1, x.2 = true)) e
    simpa [List.map_map, Function.comp_def] using this
  · have e : intersectScalar { start := 0, vector := ![(1 : ℚ) - 1 / 2 ^ 52, 1], kind := .free }
      { start := 0, vector := ![1, 1 + 1 / 2 ^ 52], kind := .free } = [0] := by decide +kernel
    rcases intersectScalar_correct { start := 0, vector := ![(1 : ℚ) - 1 / 2 ^ 52, 1], kind := .free }
      { start := 0, vector := ![1, 1 + 1 / 2 ^ 52], kind := .free } (by decide +kernel) with ⟨h1, -⟩ | ⟨t, h1, h2⟩
    · rw [e] at h1
      simp at h1
    · rw [e] at h1
      rw [← (List.cons.inj h1).1] at h2
      simpa [Line.at] using h2

/-! ### Examples -/

/-- Two segments with coordinates in tenths, which `double` has not: the conditions hold, and the computed point is within `2 ^ -50`
of the common one. -/
example : ClearlyMeet ((2 : ℚ) ^ 53)⁻¹
      (throughR (roundSigned 53) ![roundSigned 53 (1 / 10), roundSigned 53 (2 / 10)] ![roundSigned 53 (9 / 10), 1] .closedSegment)
      (throughR (roundSigned 53) ![roundSigned 53 (3 / 10), 1] ![roundSigned 53 (7 / 10), 0] .openSegment) := by
  constructor
  · decide +kernel
  · exact fun _ => by decide +kernel
  · exact fun _ => by decide +kernel
  · exact fun _ => by decide +kernel
  · exact fun _ => by decide +kernel

example : paramError ((2 : ℚ) ^ 53)⁻¹
      (throughR (roundSigned 53) ![roundSigned 53 (1 / 10), roundSigned 53 (2 / 10)] ![roundSigned 53 (9 / 10), 1] .closedSegment)
      (throughR (roundSigned 53) ![roundSigned 53 (3 / 10), 1] ![roundSigned 53 (7 / 10), 0] .openSegment) (1 / 2) < 1 / 2 ^ 50 := by
  decide +kernel

/-- The point of the theorem above, with its error. -/
example : ∃ q p : Vec ℚ 2, intersectGeneralR (roundSigned 53) (Line.through ![0, 0] ![5, 3] .closedSegment)
      (Line.through ![1, 1] ![1, 0] .free) = [p] ∧
    (∀ x, On x (Line.through ![0, 0] ![(5 : ℚ), 3] .closedSegment) ∧ On x (Line.through ![1, 1] ![1, 0] .free) ↔ x = q) ∧
    ∀ i, |p i - q i| ≤ ((2 : ℚ) ^ 53)⁻¹ * |q i| + ((1 + ((2 : ℚ) ^ 53)⁻¹) ^ 3 - (1 + ((2 : ℚ) ^ 53)⁻¹)) * |q i - ![(0 : ℚ), 0] i| := by
  obtain ⟨-, -, -, h⟩ := intersect_grid (roundSigned_signed (prec := 53) (by norm_num)) grid_double
    (a := ![0, 0]) (b := ![5, 3]) (c := ![1, 1]) (d := ![1, 0])
    (onGrid_double (a := 0) (b := 0) (by norm_num) (by norm_num) (by norm_num) (by norm_num))
    (onGrid_double (a := 320) (b := 192) (by norm_num) (by norm_num) (by norm_num) (by norm_num))
    (onGrid_double (a := 64) (b := 64) (by norm_num) (by norm_num) (by norm_num) (by norm_num))
    (onGrid_double (a := 64) (b := 0) (by norm_num) (by norm_num) (by norm_num) (by norm_num)) .closedSegment .free
  rcases h (by decide +kernel) with ⟨-, h1, -⟩ | ⟨q, p, -, h1, h2, h3⟩
  · have e := congrArg List.length h1
    exact absurd e (by decide +kernel)
  · exact ⟨q, p, h1, h2, h3⟩

example : withinLineR (roundSigned 53) ![(3 / 2 : ℚ), 1] (throughR (roundSigned 53) ![0, 0] ![3, 2] .openSegment) = .border :=
  (withinLine_grid grid_double
    (onGrid_double (a := 0) (b := 0) (by norm_num) (by norm_num) (by norm_num) (by norm_num))
    (onGrid_double (a := 192) (b := 128) (by norm_num) (by norm_num) (by norm_num) (by norm_num))
    (onGrid_double (a := 96) (b := 64) (by norm_num) (by norm_num) (by norm_num) (by norm_num)) .openSegment).1.2
    ⟨1 / 2, ⟨by norm_num, by norm_num⟩, vec2_ext (by simp [Line.through]; norm_num) (by simp [Line.through])⟩

/-- A square root and a rounding as the theorem on distances needs them: of the real numbers. -/
example (p q : Vec ℝ 3) : distancePointR (fun x => x * (1 + 1 / 2 ^ 53)) Real.sqrt p q = 0 ↔ p = q := by
  refine (distance_rounded (u := 1 / 2 ^ 53) ⟨by positivity, by norm_num, fun y => ?_⟩
    (fun x hx => ⟨Real.sqrt_nonneg x, Real.mul_self_sqrt hx⟩) p q).2.2.2
  rw [show y * (1 + 1 / 2 ^ 53) - y = 1 / 2 ^ 53 * y by ring, abs_mul, abs_of_pos (by positivity : (0 : ℝ) < 1 / 2 ^ 53)]

end Actl.Geo
