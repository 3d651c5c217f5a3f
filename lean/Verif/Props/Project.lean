import Verif.Props.WithinLine

/-!
# C56: projection, reflection and rotation

Projection on a line or plane and reflection are right in every dimension.  `rotate` is not a
rotation: it multiplies by the matrix `(cos, sin; sin, cos)` instead of `(cos, -sin; sin, cos)`.
-/

namespace Actl.Geo

variable {F : Type*} [Field F] [LinearOrder F] [IsStrictOrderedRing F] {n : Nat}

theorem projectScalar_mul (p : Vec F n) (l : Line F n) (hv : l.vector ≠ 0) :
    projectScalar p l * inner l.vector l.vector = inner (p - l.start) l.vector := by
  rw [projectScalar, dotSelf, dot_eq, dot_eq, div_mul_cancel₀ _ (inner_self_pos hv).ne']

/-- C56. The projection on a (non-degenerate) line is a point of the line through `start` along
`vector`, the residue is orthogonal to the line, and no other point of the line has that property. -/
theorem projectLine_correct (p : Vec F n) (l : Line F n) (hv : l.vector ≠ 0) :
    (∃ t : F, projectLine p l = l.start + t • l.vector) ∧
      inner (p - projectLine p l) l.vector = 0 ∧
      ∀ t : F, inner (p - (l.start + t • l.vector)) l.vector = 0 →
        projectLine p l = l.start + t • l.vector := by
  have hD := (inner_self_pos hv).ne'
  have key : ∀ t : F, inner (p - (l.start + t • l.vector)) l.vector =
      (projectScalar p l - t) * inner l.vector l.vector := by
    intro t
    rw [sub_mul, projectScalar_mul p l hv, ← sub_sub, inner_sub_left, inner_smul_left]
  refine ⟨⟨_, rfl⟩, ?_, ?_⟩
  · rw [projectLine, Line.at, key, sub_self, zero_mul]
  · intro t ht
    rw [key] at ht
    rw [projectLine, Line.at, sub_eq_zero.1 ((mul_eq_zero.1 ht).resolve_right hD)]

/-- C56. Projecting on a line twice is projecting once; points of the line stay. -/
theorem projectLine_idempotent (p : Vec F n) (l : Line F n) (hv : l.vector ≠ 0) :
    projectLine (projectLine p l) l = projectLine p l ∧
      ∀ t : F, projectLine (l.start + t • l.vector) l = l.start + t • l.vector := by
  have h : ∀ t : F, projectLine (l.start + t • l.vector) l = l.start + t • l.vector := by
    intro t
    refine (projectLine_correct _ l hv).2.2 t ?_
    simp [inner]
  exact ⟨h _, h⟩

/-- C56. The projection is the nearest point: every point of the line is at least as far, with
equality only at the projection. -/
theorem projectLine_nearest (p : Vec F n) (l : Line F n) (hv : l.vector ≠ 0) (t : F) :
    dist2 p (l.start + t • l.vector) =
      dist2 p (projectLine p l) + dist2 (projectLine p l) (l.start + t • l.vector) := by
  have ho := (projectLine_correct p l hv).2.1
  have e : projectLine p l - (l.start + t • l.vector) = (projectScalar p l - t) • l.vector := by
    funext i; simp [projectLine, Line.at]; ring
  have e2 : p - (l.start + t • l.vector) =
      (p - projectLine p l) + (projectScalar p l - t) • l.vector := by
    rw [← e]; funext i; simp
  rw [dist2_eq, dist2_eq, dist2_eq, e, e2]
  rw [inner_add_left, inner_add_right, inner_add_right]
  rw [inner_smul_right _ _ (p - projectLine p l), inner_smul_left _ _ (p - projectLine p l), ho,
    inner_comm l.vector, ho]
  ring

example : projectLine (![3, 4] : Vec ℚ 2) ⟨![1, 0], ![1, 1], .free⟩ = ![4, 3] := by
  apply vec2_ext <;>
    simp [projectLine, Line.at, projectScalar, dotSelf, dot_eq, inner, Fin.sum_univ_two] <;>
    norm_num

/-- C56. The projection on a (non-degenerate) plane lies in the plane, the residue is a multiple of
the normal, and projecting again changes nothing; points of the plane stay. -/
theorem projectPlane_correct (p : Vec F n) (pl : Plane F n) (hn : pl.normal ≠ 0) :
    InPlane (projectPlane p pl) pl ∧ (∃ t : F, p - projectPlane p pl = t • pl.normal) ∧
      projectPlane (projectPlane p pl) pl = projectPlane p pl ∧
      (InPlane p pl → projectPlane p pl = p) := by
  have hD := (inner_self_pos hn).ne'
  have h1 : InPlane (projectPlane p pl) pl := by
    rw [InPlane, projectPlane, inner_sub_right, inner_smul_right, dotSelf, dot_eq,
      div_mul_cancel₀ _ hD, Plane.eval, dot_eq]
    ring
  have h2 : ∀ q : Vec F n, InPlane q pl → projectPlane q pl = q := by
    intro q hq
    rw [projectPlane, Plane.eval, dot_eq, hq, sub_self, zero_div, zero_smul, sub_zero]
  exact ⟨h1, ⟨_, by rw [projectPlane, sub_sub_cancel]⟩, h2 _ h1, h2 p⟩

/-- C56. Orthogonality of the residue on the plane: it is orthogonal to every direction in the
plane. -/
theorem projectPlane_orthogonal (p q r : Vec F n) (pl : Plane F n) (hn : pl.normal ≠ 0)
    (hq : InPlane q pl) (hr : InPlane r pl) : inner (p - projectPlane p pl) (q - r) = 0 := by
  obtain ⟨t, ht⟩ := (projectPlane_correct p pl hn).2.1
  rw [ht, inner_smul_left, inner_sub_right, hq, hr, sub_self, mul_zero]

example : projectPlane (![1, 2, 5] : Vec ℚ 3) ⟨![0, 0, 2], 4⟩ = ![1, 2, 2] := by
  funext i
  match i with
  | 0 => simp [projectPlane]
  | 1 => simp [projectPlane]
  | 2 =>
    simp [projectPlane, Plane.eval, dotSelf, dot_eq, inner, Fin.sum_univ_three]
    norm_num

/-- A reflection is determined by an idempotent projection that is affine along it. -/
theorem reflectBy_twice (project : Vec F n → Vec F n) (p : Vec F n)
    (h : project (reflectBy project p) = project p) :
    reflectBy project (reflectBy project p) = p := by
  have : ∀ q, reflectBy project q = ((1 : F) + 1) • project q - q := fun _ => rfl
  rw [this (reflectBy project p), h, this p, sub_sub_cancel]

theorem projectLine_reflectLine (p : Vec F n) (l : Line F n) (hv : l.vector ≠ 0) :
    projectLine (reflectLine p l) l = projectLine p l := by
  have ho := (projectLine_correct p l hv).2.1
  refine (projectLine_correct _ l hv).2.2 (projectScalar p l) ?_
  have : reflectLine p l - (l.start + projectScalar p l • l.vector) =
      (-1 : F) • (p - projectLine p l) := by
    funext i; simp [reflectLine, reflectBy, projectLine, Line.at]; ring
  rw [this, inner_smul_left, ho, mul_zero]

theorem projectPlane_reflectPlane (p : Vec F n) (pl : Plane F n) (hn : pl.normal ≠ 0) :
    projectPlane (reflectPlane p pl) pl = projectPlane p pl := by
  have hD := (inner_self_pos hn).ne'
  have e : pl.eval (reflectPlane p pl) = -pl.eval p := by
    simp only [Plane.eval, dot_eq, reflectPlane, reflectBy, projectPlane, dotSelf]
    rw [inner_sub_right, inner_smul_right, inner_sub_right, inner_smul_right,
      div_mul_cancel₀ _ hD]
    ring
  simp only [projectPlane, e]
  simp only [reflectPlane, reflectBy, projectPlane]
  funext i
  simp
  ring

/-- C56. Reflecting across a line twice gives the point back, and the foot of the perpendicular is
the midpoint. -/
theorem reflectLine_twice (p : Vec F n) (l : Line F n) (hv : l.vector ≠ 0) :
    reflectLine (reflectLine p l) l = p ∧
      reflectLine p l + p = (2 : F) • projectLine p l := by
  refine ⟨reflectBy_twice (fun q => projectLine q l) p (projectLine_reflectLine p l hv), ?_⟩
  rw [reflectLine, reflectBy, sub_add_cancel, one_add_one_eq_two]

/-- C56. Reflecting across a plane twice gives the point back. -/
theorem reflectPlane_twice (p : Vec F n) (pl : Plane F n) (hn : pl.normal ≠ 0) :
    reflectPlane (reflectPlane p pl) pl = p ∧
      reflectPlane p pl + p = (2 : F) • projectPlane p pl := by
  refine ⟨reflectBy_twice (fun q => projectPlane q pl) p (projectPlane_reflectPlane p pl hn), ?_⟩
  rw [reflectPlane, reflectBy, sub_add_cancel, one_add_one_eq_two]

/-- C56. Reflecting in a point twice gives the point back and keeps distances. -/
theorem reflectPoint_twice (p q c : Vec F n) :
    reflectPoint (reflectPoint p c) c = p ∧
      dist2 (reflectPoint p c) (reflectPoint q c) = dist2 p q := by
  refine ⟨reflectBy_twice (fun q => projectPoint q c) p rfl, ?_⟩
  refine Finset.sum_congr rfl fun i _ => ?_
  simp only [reflectPoint, reflectBy, projectPoint, Pi.sub_apply]
  ring

/-- C56. Reflection across a line keeps the distance of any two points. -/
theorem reflectLine_isometry (p q : Vec F n) (l : Line F n) (hv : l.vector ≠ 0) :
    dist2 (reflectLine p l) (reflectLine q l) = dist2 p q := by
  have hD := (inner_self_pos hv).ne'
  set k := projectScalar p l - projectScalar q l with hk
  have hkd : k * inner l.vector l.vector = inner (p - q) l.vector := by
    rw [hk, sub_mul, projectScalar_mul p l hv, projectScalar_mul q l hv, ← inner_sub_left]
    congr 1; funext i; simp
  have e : reflectLine p l - reflectLine q l = (2 * k) • l.vector - (p - q) := by
    funext i
    simp only [reflectLine, reflectBy, projectLine, Line.at, hk, Pi.sub_apply, Pi.smul_apply,
      Pi.add_apply, smul_eq_mul]
    ring
  rw [dist2_eq, dist2_eq, e]
  simp only [inner_sub_left, inner_sub_right, inner_smul_left, inner_smul_right] at hkd ⊢
  rw [inner_comm l.vector p, inner_comm l.vector q]
  linear_combination (4 * k) * hkd

/-- C56. Reflection across a plane keeps the distance of any two points. -/
theorem reflectPlane_isometry (p q : Vec F n) (pl : Plane F n) (hn : pl.normal ≠ 0) :
    dist2 (reflectPlane p pl) (reflectPlane q pl) = dist2 p q := by
  have hD := (inner_self_pos hn).ne'
  set k := pl.eval p / inner pl.normal pl.normal - pl.eval q / inner pl.normal pl.normal with hk
  have hkd : k * inner pl.normal pl.normal = inner (p - q) pl.normal := by
    rw [hk, sub_mul, div_mul_cancel₀ _ hD, div_mul_cancel₀ _ hD, Plane.eval, Plane.eval, dot_eq,
      dot_eq, inner_sub_left, inner_comm p, inner_comm q]
    ring
  have e : reflectPlane p pl - reflectPlane q pl = (p - q) - (2 * k) • pl.normal := by
    funext i
    simp only [reflectPlane, reflectBy, projectPlane, dotSelf, dot_eq, hk, Pi.sub_apply,
      Pi.smul_apply, smul_eq_mul]
    ring
  rw [dist2_eq, dist2_eq, e]
  simp only [inner_sub_left, inner_sub_right, inner_smul_left, inner_smul_right] at hkd ⊢
  rw [inner_comm pl.normal p, inner_comm pl.normal q]
  linear_combination (4 * k) * hkd

example : reflectLine (![3, 4] : Vec ℚ 2) ⟨![1, 0], ![1, 1], .free⟩ = ![5, 2] := by
  apply vec2_ext <;>
    simp [reflectLine, reflectBy, projectLine, Line.at, projectScalar, dotSelf, dot_eq, inner,
      Fin.sum_univ_two] <;>
    norm_num

/-! ### Rotation -/

section Rotation

variable {A : Type*} (sin cos : A → F)

/-- The squared norm of the rotated point. -/
theorem rotate_norm (p : Vec F 2) (angle : A) (h : sin angle ^ 2 + cos angle ^ 2 = 1) :
    inner (rotate sin cos p angle) (rotate sin cos p angle) =
      inner p p + 4 * (sin angle * cos angle * (p 0 * p 1)) := by
  simp only [rotate, dot_eq, inner, Fin.sum_univ_two, Matrix.cons_val_zero, Matrix.cons_val_one]
  linear_combination (p 0 * p 0 + p 1 * p 1) * h

/-- C56, what holds of `rotate`: the zero angle is the identity, also around another origin, and the
norm is kept exactly when the sine, the cosine or one coordinate vanishes.  (Missing: `rotate` keeps
the norm in general, which is false, see `rotate_norm_fails`.) -/
theorem rotate_partial (p o : Vec F 2) (angle : A) (h : sin angle ^ 2 + cos angle ^ 2 = 1) :
    (inner (rotate sin cos p angle) (rotate sin cos p angle) = inner p p ↔
        sin angle = 0 ∨ cos angle = 0 ∨ p 0 = 0 ∨ p 1 = 0) ∧
      (sin angle = 0 → cos angle = 1 →
        rotate sin cos p angle = p ∧ rotateAround sin cos p angle o = p) := by
  constructor
  · rw [rotate_norm sin cos p angle h]
    simp [or_assoc]
  · intro hs hc
    have hr : ∀ q : Vec F 2, rotate sin cos q angle = q := by
      intro q
      apply vec2_ext <;> simp [rotate, dot_eq, inner, Fin.sum_univ_two, hs, hc]
    exact ⟨hr p, by rw [rotateAround, hr, add_sub_cancel]⟩

/-- C56 is false of `rotate`: for every angle that is not a multiple of a right angle, and every
point off the axes, the norm changes. -/
theorem rotate_norm_fails (p : Vec F 2) (angle : A) (h : sin angle ^ 2 + cos angle ^ 2 = 1)
    (hs : sin angle ≠ 0) (hc : cos angle ≠ 0) (h0 : p 0 ≠ 0) (h1 : p 1 ≠ 0) :
    inner (rotate sin cos p angle) (rotate sin cos p angle) ≠ inner p p := fun e =>
  ((rotate_partial sin cos p p angle h).1.1 e).elim hs fun e => e.elim hc fun e => e.elim h0 h1

/-- The angle with sine 3/5 and cosine 4/5 takes `(1, 1)` to `(7/5, 7/5)`. -/
example : rotate (fun _ : Unit => (3 / 5 : ℚ)) (fun _ => 4 / 5) ![1, 1] () = ![7 / 5, 7 / 5] := by
  apply vec2_ext <;> simp [rotate, dot_eq, inner, Fin.sum_univ_two] <;> norm_num

/-- `perpendicular` is the quarter turn: it keeps the norm, is orthogonal to the vector, on its
counter-clockwise side, and doing it twice negates. -/
theorem perpendicular_correct (p : Vec F 2) :
    inner (perpendicular p) (perpendicular p) = inner p p ∧ inner p (perpendicular p) = 0 ∧
      area p (perpendicular p) = inner p p ∧ perpendicular (perpendicular p) = -p := by
  refine ⟨?_, ?_, ?_, vec2_ext ?_ ?_⟩ <;>
    simp only [perpendicular, inner, area, Fin.sum_univ_two, Matrix.cons_val_zero,
      Matrix.cons_val_one, Pi.neg_apply] <;> ring

/-- `cross` in space: orthogonal to both vectors, with the norm of Lagrange's identity,
antisymmetric. -/
theorem cross_correct (u v : Vec F 3) :
    inner (cross u v) u = 0 ∧ inner (cross u v) v = 0 ∧
      inner (cross u v) (cross u v) = inner u u * inner v v - inner u v ^ 2 ∧
      cross u v = -cross v u := by
  refine ⟨?_, ?_, ?_, ?_⟩
  · simp only [cross, inner, Fin.sum_univ_three, Matrix.cons_val_zero, Matrix.cons_val_one,
      Matrix.cons_val]; ring
  · simp only [cross, inner, Fin.sum_univ_three, Matrix.cons_val_zero, Matrix.cons_val_one,
      Matrix.cons_val]; ring
  · simp only [cross, inner, Fin.sum_univ_three, Matrix.cons_val_zero, Matrix.cons_val_one,
      Matrix.cons_val]; ring
  · funext i
    match i with
    | 0 => simp [cross]; ring
    | 1 => simp [cross]; ring
    | 2 => simp [cross]; ring

end Rotation

end Actl.Geo
