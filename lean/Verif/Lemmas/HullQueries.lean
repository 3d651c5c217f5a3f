import Verif.Spec.HullQueries
import Verif.Props.Hull
import Verif.Props.LinePolygon

/-!
# A set of points and its convex hull
-/

namespace Actl.Geo

variable {F : Type*} [Field F] [LinearOrder F] [IsStrictOrderedRing F]

/-- An affine function that is not negative at the points is not negative on all that lies between them. -/
theorem InHull.affine_nonneg {l : List (Vec F 2)} {p : Vec F 2} (h : InHull l p) (v : Vec F 2) (c : F)
    (hl : ∀ q ∈ l, 0 ≤ inner v q + c) : 0 ≤ inner v p + c := by
  induction h with
  | vertex hp => exact hl _ hp
  | @segment p q t _ _ h0 h1 ih1 ih2 =>
    rw [inner2] at ih1 ih2 ⊢
    have : v 0 * (p 0 + t * (q 0 - p 0)) + v 1 * (p 1 + t * (q 1 - p 1)) + c =
      (1 - t) * (v 0 * p 0 + v 1 * p 1 + c) + t * (v 0 * q 0 + v 1 * q 1 + c) := by ring
    rw [this]
    exact add_nonneg (mul_nonneg (by linarith) ih1) (mul_nonneg h0 ih2)

theorem InHull.mono {l l' : List (Vec F 2)} (hl : ∀ q ∈ l, InHull l' q) {p : Vec F 2} (h : InHull l p) : InHull l' p := by
  induction h with
  | vertex hp => exact hl _ hp
  | segment _ _ h0 h1 ih1 ih2 => exact .segment ih1 ih2 h0 h1

/-- The area with a side as an affine function of the point. -/
theorem area_affine (a b p : Vec F 2) :
    (b 0 - a 0) * (p 1 - a 1) - (b 1 - a 1) * (p 0 - a 0) =
      inner (![-(b 1 - a 1), b 0 - a 0] : Vec F 2) p + ((b 1 - a 1) * a 0 - (b 0 - a 0) * a 1) := by
  rw [inner2]; simp only [Matrix.cons_val_zero, Matrix.cons_val_one]; ring

theorem InHull.leftOrOn {l : List (Vec F 2)} {p a b : Vec F 2} (h : InHull l p) (hl : ∀ q ∈ l, LeftOrOn a b q) :
    LeftOrOn a b p := by
  unfold LeftOrOn at hl ⊢
  simp only [area_affine] at hl ⊢
  exact h.affine_nonneg _ _ hl

theorem inPolygon_edges (p : Vec F 2) (poly : List (Vec F 2)) : InPolygon p poly ↔ ∀ e ∈ edges poly, LeftOrOn e.1 e.2 p := by
  rw [InPolygon, leftOfChain_iff, edges]
  constructor
  · rintro h ⟨a, b⟩ he
    obtain ⟨X, Y, e⟩ := mem_pairs.1 he
    exact h X a b Y e
  · intro h X a b Y e
    exact h (a, b) (mem_pairs.2 ⟨X, Y, e⟩)

/-- The polygon contains exactly what lies between its vertices. -/
theorem inPolygon_iff_inHull {poly : List (Vec F 2)} (hc : StrictlyConvex poly) (p : Vec F 2) :
    InPolygon p poly ↔ InHull poly p := by
  refine ⟨inHull_of_inPolygon hc, fun h => ?_⟩
  rw [inPolygon_edges]
  exact fun e he => h.leftOrOn fun q hq => hc.leftOrOn he hq

/-- The side is not a point. -/
theorem StrictlyConvex.edge_ne {poly : List (Vec F 2)} (hc : StrictlyConvex poly) {e : Vec F 2 × Vec F 2} (he : e ∈ edges poly) :
    e.1 ≠ e.2 := by
  obtain ⟨k, -, rfl⟩ := mem_edges_vert he
  exact (hc.vert_ne' (a := k) (b := k + 1) (by omega) (by have := hc.1; omega)).symm

/-- A small step keeps positive numbers from becoming negative. -/
theorem exists_step {α : Type*} (f g : α → F) : ∀ l : List α, (∀ x ∈ l, 0 < f x) → ∃ ε : F, 0 < ε ∧ ∀ x ∈ l, 0 ≤ f x + ε * g x
  | [], _ => ⟨1, one_pos, by simp⟩
  | x :: l, h => by
    obtain ⟨ε, h0, hε⟩ := exists_step f g l fun y hy => h y (List.mem_cons_of_mem _ hy)
    have hx := h x List.mem_cons_self
    have key : ∀ y, 0 < f y → 0 ≤ f y + ε * g y → ∀ δ, 0 ≤ δ → δ ≤ ε → 0 ≤ f y + δ * g y := by
      intro y hy hy' δ hδ hle
      rcases le_total 0 (g y) with hg | hg
      · have := mul_nonneg hδ hg; linarith
      · have := mul_le_mul_of_nonpos_right hle hg; linarith
    have hpos : 0 < 1 + |g x| := by have := abs_nonneg (g x); linarith
    refine ⟨min ε (f x / (1 + |g x|)), lt_min h0 (div_pos hx hpos), fun y hy => ?_⟩
    rcases List.mem_cons.1 hy with rfl | hy
    · have h1 : min ε (f y / (1 + |g y|)) ≤ f y / (1 + |g y|) := min_le_right _ _
      have h2 : 0 < min ε (f y / (1 + |g y|)) := lt_min h0 (div_pos hx hpos)
      have h3 := (le_div_iff₀ hpos).1 h1
      have h4 := neg_abs_le (g y)
      nlinarith
    · exact key y (h y (List.mem_cons_of_mem _ hy)) (hε y hy) _ (lt_min h0 (div_pos hx hpos)).le (min_le_left _ _)

/-- Strictly inside a convex polygon: surrounded by any points with the same hull. -/
theorem strictlyIn_iff_surrounded {points poly : List (Vec F 2)} (hc : StrictlyConvex poly) (hsub : ∀ q ∈ poly, q ∈ points)
    (hall : ∀ q ∈ points, InPolygon q poly) (p : Vec F 2) : StrictlyIn p poly ↔ Surrounded points p := by
  constructor
  · intro h v hv
    by_contra hn
    push Not at hn
    obtain ⟨ε, h0, hε⟩ := exists_step
      (fun e : Vec F 2 × Vec F 2 => (e.2 0 - e.1 0) * (p 1 - e.1 1) - (e.2 1 - e.1 1) * (p 0 - e.1 0))
      (fun e => (e.2 0 - e.1 0) * v 1 - (e.2 1 - e.1 1) * v 0) (edges poly) h
    have hin : InPolygon (p + ε • v) poly := by
      rw [inPolygon_edges]
      intro e he
      have := hε e he
      unfold LeftOrOn
      simp only [Pi.add_apply, Pi.smul_apply, smul_eq_mul]
      linarith
    have h1 := (inHull_of_inPolygon hc hin).affine_nonneg (-v) (inner v p) fun q hq => by
      have := hn q (hsub q hq)
      rw [inner2] at this ⊢
      rw [inner2] at this ⊢
      simp only [Pi.neg_apply]; linarith
    have h2 : 0 < v 0 * v 0 + v 1 * v 1 := by
      rcases eq_or_ne (v 0) 0 with e0 | e0
      · have e1 : v 1 ≠ 0 := fun e1 => hv (by funext i; fin_cases i <;> simp [e0, e1])
        have := mul_self_pos.2 e1; nlinarith
      · have := mul_self_pos.2 e0; nlinarith [mul_self_nonneg (v 1)]
    rw [inner2, inner2] at h1
    simp only [Pi.neg_apply, Pi.add_apply, Pi.smul_apply, smul_eq_mul] at h1
    have := mul_pos h0 h2
    nlinarith
  · intro h e he
    have hne := hc.edge_ne he
    obtain ⟨q, hq, hlt⟩ := h ![e.2 1 - e.1 1, -(e.2 0 - e.1 0)] fun h0 => hne (by
      have e0 := congrFun h0 0
      have e1 := congrFun h0 1
      simp only [Matrix.cons_val_zero, Matrix.cons_val_one, Pi.zero_apply] at e0 e1
      funext i
      fin_cases i
      · simp only [Fin.zero_eta]; linarith
      · simp only [Fin.mk_one]; linarith)
    have hq' := (inPolygon_edges q poly).1 (hall q hq) e he
    rw [inner2, inner2] at hlt
    simp only [Matrix.cons_val_zero, Matrix.cons_val_one] at hlt
    unfold StrictLeft
    unfold LeftOrOn at hq'
    linarith

/-! ## A convex polygon is determined by what it contains -/

/-- An affine function that is zero at a vertex and positive at all others. -/
theorem StrictlyConvex.exposed {poly : List (Vec F 2)} (hc : StrictlyConvex poly) {v : Vec F 2} (hv : v ∈ poly) :
    ∃ (n : Vec F 2) (c : F), inner n v + c = 0 ∧ ∀ q ∈ poly, q ≠ v → 0 < inner n q + c := by
  have h3 := hc.1
  obtain ⟨k, -, rfl⟩ := exists_vert hv
  obtain ⟨j, hj⟩ : ∃ j, vert poly (j + 1) = vert poly k := ⟨k + poly.length - 1, by
    rw [show k + poly.length - 1 + 1 = k + poly.length by omega, vert_period]⟩
  rw [← hj]
  have hstep : ∀ i m, vert poly m ≠ vert poly i → vert poly m ≠ vert poly (i + 1) →
      0 < inner (![-(vert poly (i + 1) 1 - vert poly i 1), vert poly (i + 1) 0 - vert poly i 0] : Vec F 2) (vert poly m) +
        ((vert poly (i + 1) 1 - vert poly i 1) * vert poly i 0 - (vert poly (i + 1) 0 - vert poly i 0) * vert poly i 1) := by
    intro i m h0 h1
    rw [← area_affine]
    exact hc.left i m h0 h1
  have hends : ∀ i, inner (![-(vert poly (i + 1) 1 - vert poly i 1), vert poly (i + 1) 0 - vert poly i 0] : Vec F 2) (vert poly i) +
        ((vert poly (i + 1) 1 - vert poly i 1) * vert poly i 0 - (vert poly (i + 1) 0 - vert poly i 0) * vert poly i 1) = 0 ∧
      inner (![-(vert poly (i + 1) 1 - vert poly i 1), vert poly (i + 1) 0 - vert poly i 0] : Vec F 2) (vert poly (i + 1)) +
        ((vert poly (i + 1) 1 - vert poly i 1) * vert poly i 0 - (vert poly (i + 1) 0 - vert poly i 0) * vert poly i 1) = 0 := by
    intro i
    rw [← area_affine, ← area_affine]
    exact ⟨by ring, by ring⟩
  have a1 := hstep j
  have a2 := hstep (j + 1)
  have e1 := hends j
  have e2 := hends (j + 1)
  generalize (![-(vert poly (j + 1) 1 - vert poly j 1), vert poly (j + 1) 0 - vert poly j 0] : Vec F 2) = n1 at *
  generalize (vert poly (j + 1) 1 - vert poly j 1) * vert poly j 0 - (vert poly (j + 1) 0 - vert poly j 0) * vert poly j 1 = c1 at *
  generalize (![-(vert poly (j + 1 + 1) 1 - vert poly (j + 1) 1), vert poly (j + 1 + 1) 0 - vert poly (j + 1) 0] : Vec F 2) = n2 at *
  generalize (vert poly (j + 1 + 1) 1 - vert poly (j + 1) 1) * vert poly (j + 1) 0 -
    (vert poly (j + 1 + 1) 0 - vert poly (j + 1) 0) * vert poly (j + 1) 1 = c2 at *
  have hadd : ∀ q : Vec F 2, inner (n1 + n2) q + (c1 + c2) = (inner n1 q + c1) + (inner n2 q + c2) := by
    intro q
    rw [inner2, inner2, inner2]
    simp only [Pi.add_apply]; ring
  refine ⟨n1 + n2, c1 + c2, by rw [hadd, e1.2, e2.1, add_zero], fun q hq hne => ?_⟩
  rw [hadd]
  obtain ⟨m, -, rfl⟩ := exists_vert hq
  have d1 : vert poly (j + 1 + 1) ≠ vert poly (j + 1) := hc.vert_ne' (by omega) (by omega)
  have d2 : vert poly (j + 1 + 1) ≠ vert poly j := hc.vert_ne' (by omega) (by omega)
  by_cases hj0 : vert poly m = vert poly j
  · rw [hj0, e1.1, zero_add, ← hj0]
    exact a2 m hne (by rw [hj0]; exact d2.symm)
  · have p1 := a1 m hj0 hne
    by_cases hj2 : vert poly m = vert poly (j + 1 + 1)
    · rw [hj2, e2.2, add_zero, ← hj2]; exact p1
    · exact add_pos p1 (a2 m hne hj2)

/-- Where the function is zero there is only the vertex. -/
theorem InHull.eq_of_zero {l : List (Vec F 2)} {v n : Vec F 2} {c : F} (h0 : inner n v + c = 0)
    (hp : ∀ q ∈ l, q ≠ v → 0 < inner n q + c) {p : Vec F 2} (h : InHull l p) : 0 ≤ inner n p + c ∧ (inner n p + c = 0 → p = v) := by
  induction h with
  | @vertex p hm =>
    by_cases e : p = v
    · subst e; exact ⟨h0.ge, fun _ => rfl⟩
    · have := hp p hm e
      exact ⟨this.le, fun h => absurd h this.ne'⟩
  | @segment p q t _ _ t0 t1 ih1 ih2 =>
    have e : inner n (fun i => p i + t * (q i - p i)) + c = (1 - t) * (inner n p + c) + t * (inner n q + c) := by
      rw [inner2, inner2, inner2]; ring
    rw [e]
    have s1 := mul_nonneg (sub_nonneg.2 t1) ih1.1
    have s2 := mul_nonneg t0 ih2.1
    refine ⟨add_nonneg s1 s2, fun hz => ?_⟩
    have z1 : (1 - t) * (inner n p + c) = 0 := by linarith
    have z2 : t * (inner n q + c) = 0 := by linarith
    rcases mul_eq_zero.1 z1 with z1 | z1 <;> rcases mul_eq_zero.1 z2 with z2 | z2
    · exact absurd z1 (by rw [z2]; simp)
    · rw [← ih2.2 z2]
      have : t = 1 := by linarith
      funext i; rw [this]; ring
    · rw [← ih1.2 z1]
      funext i; rw [z2]; ring
    · rw [ih1.2 z1, ih2.2 z2]
      funext i; ring

theorem StrictlyConvex.vertex_mem {h h' : List (Vec F 2)} (hc : StrictlyConvex h) (hsame : ∀ p, InHull h p ↔ InHull h' p)
    {v : Vec F 2} (hv : v ∈ h) : v ∈ h' := by
  obtain ⟨n, c, h0, hp⟩ := hc.exposed hv
  by_contra hn
  have hall : ∀ q ∈ h', 0 < inner n q + c := fun q hq => by
    have := ((hsame q).2 (.vertex hq)).eq_of_zero h0 hp
    exact this.1.lt_of_ne fun e => hn (this.2 e.symm ▸ hq)
  have : InHull h' v := (hsame v).1 (.vertex hv)
  obtain ⟨ε, hε, hs⟩ := exists_step (fun q => inner n q + c) (fun _ => -1) h' hall
  have := this.affine_nonneg n (c - ε) fun q hq => by have := hs q hq; linarith
  linarith

/-- Two convex polygons that contain the same points have the same vertices in the same order. -/
theorem StrictlyConvex.unique {h h' : List (Vec F 2)} (hc : StrictlyConvex h) (hc' : StrictlyConvex h')
    (hsame : ∀ p, InHull h p ↔ InHull h' p) :
    h.length = h'.length ∧ ∀ i j, vert h i = vert h' j → ∀ k, vert h (i + k) = vert h' (j + k) := by
  have hm : ∀ v, v ∈ h ↔ v ∈ h' := fun v =>
    ⟨hc.vertex_mem hsame, hc'.vertex_mem fun p => (hsame p).symm⟩
  have h3 := hc.1
  have h3' := hc'.1
  refine ⟨((List.perm_ext_iff_of_nodup hc.nodup hc'.nodup).2 hm).length_eq, fun i j hij k => ?_⟩
  induction k with
  | zero => exact hij
  | succ k ih =>
    by_contra hne
    have m1 : vert h (i + k + 1) ∈ h' := (hm _).1 (vert_mem (by omega) _)
    have m2 : vert h' (j + k + 1) ∈ h := (hm _).2 (vert_mem (by omega) _)
    obtain ⟨x, -, hx⟩ := exists_vert m1
    obtain ⟨y, -, hy⟩ := exists_vert m2
    have n1 : vert h (i + k + 1) ≠ vert h (i + k) := hc.vert_ne' (by omega) (by omega)
    have n2 : vert h' (j + k + 1) ≠ vert h' (j + k) := hc'.vert_ne' (by omega) (by omega)
    have l1 := hc.left (i + k) y (by rw [hy, ih]; exact n2) (by rw [hy]; exact fun e => hne e.symm)
    have l2 := hc'.left (j + k) x (by rw [hx, ← ih]; exact n1) (by rw [hx]; exact hne)
    rw [hy, edgeAt, ih] at l1
    rw [hx, edgeAt] at l2
    simp only [area, Pi.sub_apply] at l1 l2
    linarith

theorem vert_getElem {h : List (Vec F 2)} {k : Nat} (hk : k < h.length) : vert h k = h[k] := by
  rw [vert, Nat.mod_eq_of_lt hk, List.getElem?_eq_getElem hk]; rfl

theorem StrictlyConvex.eq_of_head {h h' : List (Vec F 2)} (hc : StrictlyConvex h) (hc' : StrictlyConvex h')
    (hsame : ∀ p, InHull h p ↔ InHull h' p) (hhead : h.head? = h'.head?) : h = h' := by
  obtain ⟨hl, hv⟩ := hc.unique hc' hsame
  have h3 := hc.1
  have h0 : vert h 0 = vert h' 0 := by
    rw [vert_getElem (by omega), vert_getElem (by omega)]
    rw [List.head?_eq_getElem?, List.head?_eq_getElem?, List.getElem?_eq_getElem (by omega),
      List.getElem?_eq_getElem (by omega)] at hhead
    exact Option.some.inj hhead
  refine List.ext_getElem hl fun k k1 k2 => ?_
  have := hv 0 0 h0 k
  rw [Nat.zero_add, vert_getElem k1, vert_getElem k2] at this
  exact this

theorem StrictlyConvex.rotated_of_same {h h' : List (Vec F 2)} (hc : StrictlyConvex h) (hc' : StrictlyConvex h')
    (hsame : ∀ p, InHull h p ↔ InHull h' p) : h ~r h' := by
  have h3 := hc.1
  have h3' := hc'.1
  have hm := hc.vertex_mem hsame (vert_mem (by omega) 0)
  obtain ⟨j, hj, e⟩ := List.getElem_of_mem hm
  have hr : h' ~r h'.rotate j := ⟨j, rfl⟩
  have hc2 := hc'.rotated hr
  have := hc.eq_of_head hc2 (fun p => (hsame p).trans ⟨InHull.mono fun q hq => .vertex (hr.perm.mem_iff.1 hq),
    InHull.mono fun q hq => .vertex (hr.perm.mem_iff.2 hq)⟩) (by
      rw [List.head?_rotate hj, List.getElem?_eq_getElem hj, e, List.head?_eq_getElem?, List.getElem?_eq_getElem (by omega),
        vert_getElem (by omega)])
  rw [this]
  exact hr.symm

/-- The first vertex of the hull is the least point. -/
theorem convexHull_head {points : List (Vec F 2)} (h : points ≠ []) :
    ∃ a ∈ points, (∀ p ∈ points, key a ≤ key p) ∧ (convexHull points).head? = some a := by
  match points, h with
  | [x], _ => exact ⟨x, by simp, by simp, rfl⟩
  | x :: y :: rest, _ =>
    have hE := ends x y rest
    obtain ⟨L, hL⟩ := sorted_head hE
    refine ⟨_, hE.ha, hE.low, ?_⟩
    rw [convexHull_stack rfl rfl hL, List.head?_reverse, getLast?_popStack, getLast?_foldl_push _ _ (by simp)]
    · rfl
    · intro e
      have := getLast?_foldl_push (L ++ sortPointsDown ((x :: y :: rest).filter fun p => !!decide (orientationLine p
        (Line.through (minPoint x (y :: rest)) (maxPoint x (y :: rest)) .free) = .right))) [minPoint x (y :: rest)] (by simp)
      rw [e] at this
      simp at this

/-- A convex polygon has three vertices that are not on a line. -/
theorem StrictlyConvex.not_collinear {h : List (Vec F 2)} (hc : StrictlyConvex h) : ¬ AllCollinear h := by
  intro hall
  have h3 := hc.1
  have := hc.turn 0
  have e := hall _ (vert_mem (by omega) 0) _ (vert_mem (by omega) 1) _ (vert_mem (by omega) 2)
  simp only [edgeAt, area, Pi.sub_apply, Nat.zero_add] at this
  have e2 : (1 + 1 : Nat) = 2 := rfl
  rw [e2] at this
  linarith

end Actl.Geo
