import Verif.Model.FloatLinePolygon
import Verif.Lemmas.FloatPolygon
import Verif.Props.LinePolygon
import Verif.Props.JordanLine

/-!
Lemmas about intersections of lines with polygons in floating point.
-/

namespace Actl.Geo

variable {F : Type*} [Field F] [LinearOrder F] [IsStrictOrderedRing F]
variable {fl : F → F} {u : F} {S : Vec F 2 → Prop} {a b : Vec F 2} {poly : List (Vec F 2)}

/-- On the points of `S` differences, areas and inner products are exact. -/
structure ExactOn (fl : F → F) (S : Vec F 2 → Prop) : Prop where
  coord : ∀ p, S p → ∀ i, fl (p i) = p i
  sub : ∀ p q, S p → S q → subR fl p q = p - q
  area : ∀ p q r s, S p → S q → S r → S s → areaR fl (p - q) (r - s) = area (p - q) (r - s)
  dot : ∀ p q r s, S p → S q → S r → S s → dotR fl (p - q) (r - s) = dot (p - q) (r - s)

theorem exactOn_grid {g : F} {M : Int} (he : Exact fl g M) : ExactOn fl (OnGrid g M) := by
  refine ⟨?_, fun _ _ hp hq => subR_grid he hp hq,
    fun _ _ _ _ hp hq hr hs => areaR_grid he (grid_diff hp hq) (grid_diff hr hs),
    fun _ _ _ _ hp hq hr hs => dotR_grid he (grid_diff hp hq) (grid_diff hr hs)⟩
  intro p hp i
  obtain ⟨x, hx, e⟩ := hp i
  have h0 := (abs_nonneg _).trans hx
  rw [e, he.unit x (by linarith)]

theorem exactOn_id : ExactOn (id : F → F) (fun _ => True) :=
  ⟨fun _ _ _ => rfl, fun p q _ _ => vec2_ext rfl rfl, fun _ _ _ _ _ _ _ _ => rfl, fun _ _ _ _ _ _ _ _ => rfl⟩

namespace ExactOn

theorem through (h : ExactOn fl S) (ha : S a) (hb : S b) (k : LineKind) : throughR fl a b k = Line.through a b k := by
  rw [throughR, h.sub _ _ hb ha]
  rfl

theorem stop (h : ExactOn fl S) (hb : S b) (k : LineKind) : stopR fl (Line.through a b k) = b := by
  funext i
  simp only [stopR, Line.through, Pi.sub_apply, add_sub_cancel]
  exact h.coord b hb i

theorem between (h : ExactOn fl S) (ha : S a) (hb : S b) {p : Vec F 2} (hp : S p) (k : LineKind) :
    betweenEndpointsR fl p (Line.through a b k) = betweenEndpoints p (Line.through a b k) := by
  have e1 : dotR fl (subR fl p a) (b - a) = Geo.dot (p - a) (b - a) := by rw [h.sub _ _ hp ha, h.dot _ _ _ _ hp ha hb ha]
  have e2 : dotR fl (subR fl a p) (subR fl p b) = Geo.dot (a - p) (p - b) := by
    rw [h.sub _ _ ha hp, h.sub _ _ hp hb, h.dot _ _ _ _ ha hp hp hb]
  simp only [betweenEndpointsR, betweenEndpoints, h.stop hb, stop_through]
  simp only [Line.through, e1, e2]
  rfl

theorem project (h : ExactOn fl S) (ha : S a) (hb : S b) {p : Vec F 2} (hp : S p) (k : LineKind) :
    projectScalarR fl p (Line.through a b k) = fl (projectScalar p (Line.through a b k)) := by
  have e1 : dotR fl (subV fl p a) (b - a) = Geo.dot (p - a) (b - a) := by
    have : subV fl p a = subR fl p a := vec2_ext rfl rfl
    rw [this, h.sub _ _ hp ha, h.dot _ _ _ _ hp ha hb ha]
  simp only [projectScalarR, projectScalar, Line.through, e1, h.dot _ _ _ _ hb ha hb ha]
  rfl

theorem scalar (h : ExactOn fl S) (ha : S a) (hb : S b) {c d : Vec F 2} (hc : S c) (hd : S d) (k m : LineKind) :
    intersectScalarR fl (Line.through a b k) (throughR fl c d m) =
      (intersectScalar (Line.through a b k) (Line.through c d m)).map fl := by
  rw [h.through hc hd]
  have gT : areaR fl (Line.through c d m).vector (Line.through a b k).vector =
      Geo.area (Line.through c d m).vector (Line.through a b k).vector := h.area _ _ _ _ hd hc hb ha
  have gV : subR fl (Line.through a b k).start (Line.through c d m).start = (Line.through a b k).start - (Line.through c d m).start :=
    h.sub _ _ ha hc
  have gL : areaR fl ((Line.through a b k).start - (Line.through c d m).start) (Line.through c d m).vector =
      Geo.area ((Line.through a b k).start - (Line.through c d m).start) (Line.through c d m).vector := h.area _ _ _ _ ha hc hd hc
  have gR : areaR fl ((Line.through a b k).start - (Line.through c d m).start) (Line.through a b k).vector =
      Geo.area ((Line.through a b k).start - (Line.through c d m).start) (Line.through a b k).vector := h.area _ _ _ _ ha hc hb ha
  simp only [intersectScalarR, intersectScalar, gT, gV, gL, gR, apply_ite (List.map fl), List.map_cons, List.map_nil]

theorem orient (h : ExactOn fl S) (ha : S a) (hb : S b) (hp : ∀ v ∈ poly, S v) (k : LineKind) {i : Nat} (hi : i < poly.length) :
    vertexOrientR fl (Line.through a b k) poly i = vertexOrient (Line.through a b k) poly i := by
  have hm := hp _ (polyAt_mem hi)
  simp only [vertexOrientR, vertexOrient, Line.through, orientation, h.sub _ _ hm ha, h.area _ _ _ _ hb ha hm ha]

theorem extreme (h : ExactOn fl S) (ha : S a) (hb : S b) (hp : ∀ v ∈ poly, S v) :
    extremeVertexR fl poly (fun _ => b - a) = extremeVertex poly (fun _ => b - a) := by
  refine extremeVertexR_exact fun i j hi hj => ?_
  have h1 := hp _ (polyAt_mem hi)
  have h2 := hp _ (polyAt_mem hj)
  rw [vertexCmpR, vertexCmp, h.sub _ _ h2 h1, h.area _ _ _ _ h2 h1 hb ha, orientation]

end ExactOn

/-! ### The chains -/

theorem chainLoopT_spec (orient orient' : Nat → Turn) (n : Nat) (o : Turn) (ho : ∀ i < n, orient i = orient' i) :
    ∀ (k first d : Nat), first < n → 1 ≤ d → d < n → d ≤ k →
      ∃ i < n, chainLoopT orient n o k first ((first + d) % n) = some (i, (i + 1) % n) ∧
        chainLoop orient' n o k first ((first + d) % n) = (i, (i + 1) % n) := by
  intro k
  induction k with
  | zero => intro first d _ h1 _ h2; omega
  | succ k ih =>
    intro first d hf hd1 hdn hdk
    rw [chainLoopT, chainLoop, nextAt_eq hf, cyclic_distance hf hdn]
    rcases Nat.eq_or_lt_of_le hd1 with rfl | hd2
    · rw [if_pos rfl, if_pos rfl]
      exact ⟨first, hf, rfl, rfl⟩
    · have hne : (first + 1) % n ≠ (first + d) % n := by
        intro h
        have h1 := cyclic_distance hf (show 1 < n by omega)
        rw [h, cyclic_distance hf hdn] at h1
        omega
      rw [if_neg hne, if_neg hne]
      simp only
      rw [ho _ (Nat.mod_lt _ (by omega))]
      by_cases hm : orient' ((first + d / 2) % n) = o
      · rw [if_pos hm, if_pos hm]
        have e : (first + d) % n = ((first + d / 2) % n + (d - d / 2)) % n := by
          rw [Nat.mod_add_mod]; congr 1; omega
        rw [e]
        exact ih ((first + d / 2) % n) (d - d / 2) (Nat.mod_lt _ (by omega)) (by omega) (by omega) (by omega)
      · rw [if_neg hm, if_neg hm]
        exact ih first (d / 2) hf (by omega) (by omega) (by omega)

theorem chainLoopT_ends (orient orient' : Nat → Turn) (n : Nat) (o : Turn) (ho : ∀ i < n, orient i = orient' i) {first last : Nat}
    (hf : first < n) (hl : last < n) (hne : first ≠ last) :
    ∃ i < n, chainLoopT orient n o n first last = some (i, (i + 1) % n) ∧ chainLoop orient' n o n first last = (i, (i + 1) % n) := by
  obtain ⟨d, hd1, hd2, hd3⟩ : ∃ d, 1 ≤ d ∧ d < n ∧ (first + d) % n = last := by
    rcases Nat.lt_or_gt_of_ne hne with h | h
    · exact ⟨last - first, by omega, by omega, by
        rw [show first + (last - first) = last by omega, Nat.mod_eq_of_lt hl]⟩
    · exact ⟨last + n - first, by omega, by omega, by
        rw [show first + (last + n - first) = last + n by omega, Nat.add_mod_right,
          Nat.mod_eq_of_lt hl]⟩
  have := chainLoopT_spec orient orient' n o ho n first d hf hd1 hd2 hd2.le
  rwa [hd3] at this

/-- If both ends are the same vertex, the loop never ends. -/
theorem chainLoopT_stuck (orient : Nat → Turn) {n : Nat} (h2 : 2 ≤ n) {i : Nat} (hi : i < n) :
    ∀ k, chainLoopT orient n (orient i) k i i = none
  | 0 => rfl
  | k + 1 => by
    rw [chainLoopT, nextAt_eq hi]
    have e : (i + (i + n - i) % n / 2) % n = i := by
      rw [show i + n - i = n by omega, Nat.mod_self, Nat.zero_div, Nat.add_zero, Nat.mod_eq_of_lt hi]
    have hne : (i + 1) % n ≠ i := by
      rcases Nat.lt_or_ge (i + 1) n with h | h
      · rw [Nat.mod_eq_of_lt h]; omega
      · rw [show i + 1 = n by omega, Nat.mod_self]; omega
    rw [if_neg hne]
    simp only [e, if_pos]
    exact chainLoopT_stuck orient h2 hi k

theorem extreme_ne {l : Line F 2} (hc : StrictlyConvex poly) (hv : l.vector ≠ 0) {m M : Nat}
    (em : extremeVertex poly (fun _ => l.vector) = some m) (eM : extremeVertex poly (fun _ => -l.vector) = some M) :
    m < poly.length ∧ M < poly.length ∧ M ≠ m := by
  have h3 := hc.1
  obtain ⟨m', em', hm, hm0, hm1, hm2⟩ := extremeVertex_correct hc hv
  obtain ⟨M', eM', hM, hM0, hM1, hM2⟩ := extremeVertex_correct hc (neg_ne_zero.2 hv)
  obtain rfl : m = m' := Option.some.inj (em.symm.trans em')
  obtain rfl : M = M' := Option.some.inj (eM.symm.trans eM')
  refine ⟨hm, hM, ?_⟩
  rintro rfl
  have hall : ∀ k, area l.vector (vert poly k) = area l.vector (vert poly M) := by
    intro k
    have h1 := hm1 _ (vert_mem (by omega) k)
    have h2 := hM1 _ (vert_mem (by omega) k)
    simp only [LeftOrOn, Pi.add_apply, Pi.neg_apply] at h1 h2
    simp only [area]
    linarith
  have hin : ∀ k, inner (vert poly k) (perp l.vector) = inner (vert poly M) (perp l.vector) := by
    intro k
    rw [inner_perp, inner_perp]
    have := hall k
    simp only [area] at this ⊢
    linarith
  exact (hc.linear_local (perp_ne hv) 0).2.2 (by rw [hin, hin (0 + 1)]) (by rw [hin, hin (0 + 2)])

theorem intersectConvexR_exact (h : ExactOn fl S) (ha : S a) (hb : S b) (hp : ∀ v ∈ poly, S v) (hc : StrictlyConvex poly)
    (hab : a ≠ b) (k : LineKind) :
    intersectConvexR fl (throughR fl a b k) poly = (intersectConvex (Line.through a b k) poly).map fun ts => ts.map fl := by
  have hv : (Line.through a b k).vector ≠ 0 := sub_ne_zero.2 hab.symm
  have hdeg : ¬ degenerate (Line.through a b k).vector = true := by rw [degenerate_iff]; exact hv
  rw [h.through ha hb]
  have e1 : extremeVertexR fl poly (fun _ => (Line.through a b k).vector) = extremeVertex poly (fun _ => (Line.through a b k).vector) :=
    h.extreme ha hb hp
  have e2 : extremeVertexR fl poly (fun _ => -(Line.through a b k).vector) =
      extremeVertex poly (fun _ => -(Line.through a b k).vector) := by
    have : -(Line.through a b k).vector = a - b := neg_sub b a
    rw [this]
    exact h.extreme hb ha hp
  have ho := fun i hi => h.orient ha hb hp k (i := i) hi
  obtain ⟨m, em, -⟩ := extremeVertex_correct hc hv
  obtain ⟨M, eM, -⟩ := extremeVertex_correct hc (neg_ne_zero.2 hv)
  obtain ⟨hm, hM, hne⟩ := extreme_ne hc hv em eM
  have chain : ∀ {first last : Nat} (o : Turn), first < poly.length → last < poly.length → first ≠ last →
      intersectChainR fl (Line.through a b k) poly first last o =
        some ((intersectChain (Line.through a b k) poly first last o).map fl) := by
    intro first last o hf hl hfl
    obtain ⟨i, hi, c1, c2⟩ := chainLoopT_ends _ _ poly.length o ho hf hl hfl
    rw [intersectChainR, intersectChain, c1, c2]
    simp only [Option.map_some]
    rw [h.scalar ha hb (hp _ (polyAt_mem hi)) (hp _ (polyAt_mem (Nat.mod_lt _ (by omega))))]
  unfold intersectConvexR intersectConvex
  rw [if_neg hdeg, if_neg hdeg, e1, e2, em, eM]
  simp only [Option.bind_some]
  rw [ho m hm, ho M hM]
  split_ifs with hout
  · rfl
  · rw [chain _ hM hm hne, chain _ hm hM hne.symm]
    simp

/-! ### Simple polygons -/

theorem simpleStepR_exact (h : ExactOn fl S) (ha : S a) (hb : S b) (hp : ∀ v ∈ poly, S v) (k : LineKind) {i : Nat}
    (hi : i < poly.length) (s0 s1 s2 : Turn) :
    simpleStepR fl (Line.through a b k) poly i s0 s1 s2 = (simpleStep (Line.through a b k) poly i s0 s1 s2).map fl := by
  have m0 := hp _ (polyAt_mem (prevAt_lt hi))
  have m1 := hp _ (polyAt_mem hi)
  have m2 := hp _ (polyAt_mem (nextAt_lt hi))
  have d1 : dotR fl (subR fl (polyAt poly i) (polyAt poly (prevAt poly.length i))) (Line.through a b k).vector =
      dot (polyAt poly i - polyAt poly (prevAt poly.length i)) (Line.through a b k).vector := by
    rw [h.sub _ _ m1 m0]
    exact h.dot _ _ _ _ m1 m0 hb ha
  have d2 : dotR fl (subR fl (polyAt poly (nextAt poly.length i)) (polyAt poly i)) (Line.through a b k).vector =
      dot (polyAt poly (nextAt poly.length i) - polyAt poly i) (Line.through a b k).vector := by
    rw [h.sub _ _ m2 m1]
    exact h.dot _ _ _ _ m2 m1 hb ha
  unfold simpleStepR simpleStep
  rw [d1, d2, h.between ha hb m1, h.project ha hb m1, h.scalar ha hb m1 m2]
  simp only [apply_ite (List.map fl), List.map_cons, List.map_nil]

theorem simpleLoopR_exact (h : ExactOn fl S) (ha : S a) (hb : S b) (hp : ∀ v ∈ poly, S v) (k : LineKind) :
    ∀ (n i : Nat) (s0 s1 : Turn), i < poly.length →
      simpleLoopR fl (Line.through a b k) poly n i s0 s1 = (simpleLoop (Line.through a b k) poly n i s0 s1).map fl
  | 0, _, _, _, _ => rfl
  | n + 1, i, s0, s1, hi => by
    rw [simpleLoopR, simpleLoop, h.orient ha hb hp k (nextAt_lt hi), simpleStepR_exact h ha hb hp k hi,
      simpleLoopR_exact h ha hb hp k n _ _ _ (nextAt_lt hi),
      List.map_append]

theorem intersectSimpleR_exact (h : ExactOn fl S) (ha : S a) (hb : S b) (hp : ∀ v ∈ poly, S v) (k : LineKind) :
    intersectSimpleR fl (throughR fl a b k) poly = (intersectSimple (Line.through a b k) poly).map fun ts => ts.map fl := by
  rw [h.through ha hb]
  unfold intersectSimpleR intersectSimple
  split_ifs with h1 h2
  · rfl
  · rfl
  · have h0 : 0 < poly.length := by omega
    rw [h.orient ha hb hp k (prevAt_lt h0), h.orient ha hb hp k h0, simpleLoopR_exact h ha hb hp k _ _ _ _ h0]
    rfl

/-! ### Points -/

theorem line_through (l : Line F 2) : l = Line.through l.start (l.start + l.vector) l.kind := by
  simp [Line.through]

theorem foldl_putAdaptedR (l : Line F 2) : ∀ (ts : List F) (o : Output (Vec F 2)),
    ts.foldl (putAdaptedR fl l) o = { writes := o.writes ++ ts.map fun t => (o.pos, atR fl l t), pos := o.pos }
  | [], o => by simp
  | t :: ts, o => by
    rw [List.foldl_cons, foldl_putAdaptedR l ts]
    simp [putAdaptedR]

end Actl.Geo
