import Verif.Lemmas.IntClosest
import Mathlib.Algebra.Order.Archimedean.Basic
import Mathlib.Data.Rat.Sqrt

/-!
# The closest and the furthest points with integer coordinates

C135.  Points in a box of side `D`, `D` in the type of the coordinates and `2 * D * D` in the type of the products.
-/

namespace Actl.Geo

section Order

variable {F : Type*} [Zero F] [LinearOrder F]
variable {root conv : Int → F} {w W : Nat} {o : Vec Int 2} {D : Int}

/-- C135. `nearest(points)` overflows nowhere, returns two of the points at different positions and leaves the points permuted.  The root
of no other squared distance is less. -/
theorem nearest_int_box (hr : RootOf root conv D) (hw : D < 2 ^ (w - 1)) (hW : 2 * (D * D) < 2 ^ (W - 1))
    (alg : StdAlgorithms (Vec Int 2)) (ha : alg.Correct) (points : List (Vec Int 2)) (hb : ∀ p ∈ points, InBox o D p)
    (h2 : 2 ≤ points.length) :
    ∃ a b points', nearestPairI root conv w W alg points = some ((a, b), points') ∧ points'.Perm points ∧ PairIn points a b ∧
      ∀ c d, PairIn points c d → root (dist2 a b) ≤ root (dist2 c d) := by
  have mem : ∀ {c d}, PairIn points c d → InBox o D c ∧ InBox o D d := by
    rintro c d ⟨rest, hr⟩
    exact ⟨hb c (hr.mem_iff.2 (by simp)), hb d (hr.mem_iff.2 (by simp))⟩
  rw [nearestPairI, if_neg (by omega)]
  obtain ⟨s1, s2⟩ := ha.2 less points (less_strictWeakI points)
  generalize alg.sort less points = sorted at *
  match he : equalNeighbours sorted with
  | some (a, b) =>
    obtain ⟨h1, h2⟩ := equalNeighboursI_some sorted he
    refine ⟨a, b, sorted, rfl, s1, h1.perm s1, fun c d hcd => ?_⟩
    have e0 : dist2 a b = 0 := by rw [h2, dist2_int]; ring
    have := dist2_box (mem hcd).1 (mem hcd).2
    rw [e0]
    exact hr.mono _ _ le_rfl this.1 this.2
  | none =>
    have hx : sorted.Pairwise fun a b => a 0 ≤ b 0 := s2.imp fun h => less_first h
    obtain ⟨r, e, r1, -, r3, r4⟩ := nearestRecI_near hr hw hW alg ha sorted.length sorted (fun p hp => hb p (s1.mem_iff.1 hp)) (le_refl _)
      (by rw [s1.length_eq]; exact h2) hx
    refine ⟨r.1.2.1, r.1.2.2, r.2, by simp only; rw [e]; rfl, r1.trans s1, r3.2.perm s1, fun c d hcd => ?_⟩
    rw [← r3.1]
    exact (pairwise_iff_pairIn (fun {c d} h => by rwa [dist2_int_comm]) points).1 (r4.perm s1) c d hcd

/-- C135. If no two of the squared distances have the same root, the pair is a closest one. -/
theorem nearest_int_closest (hr : RootOf root conv D)
    (hi : ∀ x y, 0 ≤ x → x < y → y ≤ 2 * (D * D) → root x < root y) (hw : D < 2 ^ (w - 1)) (hW : 2 * (D * D) < 2 ^ (W - 1))
    (alg : StdAlgorithms (Vec Int 2)) (ha : alg.Correct) (points : List (Vec Int 2)) (hb : ∀ p ∈ points, InBox o D p)
    (h2 : 2 ≤ points.length) :
    ∃ a b points', nearestPairI root conv w W alg points = some ((a, b), points') ∧ points'.Perm points ∧ ClosestPair points a b := by
  have mem : ∀ {c d}, PairIn points c d → InBox o D c ∧ InBox o D d := by
    rintro c d ⟨rest, hr⟩
    exact ⟨hb c (hr.mem_iff.2 (by simp)), hb d (hr.mem_iff.2 (by simp))⟩
  obtain ⟨a, b, points', e, h1, h3, h4⟩ := nearest_int_box hr hw hW alg ha points hb h2
  refine ⟨a, b, points', e, h1, h3, fun c d hcd => ?_⟩
  by_contra hn
  have := hi _ _ (dist2_box (mem hcd).1 (mem hcd).2).1 (not_le.1 hn) (dist2_box (mem h3).1 (mem h3).2).2
  exact absurd (h4 c d hcd) (not_le.2 this)

/-- C135. With fewer than two points the precondition is violated; nothing else goes wrong. -/
theorem nearest_int_none_iff (hr : RootOf root conv D) (hw : D < 2 ^ (w - 1)) (hW : 2 * (D * D) < 2 ^ (W - 1))
    (alg : StdAlgorithms (Vec Int 2)) (ha : alg.Correct) (points : List (Vec Int 2)) (hb : ∀ p ∈ points, InBox o D p) :
    nearestPairI root conv w W alg points = none ↔ points.length < 2 := by
  constructor
  · intro h
    by_contra hn
    obtain ⟨a, b, points', e, -⟩ := nearest_int_box hr hw hW alg ha points hb (not_lt.1 hn)
    rw [h] at e
    cases e
  · intro h
    rw [nearestPairI, if_pos (by omega)]

omit [Zero F] [LinearOrder F] in
theorem distancePointI_overflow (hw : D < 2 ^ (w - 1)) (hW : 2 ^ (W - 1) ≤ 2 * (D * D)) (o : Vec Int 2) (h0 : 0 ≤ D) :
    distancePointI root w W o ![o 0 + D, o 1 + D] = none ∧ distancePointI root w W ![o 0 + D, o 1 + D] o = none := by
  have b1 : InBox o D o := ⟨by simp, by linarith, by simp, by linarith⟩
  have b2 : InBox o D ![o 0 + D, o 1 + D] := by simp [InBox, h0]
  have f : ∀ a b c d : Int, a * b = D * D → c * d = D * D →
      ((fitInt W (a * b)).bind fun x => (fitInt W (c * d)).bind fun y => fitInt W (x + y)) = none := by
    intro a b c d h1 h2
    rw [h1, h2]
    by_cases hf : D * D < 2 ^ (W - 1)
    · have h3 : 0 ≤ D * D := mul_self_nonneg D
      rw [fitInt_some (by linarith) hf]
      simp only [Option.bind_some]
      exact fitInt_none (.inr (by linarith))
    · rw [fitInt_none (.inr (not_lt.1 hf))]
      rfl
  rw [distancePointI, distancePointI, sub_box b1 b2 hw, sub_box b2 b1 hw, Option.bind_some, Option.bind_some, dotI, dotI,
    f _ _ _ _ (by simp) (by simp), f _ _ _ _ (by simp) (by simp)]
  exact ⟨rfl, rfl⟩

/-- C135. The bound is exact: two opposite corners of a larger box overflow. -/
theorem nearest_int_overflow (hw : D < 2 ^ (w - 1)) (hW : 2 ^ (W - 1) ≤ 2 * (D * D)) (h0 : 0 < D) (alg : StdAlgorithms (Vec Int 2))
    (ha : alg.Correct) (o : Vec Int 2) : nearestPairI root conv w W alg [o, ![o 0 + D, o 1 + D]] = none := by
  obtain ⟨d1, d2⟩ := distancePointI_overflow (root := root) hw hW o h0.le
  have hne : o ≠ ![o 0 + D, o 1 + D] := fun h => by
    have := congrFun h 0
    simp only [Matrix.cons_val_zero] at this
    linarith
  generalize ![o 0 + D, o 1 + D] = q at *
  obtain ⟨s1, -⟩ := ha.2 less [o, q] (less_strictWeakI _)
  rw [nearestPairI, if_neg (by simp)]
  generalize alg.sort less [o, q] = sorted at *
  have key : ∀ a b : Vec Int 2, a ≠ b → distancePointI root w W a b = none →
      (match equalNeighbours [a, b] with
        | some pair => some (pair, [a, b])
        | none => (nearestRecI root conv w W alg [a, b]).map fun r => (r.1.2, r.2)) = none := by
    intro a b hab hd
    have e : equalNeighbours [a, b] = none := by
      simp [equalNeighbours, isEqual_int, hab]
    rw [e]
    simp only
    rw [nearestRecI, if_pos (by simp)]
    simp [bruteForceI, List.range_succ, List.range', bruteStepI, hd]
  rcases List.perm_pair.1 s1 with h | h
  · rw [h]; exact key _ _ hne d1
  · rw [h]; exact key _ _ hne.symm d2

theorem maxFold {poly : List (Vec Int 2)} (hw : D < 2 ^ (w - 1)) (hW : 2 * (D * D) < 2 ^ (W - 1)) (hb : ∀ p ∈ poly, InBox o D p)
    {M : F} : ∀ (pairs : List (Nat × Nat)) (res : F),
      (∀ x ∈ pairs, ∃ p q, poly[x.1]? = some p ∧ poly[x.2]? = some q ∧ root (dist2 p q) ≤ M) → res ≤ M →
      (res = M ∨ ∃ x ∈ pairs, ∃ p q, poly[x.1]? = some p ∧ poly[x.2]? = some q ∧ root (dist2 p q) = M) →
      pairs.foldlM (maxStepI root w W poly) res = some M
  | [], res, _, _, h => by
    rcases h with h | ⟨x, hx, -⟩
    · rw [h]; rfl
    · cases hx
  | x :: xs, res, hx, hle, h => by
    obtain ⟨p, q, hp, hq, hpq⟩ := hx x List.mem_cons_self
    have e : maxStepI root w W poly res x = some (if res < root (dist2 p q) then root (dist2 p q) else res) := by
      rw [maxStepI, hp, hq, Option.bind_some, Option.bind_some,
        distancePointI_box hw hW (hb p (List.mem_of_getElem? hp)) (hb q (List.mem_of_getElem? hq))]
      rfl
    rw [List.foldlM_cons, e]
    refine maxFold hw hW hb xs _ (fun y hy => hx y (List.mem_cons_of_mem _ hy)) ?_ ?_
    · split_ifs
      · exact hpq
      · exact hle
    · rcases h with h | ⟨y, hy, p', q', hp', hq', h⟩
      · left
        rw [if_neg (by rw [h]; exact not_lt.2 hpq), h]
      · rcases List.mem_cons.1 hy with rfl | hy
        · left
          rw [hp] at hp'
          rw [hq] at hq'
          cases hp'
          cases hq'
          rw [h]
          split_ifs with hl
          · rfl
          · exact le_antisymm hle (not_lt.1 hl)
        · exact Or.inr ⟨y, hy, p', q', hp', hq', h⟩

theorem dist2_exact (p q : Vec Int 2) : dist2 (exact p : Vec ℚ 2) (exact q) = (dist2 p q : Int) := by
  simp [dist2, exact]

/-- C135. `max_distance` of a strictly convex polygon overflows nowhere: the root of the greatest squared distance of two vertices. -/
theorem maxDistance_int_box (hr : RootOf root conv D) (hz : 0 ≤ root 0) (hw : D < 2 ^ (w - 1)) (hW : 2 * (D * D) < 2 ^ (W - 1))
    {poly : List (Vec Int 2)} (hb : ∀ p ∈ poly, InBox o D p) (hc : StrictlyConvex (poly.map (exact : Vec Int 2 → Vec ℚ 2))) :
    ∃ p ∈ poly, ∃ q ∈ poly, maxDistanceI root w W poly = some (root (dist2 p q)) ∧
      ∀ v ∈ poly, ∀ u ∈ poly, dist2 v u ≤ dist2 p q := by
  obtain ⟨pairs, e, hrange, x, hx, hmax⟩ := antipodal_furthest hc
  rw [List.length_map] at hrange
  have hD : D * D < 2 ^ (W - 1) := by nlinarith [mul_self_nonneg D]
  have get : ∀ i, i < poly.length → ∃ p ∈ poly, poly[i]? = some p := fun i hi =>
    ⟨poly[i], List.getElem_mem hi, List.getElem?_eq_getElem hi⟩
  obtain ⟨p, hp, ep⟩ := get x.1 (hrange x hx).1
  obtain ⟨q, hq, eq⟩ := get x.2 (hrange x hx).2
  have hmax' : ∀ v ∈ poly, ∀ u ∈ poly, dist2 v u ≤ dist2 p q := by
    intro v hv u hu
    have := hmax _ (List.mem_map_of_mem hv) _ (List.mem_map_of_mem hu)
    rw [vert_exact ep, vert_exact eq, dist2_exact, dist2_exact] at this
    exact_mod_cast this
  refine ⟨p, hp, q, hq, ?_, hmax'⟩
  have hbpq := dist2_box (hb p hp) (hb q hq)
  rw [maxDistanceI, antipodalVertices_box hw hD hb hc, e, Option.bind_some]
  refine maxFold hw hW hb pairs 0 (fun y hy => ?_) ?_ ?_
  · obtain ⟨p', hp', ep'⟩ := get y.1 (hrange y hy).1
    obtain ⟨q', hq', eq'⟩ := get y.2 (hrange y hy).2
    exact ⟨p', q', ep', eq', hr.mono _ _ (dist2_box (hb p' hp') (hb q' hq')).1 (hmax' p' hp' q' hq') hbpq.2⟩
  · exact hz.trans (hr.mono _ _ le_rfl hbpq.1 hbpq.2)
  · exact Or.inr ⟨x, hx, p, q, ep, eq, rfl⟩

/-- C135. The bound is exact: half of a larger square overflows. -/
theorem maxDistance_int_overflow (hw : D < 2 ^ (w - 1)) (hD : D * D < 2 ^ (W - 1)) (hW : 2 ^ (W - 1) ≤ 2 * (D * D)) (h0 : 0 < D)
    (o : Vec Int 2) : maxDistanceI root w W [o, ![o 0 + D, o 1], ![o 0 + D, o 1 + D]] = none := by
  obtain ⟨d1, d2⟩ := distancePointI_overflow (root := root) hw hW o h0.le
  have hb : ∀ p ∈ [o, ![o 0 + D, o 1], ![o 0 + D, o 1 + D]], InBox o D p := by
    intro p hp
    simp only [List.mem_cons, List.not_mem_nil, or_false] at hp
    rcases hp with rfl | rfl | rfl <;> simp [InBox, h0.le]
  have h0' : (0 : ℚ) < D := by exact_mod_cast h0
  have hc : StrictlyConvex ([o, ![o 0 + D, o 1], ![o 0 + D, o 1 + D]].map (exact : Vec Int 2 → Vec ℚ 2)) :=
    strictlyConvex_triangle (by simp [StrictLeft, exact, h0'])
  obtain ⟨pairs, e, hrange, x, hx, hmax⟩ := antipodal_furthest hc
  rw [maxDistanceI, antipodalVertices_box hw hD hb hc, e, Option.bind_some]
  have hm := hmax (exact o) (by simp) (exact ![o 0 + D, o 1 + D]) (by simp)
  have hs : ∀ res : F, maxStepI root w W [o, ![o 0 + D, o 1], ![o 0 + D, o 1 + D]] res x = none := by
    intro res
    obtain ⟨i, j⟩ := x
    have hij := hrange _ hx
    simp only [List.length_map, List.length_cons, List.length_nil] at hij
    obtain ⟨hi, hj⟩ := hij
    rw [maxStepI]
    interval_cases i <;> interval_cases j <;>
      first
        | (simp [d1]; done)
        | (simp [d2]; done)
        | (exfalso
           simp [polyAt, dist2, exact] at hm
           nlinarith)
  clear hmax hrange e
  revert hx
  generalize (0 : F) = res
  induction pairs generalizing res with
  | nil => intro hx; cases hx
  | cons y ys ih =>
    intro hx
    rw [List.foldlM_cons]
    rcases List.mem_cons.1 hx with rfl | hx
    · rw [hs]; rfl
    · cases maxStepI root w W [o, ![o 0 + D, o 1], ![o 0 + D, o 1 + D]] res y with
      | none => rfl
      | some r => exact ih r hx

end Order

/-! ### The rounded root -/

variable {F : Type*} [Field F] [LinearOrder F] [IsStrictOrderedRing F] [Archimedean F]
variable {fl : F → F} {u : F} {root : Int → F} {w W : Nat} {o : Vec Int 2} {D : Int}

/-- The root is the root of the number rounded by `fl`: it is not on the wrong side of anything rounded. -/
def RoundedRoot (fl : F → F) (root : Int → F) : Prop :=
  ∀ (x : Int) (y : F), 0 ≤ x → 0 ≤ y → (y * y ≤ x → fl y ≤ root x) ∧ (x ≤ y * y → root x ≤ fl y)

theorem sq_btwn {a b : F} (h : a < b) (hb : 0 < b) : ∃ y : F, 0 < y ∧ a < y * y ∧ y * y < b := by
  obtain ⟨q, h1, h2, h3⟩ := exists_rat_pow_btwn (two_ne_zero) h hb
  exact ⟨q, by exact_mod_cast h1, by rwa [← pow_two], by rwa [← pow_two]⟩

theorem RoundedRoot.rootOf (h : RoundedRoot fl root) (D : Int) : RootOf root (fun x => fl x) D where
  mono x y h0 hxy _ := by
    rcases eq_or_lt_of_le hxy with rfl | hlt
    · exact le_rfl
    · have h1 : (x : F) < y := by exact_mod_cast hlt
      obtain ⟨z, z0, z1, z2⟩ := sq_btwn h1 (by exact_mod_cast lt_of_le_of_lt h0 hlt)
      exact ((h x z h0 z0.le).2 z1.le).trans ((h y z (h0.trans hxy) z0.le).1 z2.le)
  conv_le x h0 _ := (h (x * x) x (mul_self_nonneg x) (by exact_mod_cast h0)).1 (by push_cast; exact le_rfl)

theorem RoundedRoot.strict (h : RoundedRoot fl root) (hf : SignedRounding fl u) {N : Int}
    (hN : (1 + u) ^ 2 * N < (1 - u) ^ 2 * (N + 1)) {x y : Int} (h0 : 0 ≤ x) (hxy : x < y) (hy : y ≤ N) : root x < root y := by
  have hu := hf.nonneg
  have hu1 : 0 < 1 - u := sub_pos.2 hf.small
  have hu2 : 0 < 1 + u := by linarith
  have hx : (x : F) ≤ N := by exact_mod_cast hxy.le.trans hy
  have hx0 : (0 : F) ≤ x := by exact_mod_cast h0
  have hy1 : (x : F) + 1 ≤ y := by exact_mod_cast hxy
  have hlt : (1 + u) ^ 2 * x < (1 - u) ^ 2 * y := by
    have h1 : (1 - u) ^ 2 ≤ (1 + u) ^ 2 := by nlinarith
    have h2 : 0 < (1 - u) ^ 2 := by positivity
    nlinarith [mul_le_mul_of_nonneg_left hy1 h2.le, mul_le_mul_of_nonneg_left hx (sub_nonneg.2 h1)]
  have hp : (0 : F) < y := by linarith
  obtain ⟨y1, p1, a1, a2⟩ := sq_btwn (a := (x : F)) (b := (1 - u) ^ 2 * y / (1 + u) ^ 2)
    (by rw [lt_div_iff₀ (by positivity)]; linarith) (by positivity)
  rw [lt_div_iff₀ (by positivity)] at a2
  obtain ⟨y2, p2, b1, b2⟩ := sq_btwn (a := (1 + u) ^ 2 * (y1 * y1) / (1 - u) ^ 2) (b := (y : F))
    (by rw [div_lt_iff₀ (by positivity)]; linarith) hp
  rw [div_lt_iff₀ (by positivity)] at b1
  have key : (1 + u) * y1 < (1 - u) * y2 := by
    refine lt_of_pow_lt_pow_left₀ 2 (by positivity) ?_
    nlinarith
  have n1 := (abs_le.1 (hf.near y1)).2
  have n2 := (abs_le.1 (hf.near y2)).1
  rw [abs_of_pos p1] at n1
  rw [abs_of_pos p2] at n2
  have r1 := (h x y1 h0 p1.le).2 a1.le
  have r2 := (h y y2 (h0.trans hxy.le) p2.le).1 b2.le
  linarith

/-- C135. The root is rounded to a floating point type, and the box is small compared with its precision: the pair is a closest one. -/
theorem nearest_int_rounded (h : RoundedRoot fl root) (hf : SignedRounding fl u)
    (hN : (1 + u) ^ 2 * (2 * (D * D) : Int) < (1 - u) ^ 2 * ((2 * (D * D) : Int) + 1)) (hw : D < 2 ^ (w - 1))
    (hW : 2 * (D * D) < 2 ^ (W - 1)) (alg : StdAlgorithms (Vec Int 2)) (ha : alg.Correct) (points : List (Vec Int 2))
    (hb : ∀ p ∈ points, InBox o D p) (h2 : 2 ≤ points.length) :
    ∃ a b points', nearestPairI root (fun x => fl x) w W alg points = some ((a, b), points') ∧ points'.Perm points ∧
      ClosestPair points a b :=
  nearest_int_closest (h.rootOf D) (fun _ _ h0 hxy hy => h.strict hf hN h0 hxy hy) hw hW alg ha points hb h2

/-- C135. Whatever the precision, no pair is closer by more than the error of two roots. -/
theorem nearest_int_near (h : RoundedRoot fl root) (hf : SignedRounding fl u) (hw : D < 2 ^ (w - 1))
    (hW : 2 * (D * D) < 2 ^ (W - 1)) (alg : StdAlgorithms (Vec Int 2)) (ha : alg.Correct) (points : List (Vec Int 2))
    (hb : ∀ p ∈ points, InBox o D p) (h2 : 2 ≤ points.length) :
    ∃ a b points', nearestPairI root (fun x => fl x) w W alg points = some ((a, b), points') ∧ points'.Perm points ∧
      PairIn points a b ∧ ∀ c d, PairIn points c d →
        (1 - u) ^ 2 * (dist2 a b : Int) ≤ (1 + u) ^ 2 * (dist2 c d : Int) := by
  have mem : ∀ {c d}, PairIn points c d → InBox o D c ∧ InBox o D d := by
    rintro c d ⟨rest, hr⟩
    exact ⟨hb c (hr.mem_iff.2 (by simp)), hb d (hr.mem_iff.2 (by simp))⟩
  obtain ⟨a, b, points', e, h1, h3, h4⟩ := nearest_int_box (h.rootOf D) hw hW alg ha points hb h2
  refine ⟨a, b, points', e, h1, h3, fun c d hcd => ?_⟩
  have hcd' := (dist2_box (mem hcd).1 (mem hcd).2).1
  have hab := (dist2_box (mem h3).1 (mem h3).2).1
  have hle := h4 c d hcd
  generalize dist2 a b = x at *
  generalize dist2 c d = y at *
  by_contra hn
  have hlt := not_le.1 hn
  have hu := hf.nonneg
  have hu1 : 0 < 1 - u := sub_pos.2 hf.small
  have hu2 : 0 < 1 + u := by linarith
  have hy0 : (0 : F) ≤ y := by exact_mod_cast hcd'
  have hp : (0 : F) < x := by
    by_contra hx
    have : (1 - u) ^ 2 * (x : F) ≤ 0 := mul_nonpos_of_nonneg_of_nonpos (by positivity) (not_lt.1 hx)
    have : 0 ≤ (1 + u) ^ 2 * (y : F) := by positivity
    linarith
  obtain ⟨y1, p1, a1, a2⟩ := sq_btwn (a := (y : F)) (b := (1 - u) ^ 2 * x / (1 + u) ^ 2)
    (by rw [lt_div_iff₀ (by positivity)]; linarith) (by positivity)
  rw [lt_div_iff₀ (by positivity)] at a2
  obtain ⟨y2, p2, b1, b2⟩ := sq_btwn (a := (1 + u) ^ 2 * (y1 * y1) / (1 - u) ^ 2) (b := (x : F))
    (by rw [div_lt_iff₀ (by positivity)]; linarith) hp
  rw [div_lt_iff₀ (by positivity)] at b1
  have key : (1 + u) * y1 < (1 - u) * y2 := by
    refine lt_of_pow_lt_pow_left₀ 2 (by positivity) ?_
    nlinarith
  have n1 := (abs_le.1 (hf.near y1)).2
  have n2 := (abs_le.1 (hf.near y2)).1
  rw [abs_of_pos p1] at n1
  rw [abs_of_pos p2] at n2
  have r1 := (h y y1 hcd' p1.le).2 a1.le
  have r2 := (h x y2 hab p2.le).1 b2.le
  linarith

/-- C135. The roots of the distances of the next theorem, rounded to `double`. -/
theorem root_double {root : Int → ℚ} (h : RoundedRoot (roundSigned 53) root) :
    root (2 ^ 54) = 2 ^ 27 ∧ root (2 ^ 54 + 1) = 2 ^ 27 ∧ 2 ^ 27 ≤ root (2 ^ 56 + 1) := by
  have v1 : root (2 ^ 54) = 2 ^ 27 := by
    have h1 := h (2 ^ 54) (2 ^ 27) (by norm_num) (by norm_num)
    have e : roundSigned 53 (2 ^ 27) = 2 ^ 27 := by decide +kernel
    rw [e] at h1
    exact le_antisymm (h1.2 (by norm_num)) (h1.1 (by norm_num))
  have v2 : root (2 ^ 54 + 1) = 2 ^ 27 := by
    have h1 := h (2 ^ 54 + 1) (2 ^ 27) (by norm_num) (by norm_num)
    have h2 := h (2 ^ 54 + 1) (2 ^ 27 + 1 / 2 ^ 28) (by norm_num) (by norm_num)
    have e : roundSigned 53 (2 ^ 27) = 2 ^ 27 := by decide +kernel
    have e' : roundSigned 53 (2 ^ 27 + 1 / 2 ^ 28) = 2 ^ 27 := by decide +kernel
    rw [e] at h1
    rw [e'] at h2
    exact le_antisymm (h2.2 (by norm_num)) (h1.1 (by norm_num))
  refine ⟨v1, v2, ?_⟩
  rw [← v1]
  exact (h.rootOf (2 ^ 28)).mono _ _ (by norm_num) (by norm_num) (by norm_num)

/-- C135 does not hold without a bound by the precision: coordinates of 64 bits, products that do not overflow and roots rounded to
`double` (`root_double`); the pair returned is not a closest one. -/
theorem nearest_int_fails {root conv : Int → ℚ} (v1 : root (2 ^ 54) = 2 ^ 27) (v2 : root (2 ^ 54 + 1) = 2 ^ 27)
    (hv3 : 2 ^ 27 ≤ root (2 ^ 56 + 1)) (alg : StdAlgorithms (Vec Int 2)) (ha : alg.Correct) :
    ∃ a b points', nearestPairI root conv 64 64 alg [![0, 1], ![2 ^ 27, 0], ![2 ^ 28, 0]] = some ((a, b), points') ∧
      ¬ ClosestPair [![0, 1], ![2 ^ 27, 0], ![2 ^ 28, 0]] a b := by
  obtain ⟨s1, s2⟩ := ha.2 less [![0, 1], ![2 ^ 27, 0], ![2 ^ 28, 0]] (less_strictWeakI _)
  have es : alg.sort less [![0, 1], ![2 ^ 27, 0], ![2 ^ 28, 0]] = [![0, 1], ![2 ^ 27, 0], ![2 ^ 28, 0]] := by
    have hw : ([![0, 1], ![2 ^ 27, 0], ![2 ^ 28, 0]] : List (Vec Int 2)).Pairwise fun a b => a 0 ≤ b 0 := by decide
    refine List.Perm.eq_of_pairwise ?_ (s2.imp fun h => less_first h) hw s1
    intro a b hA hB h1 h2
    rw [s1.mem_iff] at hA
    simp only [List.mem_cons, List.not_mem_nil, or_false] at hA hB
    rcases hA with rfl | rfl | rfl <;> rcases hB with rfl | rfl | rfl <;> first | rfl | (exfalso; revert h1 h2; decide)
  have hd : ∀ p q : Vec Int 2, InBox ![0, 0] (2 ^ 28) p → InBox ![0, 0] (2 ^ 28) q →
      distancePointI root 64 64 p q = some (root (dist2 p q)) := fun p q hp hq =>
    distancePointI_box (by norm_num) (by norm_num) hp hq
  have d1 := hd ![0, 1] ![2 ^ 27, 0] (by unfold InBox; decide) (by unfold InBox; decide)
  have d2 := hd ![0, 1] ![2 ^ 28, 0] (by unfold InBox; decide) (by unfold InBox; decide)
  have d3 := hd ![2 ^ 27, 0] ![2 ^ 28, 0] (by unfold InBox; decide) (by unfold InBox; decide)
  have q1 : dist2 (![0, 1] : Vec Int 2) ![2 ^ 27, 0] = 2 ^ 54 + 1 := by rw [dist2_int]; norm_num
  have q2 : dist2 (![0, 1] : Vec Int 2) ![2 ^ 28, 0] = 2 ^ 56 + 1 := by rw [dist2_int]; norm_num
  have q3 : dist2 (![2 ^ 27, 0] : Vec Int 2) ![2 ^ 28, 0] = 2 ^ 54 := by rw [dist2_int]; norm_num
  rw [q1, v2] at d1
  rw [q2] at d2
  rw [q3, v1] at d3
  refine ⟨![0, 1], ![2 ^ 27, 0], alg.sort yLess [![0, 1], ![2 ^ 27, 0], ![2 ^ 28, 0]], ?_, ?_⟩
  · rw [nearestPairI, if_neg (by simp), es]
    have en : equalNeighbours ([![0, 1], ![2 ^ 27, 0], ![2 ^ 28, 0]] : List (Vec Int 2)) = none := by decide +kernel
    rw [en]
    simp only
    rw [nearestRecI, if_pos (by simp)]
    have eb : ∀ (a b c : Vec Int 2) (x y : ℚ), distancePointI root 64 64 a b = some x → distancePointI root 64 64 a c = some y →
        distancePointI root 64 64 b c = some x → x ≤ y → bruteForceI root 64 64 [a, b, c] = some (x, a, b) := by
      intro a b c x y e1 e2 e3 hxy
      simp [bruteForceI, List.range_succ, List.range', bruteStepI, e1, e2, e3, not_lt.2 hxy]
    rw [eb _ _ _ _ _ d1 d2 d3 hv3]
    rfl
  · rintro ⟨-, hc⟩
    have := hc ![2 ^ 27, 0] ![2 ^ 28, 0] ⟨[![0, 1]], (List.Perm.swap _ _ _).trans ((List.Perm.swap _ _ _).cons _)⟩
    rw [q1, q3] at this
    norm_num at this

/-! ### Examples -/

/-- The roots of the real numbers, rounded: a correct root, and six points of `int` with products of `long long`. -/
theorem roundedRoot_real {c : ℝ} (hc : 0 ≤ c) : RoundedRoot (fun y => y * c) fun x => Real.sqrt x * c := by
  intro x y hx hy
  constructor
  · intro h
    exact mul_le_mul_of_nonneg_right (Real.le_sqrt_of_sq_le (by rw [pow_two]; exact h)) hc
  · intro h
    exact mul_le_mul_of_nonneg_right (Real.sqrt_le_iff.2 ⟨hy, by rw [pow_two]; exact h⟩) hc

example : ∃ a b points', nearestPairI (fun x : Int => Real.sqrt x * (1 + 1 / 2 ^ 53)) (fun x : Int => (x : ℝ) * (1 + 1 / 2 ^ 53)) 32 64
    (listAlgorithms (Vec Int 2)) [![0, 0], ![3, 1], ![1, 5], ![7, 2], ![3, 2], ![9, 9]] = some ((a, b), points') ∧
      ClosestPair [![0, 0], ![3, 1], ![1, 5], ![7, 2], ![3, 2], ![9, 9]] a b := by
  obtain ⟨a, b, points', h1, -, h2⟩ := nearest_int_rounded (roundedRoot_real (c := 1 + 1 / 2 ^ 53) (by positivity))
    (u := 1 / 2 ^ 53) (o := ![0, 0]) (D := 2 ^ 24) (w := 32) (W := 64) ⟨by positivity, by norm_num, fun y => by
      rw [show y * (1 + 1 / 2 ^ 53) - y = 1 / 2 ^ 53 * y by ring, abs_mul, abs_of_pos (by positivity : (0 : ℝ) < 1 / 2 ^ 53)]⟩
    (by norm_num) (by norm_num) (by norm_num) (listAlgorithms _) (listAlgorithms_correct _)
    [![0, 0], ![3, 1], ![1, 5], ![7, 2], ![3, 2], ![9, 9]] (by unfold InBox; decide) (by simp)
  exact ⟨a, b, points', h1, h2⟩

/-- Roots with the values of `root_double`. -/
example : Rat.sqrt (2 ^ 54) = 2 ^ 27 ∧ Rat.sqrt (2 ^ 54 + 1) = 2 ^ 27 ∧ 2 ^ 27 ≤ Rat.sqrt (2 ^ 56 + 1) := by decide +kernel

/-- A triangle of `int`. -/
example : ∃ p ∈ [![0, 0], ![4, 0], (![1, 3] : Vec Int 2)], ∃ q ∈ [![0, 0], ![4, 0], (![1, 3] : Vec Int 2)],
    maxDistanceI (fun x : Int => Real.sqrt x) 32 64 [![0, 0], ![4, 0], ![1, 3]] = some (Real.sqrt (dist2 p q : Int)) ∧
      ∀ v ∈ [![0, 0], ![4, 0], ![1, 3]], ∀ u ∈ [![0, 0], ![4, 0], ![1, 3]], dist2 v u ≤ dist2 p q := by
  have h := roundedRoot_real (c := 1) zero_le_one
  simp only [mul_one] at h
  exact maxDistance_int_box (h.rootOf 4) (o := ![0, 0]) (by simp) (by norm_num) (by norm_num) (by unfold InBox; decide)
    (strictlyConvex_triangle (by simp [StrictLeft, exact]))

end Actl.Geo
