import Verif.Model.FloatProject
import Verif.Spec.FloatProject
import Verif.Lemmas.FloatLines
import Verif.Props.Distance

/-! Lemmas for C132. -/

namespace Actl.Geo

variable {F : Type*} [Field F] [LinearOrder F] [IsStrictOrderedRing F]
variable {fl : F → F} {u : F} {n : Nat}

theorem grow_nonneg (hu : 0 ≤ u) (k : Nat) : 0 ≤ grow u k := sub_nonneg.2 (one_le_pow₀ (by linarith))

theorem grow_mono (hu : 0 ≤ u) {k m : Nat} (h : k ≤ m) : grow u k ≤ grow u m :=
  sub_le_sub_right (pow_le_pow_right₀ (by linarith) h) 1

theorem sum_error (h : SignedRounding fl u) {x x' d : F} (hx : |x' - x| ≤ d) : |fl x' - x| ≤ sumError u x d := by
  have h1 := h.near x'
  have h2 : |x'| ≤ |x| + d := by
    have := abs_sub_abs_le_abs_sub x' x
    linarith
  have h3 := mul_le_mul_of_nonneg_left h2 h.nonneg
  have h4 : |fl x' - x| ≤ |fl x' - x'| + |x' - x| := by
    rw [show fl x' - x = (fl x' - x') + (x' - x) by ring]
    exact abs_add_le _ _
  unfold sumError
  linarith

theorem sum_fold_error (h : SignedRounding fl u) {ι : Type*} (a : ι → F) : ∀ (l : List ι) (acc : F),
    |l.foldl (fun res i => fl (res + fl (a i))) acc - (acc + (l.map a).sum)| ≤
      grow u l.length * |acc| + grow u (l.length + 1) * (l.map fun i => |a i|).sum
  | [], acc => by simp [grow]
  | i :: l, acc => by
    have hu := h.nonneg
    obtain ⟨q, e1, h1⟩ := h.factor (a i)
    obtain ⟨r, e2, h2⟩ := h.factor (acc + fl (a i))
    have h3 : |q * r - 1| ≤ (1 + u) ^ 2 - 1 := factor_mul hu h1 h2
    have ih := sum_fold_error h a l (fl (acc + fl (a i)))
    rw [List.foldl_cons, List.length_cons, List.map_cons, List.sum_cons, List.map_cons, List.sum_cons]
    set acc1 := fl (acc + fl (a i)) with hacc
    have e3 : acc1 = acc * r + a i * (q * r) := by
      rw [e2, e1]
      ring
    have d1 : |acc1 - (acc + a i)| ≤ u * |acc| + grow u 2 * |a i| := by
      rw [e3, show acc * r + a i * (q * r) - (acc + a i) = acc * (r - 1) + a i * (q * r - 1) by ring]
      refine (abs_add_le _ _).trans ?_
      rw [abs_mul, abs_mul]
      have t1 := mul_le_mul_of_nonneg_left h2 (abs_nonneg acc)
      have t2 := mul_le_mul_of_nonneg_left h3 (abs_nonneg (a i))
      rw [pow_one, add_sub_cancel_left] at t1
      unfold grow
      linarith
    have d2 : |acc1| ≤ (1 + u) * |acc| + (1 + u) ^ 2 * |a i| := by
      have t1 := abs_sub_abs_le_abs_sub acc1 (acc + a i)
      have t2 := abs_add_le acc (a i)
      unfold grow at d1
      linarith
    have hS : 0 ≤ (l.map fun i => |a i|).sum := List.sum_nonneg (by
      intro x hx
      obtain ⟨j, -, rfl⟩ := List.mem_map.1 hx
      exact abs_nonneg _)
    have d3 := mul_le_mul_of_nonneg_left d2 (grow_nonneg hu l.length)
    have d4 := mul_le_mul_of_nonneg_right (grow_mono hu (Nat.le_succ (l.length + 1))) hS
    have d5 : |l.foldl (fun res i => fl (res + fl (a i))) acc1 - (acc + (a i + (l.map a).sum))| ≤
        |l.foldl (fun res i => fl (res + fl (a i))) acc1 - (acc1 + (l.map a).sum)| + |acc1 - (acc + a i)| := by
      rw [show l.foldl (fun res i => fl (res + fl (a i))) acc1 - (acc + (a i + (l.map a).sum)) =
        (l.foldl (fun res i => fl (res + fl (a i))) acc1 - (acc1 + (l.map a).sum)) + (acc1 - (acc + a i)) by ring]
      exact abs_add_le _ _
    have e4 : grow u (l.length + 1) * |acc| = grow u l.length * ((1 + u) * |acc|) + u * |acc| := by
      unfold grow
      ring
    have e5 : grow u (l.length + 1 + 1) * |a i| = grow u l.length * ((1 + u) ^ 2 * |a i|) + grow u 2 * |a i| := by
      unfold grow
      ring
    rw [mul_add] at d3
    rw [mul_add, e4, e5]
    have d6 : grow u (l.length + 1) * (l.map fun i => |a i|).sum ≤ grow u (l.length + 1 + 1) * (l.map fun i => |a i|).sum := d4
    linarith

theorem dot_error (h : SignedRounding fl u) (p q : Vec F n) : |dotR fl p q - inner p q| ≤ grow u (n + 1) * absInner p q := by
  have e := sum_fold_error h (fun i => p i * q i) (List.finRange n) 0
  rw [abs_zero, mul_zero, zero_add, zero_add, List.length_finRange] at e
  have e1 : ((List.finRange n).map fun i => p i * q i).sum = inner p q := by rw [inner, Fin.sum_univ_def]
  have e2 : ((List.finRange n).map fun i => |p i * q i|).sum = absInner p q := by rw [absInner, Fin.sum_univ_def]
  rw [e1, e2] at e
  exact e

theorem absInner_self (v : Vec F n) : absInner v v = inner v v :=
  Finset.sum_congr rfl fun i _ => abs_of_nonneg (mul_self_nonneg (v i))

theorem absInner_nonneg (p q : Vec F n) : 0 ≤ absInner p q := Finset.sum_nonneg fun _ _ => abs_nonneg _

theorem dot_self_error (h : SignedRounding fl u) (v : Vec F n) : |dotR fl v v - inner v v| ≤ grow u (n + 1) * inner v v := by
  have := dot_error h v v
  rwa [absInner_self] at this

/-- A product with a difference, which has been rounded up to an error `e i` beyond its own rounding. -/
theorem dot_sub_error (h : SignedRounding fl u) (p a v : Vec F n) :
    |dotR fl (subV fl p a) v - inner (p - a) v| ≤ grow u (n + 2) * absInner (p - a) v := by
  have hu := h.nonneg
  have e1 := dot_error h (subV fl p a) v
  have t : ∀ i, |subV fl p a i * v i - (p - a) i * v i| ≤ u * |(p - a) i * v i| ∧
      |subV fl p a i * v i| ≤ (1 + u) * |(p - a) i * v i| := by
    intro i
    have h1 : |subV fl p a i * v i - (p - a) i * v i| ≤ u * |(p - a) i * v i| := by
      rw [← sub_mul, abs_mul, abs_mul, ← mul_assoc]
      exact mul_le_mul_of_nonneg_right (h.near (p i - a i)) (abs_nonneg _)
    have h2 := abs_sub_abs_le_abs_sub (subV fl p a i * v i) ((p - a) i * v i)
    exact ⟨h1, by linarith⟩
  have e2 : |inner (subV fl p a) v - inner (p - a) v| ≤ u * absInner (p - a) v := by
    rw [inner, inner, ← Finset.sum_sub_distrib, absInner, Finset.mul_sum]
    exact (Finset.abs_sum_le_sum_abs _ _).trans (Finset.sum_le_sum fun i _ => (t i).1)
  have e3 : absInner (subV fl p a) v ≤ (1 + u) * absInner (p - a) v := by
    rw [absInner, absInner, Finset.mul_sum]
    exact Finset.sum_le_sum fun i _ => (t i).2
  have e4 := mul_le_mul_of_nonneg_left e3 (grow_nonneg hu (n + 1))
  have e5 : |dotR fl (subV fl p a) v - inner (p - a) v| ≤
      |dotR fl (subV fl p a) v - inner (subV fl p a) v| + |inner (subV fl p a) v - inner (p - a) v| := by
    rw [show dotR fl (subV fl p a) v - inner (p - a) v =
      (dotR fl (subV fl p a) v - inner (subV fl p a) v) + (inner (subV fl p a) v - inner (p - a) v) by ring]
    exact abs_add_le _ _
  have e6 : grow u (n + 2) * absInner (p - a) v = grow u (n + 1) * ((1 + u) * absInner (p - a) v) + u * absInner (p - a) v := by
    unfold grow
    ring
  linarith

theorem pointError_eq (s v t e : F) : pointError u s v t e = sumError u (s + t * v) (e * |v| + u * ((|t| + e) * |v|)) := rfl

theorem scale_error (h : SignedRounding fl u) {v t t' e : F} (ht : |t' - t| ≤ e) :
    |fl (t' * v) - t * v| ≤ e * |v| + u * ((|t| + e) * |v|) := by
  have h1 : |t'| ≤ |t| + e := by
    have := abs_sub_abs_le_abs_sub t' t
    linarith
  have a1 := h.near (t' * v)
  rw [abs_mul] at a1
  have a2 : |t' * v - t * v| ≤ e * |v| := by
    rw [← sub_mul, abs_mul]
    exact mul_le_mul_of_nonneg_right ht (abs_nonneg _)
  have a3 := mul_le_mul_of_nonneg_left (mul_le_mul_of_nonneg_right h1 (abs_nonneg v)) h.nonneg
  have a4 : |fl (t' * v) - t * v| ≤ |fl (t' * v) - t' * v| + |t' * v - t * v| := by
    rw [show fl (t' * v) - t * v = (fl (t' * v) - t' * v) + (t' * v - t * v) by ring]
    exact abs_add_le _ _
  linarith

/-- The parameter of the foot of the perpendicular. -/
theorem foot_error (h : SignedRounding fl u) (p : Vec F n) (l : Line F n) (hv : l.vector ≠ 0) (hn : grow u (n + 1) < 1) :
    |projectScalarR fl p l - inner (p - l.start) l.vector / inner l.vector l.vector| ≤
      footError u (p - l.start) l.vector (inner (p - l.start) l.vector / inner l.vector l.vector) := by
  have hN := inner_self_pos hv
  have h1 : grow u (n + 1) * inner l.vector l.vector < |inner l.vector l.vector| := by
    rw [abs_of_pos hN]
    exact mul_lt_of_lt_one_left hN hn
  exact quotient_error h (dot_sub_error h p l.start l.vector) (dot_self_error h l.vector) h1

theorem dotR_self_nonneg (h : SignedRounding fl u) (v : Vec F n) : 0 ≤ dotR fl v v := by
  have e := (fold_error h (fun i => v i * v i) (fun i => mul_self_nonneg (v i)) (List.finRange n) 0 le_rfl).1
  refine le_trans ?_ e
  have h1 : 0 ≤ 1 - u := sub_nonneg.2 h.small.le
  have hS : 0 ≤ ((List.finRange n).map fun i => v i * v i).sum := List.sum_nonneg (by
    intro x hx
    obtain ⟨j, -, rfl⟩ := List.mem_map.1 hx
    exact mul_self_nonneg _)
  rw [zero_add]
  exact mul_nonneg (pow_nonneg h1 _) (mul_nonneg h1 hS)

theorem normR_error (h : SignedRounding fl u) {sqrt : F → F} (hs : IsSqrt sqrt) (v : Vec F n) :
    |normR fl sqrt v - sqrt (inner v v)| ≤ grow u (n + 2) * sqrt (inner v v) := by
  have hu := h.nonneg
  have hN : 0 ≤ inner v v := Finset.sum_nonneg fun i _ => mul_self_nonneg (v i)
  obtain ⟨s0, s1⟩ := hs _ (dotR_self_nonneg h v)
  obtain ⟨r0, r1⟩ := hs _ hN
  have e := dot_self_error h v
  have hc := grow_nonneg hu (n + 1)
  have e1 : |sqrt (dotR fl v v) - sqrt (inner v v)| ≤ grow u (n + 1) * sqrt (inner v v) := by
    rcases r0.eq_or_lt with h0 | h0
    · have hz : inner v v = 0 := by rw [← r1, ← h0, mul_zero]
      rw [hz, mul_zero, sub_zero] at e
      have hz2 : dotR fl v v = 0 := abs_nonpos_iff.1 e
      rw [hz, hz2, sub_self, abs_zero]
      rw [hz] at r0
      exact mul_nonneg hc r0
    · have e2 : dotR fl v v - inner v v =
          (sqrt (dotR fl v v) - sqrt (inner v v)) * (sqrt (dotR fl v v) + sqrt (inner v v)) := by
        linear_combination -s1 + r1
      rw [e2, abs_mul, abs_of_nonneg (add_nonneg s0 r0)] at e
      have e3 : |sqrt (dotR fl v v) - sqrt (inner v v)| * sqrt (inner v v) ≤
          grow u (n + 1) * sqrt (inner v v) * sqrt (inner v v) := by
        rw [mul_assoc, r1]
        refine le_trans ?_ e
        exact mul_le_mul_of_nonneg_left (le_add_of_nonneg_left s0) (abs_nonneg _)
      exact le_of_mul_le_mul_right e3 h0
  have e4 := sum_error h e1
  refine le_trans e4 (le_of_eq ?_)
  unfold sumError grow
  rw [abs_of_nonneg r0]
  ring

theorem cauchy_abs (p q : Vec F n) : absInner p q ^ 2 ≤ inner p p * inner q q := by
  have e := Finset.sum_mul_sq_le_sq_mul_sq Finset.univ (fun i => |p i|) (fun i => |q i|)
  have e1 : absInner p q = ∑ i, |p i| * |q i| := Finset.sum_congr rfl fun i _ => abs_mul _ _
  have e2 : ∀ v : Vec F n, inner v v = ∑ i, |v i| ^ 2 := fun v =>
    Finset.sum_congr rfl fun i _ => by rw [sq_abs, sq]
  rw [e1, e2, e2]
  exact e

theorem abs_inner_le (p q : Vec F n) : |inner p q| ≤ absInner p q := Finset.abs_sum_le_sum_abs _ _

theorem sumError_mono (hu : 0 ≤ u) {x d e : F} (h : d ≤ e) : sumError u x d ≤ sumError u x e := by
  unfold sumError
  have := mul_le_mul_of_nonneg_left (add_le_add_right h |x|) hu
  linarith

theorem pointError_mono (hu : 0 ≤ u) {s v t d e : F} (h : d ≤ e) : pointError u s v t d ≤ pointError u s v t e := by
  rw [pointError_eq, pointError_eq]
  refine sumError_mono hu ?_
  have h1 := mul_le_mul_of_nonneg_right h (abs_nonneg v)
  have h2 := mul_le_mul_of_nonneg_left (mul_le_mul_of_nonneg_right (add_le_add_right h |t|) (abs_nonneg v)) hu
  linarith

theorem reflect_error (h : SignedRounding fl u) {q q' p e : F} (he : |q' - q| ≤ e) :
    |fl (fl ((1 + 1) * q') - p) - (2 * q - p)| ≤ sumError u (2 * q - p) (sumError u (2 * q) (2 * e)) := by
  have e1 : |(1 + 1) * q' - 2 * q| ≤ 2 * e := by
    rw [one_add_one_eq_two, ← mul_sub, abs_mul, abs_two]
    exact mul_le_mul_of_nonneg_left he zero_le_two
  have e2 := sum_error h e1
  refine sum_error h ?_
  rw [sub_sub_sub_cancel_right]
  exact e2

theorem eval_error (h : SignedRounding fl u) (pl : Plane F n) (p : Vec F n) : |evalR fl pl p - (inner pl.normal p - pl.d)| ≤
    sumError u (inner pl.normal p - pl.d) (grow u (n + 1) * absInner pl.normal p) := by
  refine sum_error h ?_
  rw [sub_sub_sub_cancel_right]
  exact dot_error h pl.normal p

theorem minus_error (h : SignedRounding fl u) {s v t t' e : F} (ht : |t' - t| ≤ e) :
    |fl (s - fl (t' * v)) - (s - t * v)| ≤ pointError u s v (-t) e := by
  have e1 := scale_error (v := v) h ht
  rw [pointError_eq, abs_neg, neg_mul, ← sub_eq_add_neg]
  refine sum_error h ?_
  rw [sub_sub_sub_cancel_left, abs_sub_comm]
  exact e1

theorem pointError_ge (hu : 0 ≤ u) {s v t e : F} (he : 0 ≤ e) : e * |v| ≤ pointError u s v t e := by
  have h1 : 0 ≤ u * ((|t| + e) * |v|) := mul_nonneg hu (mul_nonneg (add_nonneg (abs_nonneg _) he) (abs_nonneg _))
  have h2 : 0 ≤ e * |v| := mul_nonneg he (abs_nonneg _)
  have h3 : 0 ≤ u * (|s + t * v| + (e * |v| + u * ((|t| + e) * |v|))) :=
    mul_nonneg hu (add_nonneg (abs_nonneg _) (add_nonneg h2 h1))
  rw [pointError_eq]
  unfold sumError
  linarith

theorem start_error (hu : 0 ≤ u) {s v t e : F} (ht : |0 - t| ≤ e) : |s - (s + t * v)| ≤ pointError u s v t e := by
  refine le_trans ?_ (pointError_ge hu ((abs_nonneg _).trans ht))
  rw [show s - (s + t * v) = (0 - t) * v by ring, abs_mul]
  exact mul_le_mul_of_nonneg_right ht (abs_nonneg _)

theorem stop_error (h : SignedRounding fl u) {s v t e : F} (ht : |1 - t| ≤ e) : |fl (s + v) - (s + t * v)| ≤ pointError u s v t e := by
  have he : 0 ≤ e := (abs_nonneg _).trans ht
  have e1 : |s + v - (s + t * v)| ≤ e * |v| := by
    rw [show s + v - (s + t * v) = (1 - t) * v by ring, abs_mul]
    exact mul_le_mul_of_nonneg_right ht (abs_nonneg _)
  rw [pointError_eq]
  refine (sum_error h e1).trans (sumError_mono h.nonneg ?_)
  have : 0 ≤ u * ((|t| + e) * |v|) := mul_nonneg h.nonneg (mul_nonneg (add_nonneg (abs_nonneg _) he) (abs_nonneg _))
  linarith

theorem end_error (h : SignedRounding fl u) (p : Vec F n) (l : Line F n) :
    |dotR fl (subV fl p (stopV fl l)) l.vector - inner (p - (l.start + l.vector)) l.vector| ≤ endError u p l := by
  have hu := h.nonneg
  have e1 := dot_sub_error h p (stopV fl l) l.vector
  have t : ∀ i, |(p - stopV fl l) i * l.vector i - (p - (l.start + l.vector)) i * l.vector i| ≤
      u * |(l.start + l.vector) i * l.vector i| := by
    intro i
    rw [← sub_mul, abs_mul, abs_mul, ← mul_assoc]
    refine mul_le_mul_of_nonneg_right ?_ (abs_nonneg _)
    have e : (p - stopV fl l) i - (p - (l.start + l.vector)) i = (l.start + l.vector) i - fl ((l.start + l.vector) i) := by
      change (p i - fl (l.start i + l.vector i)) - (p i - (l.start i + l.vector i)) =
        (l.start i + l.vector i) - fl (l.start i + l.vector i)
      ring
    rw [e, abs_sub_comm]
    exact h.near _
  have e2 : |inner (p - stopV fl l) l.vector - inner (p - (l.start + l.vector)) l.vector| ≤
      u * absInner (l.start + l.vector) l.vector := by
    rw [inner, inner, ← Finset.sum_sub_distrib, absInner, Finset.mul_sum]
    exact (Finset.abs_sum_le_sum_abs _ _).trans (Finset.sum_le_sum fun i _ => t i)
  have e3 : absInner (p - stopV fl l) l.vector ≤
      absInner (p - (l.start + l.vector)) l.vector + u * absInner (l.start + l.vector) l.vector := by
    rw [absInner, absInner, absInner, Finset.mul_sum, ← Finset.sum_add_distrib]
    refine Finset.sum_le_sum fun i _ => ?_
    have := abs_sub_abs_le_abs_sub ((p - stopV fl l) i * l.vector i) ((p - (l.start + l.vector)) i * l.vector i)
    linarith [t i]
  have e4 := mul_le_mul_of_nonneg_left e3 (grow_nonneg hu (n + 2))
  have e5 : |dotR fl (subV fl p (stopV fl l)) l.vector - inner (p - (l.start + l.vector)) l.vector| ≤
      |dotR fl (subV fl p (stopV fl l)) l.vector - inner (p - stopV fl l) l.vector| +
        |inner (p - stopV fl l) l.vector - inner (p - (l.start + l.vector)) l.vector| := by
    rw [show dotR fl (subV fl p (stopV fl l)) l.vector - inner (p - (l.start + l.vector)) l.vector =
      (dotR fl (subV fl p (stopV fl l)) l.vector - inner (p - stopV fl l) l.vector) +
        (inner (p - stopV fl l) l.vector - inner (p - (l.start + l.vector)) l.vector) by ring]
    exact abs_add_le _ _
  unfold endError
  linarith

/-- The parameter of the nearest point, which is the foot of the perpendicular or an end. -/
theorem nearest_cases (p : Vec F n) (l : Line F n) (hv : l.vector ≠ 0) {t : F}
    (ht : t = inner (p - l.start) l.vector / inner l.vector l.vector) :
    ∃ s, Nearest (fun x => Touches x l) p (l.start + s • l.vector) ∧
      ((l.kind.first ≠ .free ∧ t ≤ 0 ∧ s = 0) ∨ (l.kind.last ≠ .free ∧ 1 ≤ t ∧ s = 1) ∨
        ((l.kind.first ≠ .free → 0 ≤ t) ∧ (l.kind.last ≠ .free → t ≤ 1) ∧ s = t)) := by
  have hN := inner_self_pos hv
  obtain ⟨x, x1, x2⟩ := nearestLine_correct p l (Or.inl hv)
  unfold nearestLine at x1
  simp only [dotSelf, dot_eq, inner_stop] at x1
  have htN : inner (p - l.start) l.vector = t * inner l.vector l.vector := by rw [ht, div_mul_cancel₀ _ hN.ne']
  rw [htN] at x1
  set N := inner l.vector l.vector with hNd
  have m0 : ¬ 0 < t * N → t ≤ 0 := fun hA => le_of_mul_le_mul_right (by linarith) hN
  have m0' : 0 < t * N → 0 ≤ t := fun hA => le_of_mul_le_mul_right (by linarith) hN
  have m1 : ¬ t * N - N < 0 → 1 ≤ t := fun hA => le_of_mul_le_mul_right (by linarith) hN
  have m1' : t * N - N < 0 → t ≤ 1 := fun hA => le_of_mul_le_mul_right (by linarith) hN
  by_cases c0 : l.kind.first ≠ .free ∧ ¬ 0 < t * N
  · rw [if_pos c0] at x1
    refine ⟨0, ?_, Or.inl ⟨c0.1, m0 c0.2, rfl⟩⟩
    rw [zero_smul, add_zero, Option.some.inj x1]
    exact x2
  · rw [if_neg c0] at x1
    by_cases c1 : l.kind.last ≠ .free ∧ ¬ t * N - N < 0
    · rw [if_pos c1] at x1
      refine ⟨1, ?_, Or.inr (Or.inl ⟨c1.1, m1 c1.2, rfl⟩)⟩
      have : l.start + l.vector = x := Option.some.inj x1
      rw [one_smul, this]
      exact x2
    · rw [if_neg c1, if_neg hN.ne'] at x1
      refine ⟨t, ?_, Or.inr (Or.inr ⟨fun hk => ?_, fun hk => ?_, rfl⟩)⟩
      · have e : projectScalar p l = t := by rw [projectScalar, dotSelf, dot_eq, dot_eq, ht]
        have e2 := Option.some.inj x1
        rw [projectLine, e] at e2
        have e3 : l.start + t • l.vector = x := e2
        rw [e3]
        exact x2
      · exact m0' (not_not.1 fun hc => c0 ⟨hk, hc⟩)
      · exact m1' (not_not.1 fun hc => c1 ⟨hk, hc⟩)

/-- What the signs of the rounded products tell about the parameter. -/
theorem side_cases {t N A0 A1 E0 E1 : F} (hN : 0 < N) (a0 : |A0 - t * N| ≤ E0) (a1 : |A1 - (t * N - N)| ≤ E1) :
    (A0 ≤ 0 → t ≤ E0 / N) ∧ (0 ≤ A0 → -(E0 / N) ≤ t) ∧ (0 ≤ A1 → 1 - E1 / N ≤ t) ∧ (A1 ≤ 0 → t ≤ 1 + E1 / N) := by
  have e0 : E0 = E0 / N * N := (div_mul_cancel₀ _ hN.ne').symm
  have e1 : E1 = E1 / N * N := (div_mul_cancel₀ _ hN.ne').symm
  obtain ⟨a0l, a0r⟩ := abs_le.1 a0
  obtain ⟨a1l, a1r⟩ := abs_le.1 a1
  refine ⟨fun hA => ?_, fun hA => ?_, fun hA => ?_, fun hA => ?_⟩ <;>
    exact le_of_mul_le_mul_right (by linarith) hN

/-- A parameter chosen from the signs of the rounded products is near that of the nearest point. -/
theorem wrong_case {P Q : Prop} {t t' s f b0 b1 : F} (p0 : 0 ≤ b0) (p1 : 0 ≤ b1) (hf : |t' - t| ≤ f)
    (hcase : (P ∧ t ≤ 0 ∧ s = 0) ∨ (Q ∧ 1 ≤ t ∧ s = 1) ∨ ((P → 0 ≤ t) ∧ (Q → t ≤ 1) ∧ s = t)) :
    (P → t ≤ b0 → |0 - s| ≤ f + (b0 + b1)) ∧ (Q → 1 - b1 ≤ t → |1 - s| ≤ f + (b0 + b1)) ∧
      ((P → -b0 ≤ t) → (Q → t ≤ 1 + b1) → |t' - s| ≤ f + (b0 + b1)) := by
  have pf : 0 ≤ f := (abs_nonneg _).trans hf
  obtain ⟨efl, efr⟩ := abs_le.1 hf
  refine ⟨fun hP hk => ?_, fun hQ hk => ?_, fun hk0 hk1 => ?_⟩
  · rcases hcase with ⟨-, h1, rfl⟩ | ⟨-, h1, rfl⟩ | ⟨h1, -, rfl⟩
    · rw [sub_zero, abs_zero]; linarith
    · rw [zero_sub, abs_neg, abs_one]; linarith
    · rw [zero_sub, abs_neg, abs_of_nonneg (h1 hP)]; linarith
  · rcases hcase with ⟨-, h1, rfl⟩ | ⟨-, h1, rfl⟩ | ⟨-, h1, rfl⟩
    · rw [sub_zero, abs_one]; linarith
    · rw [sub_self, abs_zero]; linarith
    · rw [abs_of_nonneg (sub_nonneg.2 (h1 hQ))]; linarith
  · rw [abs_le]
    rcases hcase with ⟨h1, h2, rfl⟩ | ⟨h1, h2, rfl⟩ | ⟨-, -, rfl⟩
    · have := hk0 h1
      exact ⟨by linarith, by linarith⟩
    · have := hk1 h1
      exact ⟨by linarith, by linarith⟩
    · exact ⟨by linarith, by linarith⟩

/-! ### Distances -/

theorem sqrt_norm (sqrt : F → F) (v : Vec F n) : sqrt (inner v v) = norm sqrt v := by rw [norm, dotSelf, dot_eq]

theorem sqrt_pos' {sqrt : F → F} (hs : IsSqrt sqrt) {v : Vec F n} (hv : v ≠ 0) : 0 < sqrt (inner v v) := by
  rw [sqrt_norm sqrt]
  exact lt_of_le_of_ne (norm_nonneg' hs v) fun h => hv ((norm_eq_zero' hs v).1 h.symm)

theorem sqrt_of_sq {sqrt : F → F} (hs : IsSqrt sqrt) {x y : F} (hx : 0 ≤ x) (hy : 0 ≤ y) (h : x ^ 2 = y) : sqrt y = x := by
  obtain ⟨h1, h2⟩ := hs y hy
  exact (pow_left_inj₀ h1 hx two_ne_zero).1 (by rw [h, sq, h2])

theorem sqrt_le_of_sq {sqrt : F → F} (hs : IsSqrt sqrt) {x y : F} (hx : 0 ≤ x) (hy : 0 ≤ y) (h : y ≤ x ^ 2) : sqrt y ≤ x := by
  obtain ⟨h1, h2⟩ := hs y hy
  exact abs_le_of_sq_le_sq' (by rw [sq, h2]; exact h) hx |>.2

/-- Lengths of near vectors are near. -/
theorem norm_diff {sqrt : F → F} (hs : IsSqrt sqrt) (v w : Vec F n) :
    |sqrt (inner v v) - sqrt (inner w w)| ≤ sqrt (inner (v - w) (v - w)) := by
  have d := distancePoint_correct hs v w
  have e : ∀ a b : Vec F n, distancePoint sqrt a b = sqrt (inner (a - b) (a - b)) := fun a b => (sqrt_norm sqrt _).symm
  have e0 : ∀ a : Vec F n, distancePoint sqrt a 0 = sqrt (inner a a) := fun a => by rw [e, sub_zero]
  have t1 := (distancePoint_correct hs v w).2.2.2.2 0
  have t2 := (distancePoint_correct hs w v).2.2.2.2 0
  rw [d.2.2.1] at t2
  rw [e0, e0, e] at t1 t2
  rw [abs_le]
  exact ⟨by linarith, by linarith⟩

theorem norm_near {sqrt : F → F} (hs : IsSqrt sqrt) (hu : 0 ≤ u) {v w x : Vec F n} (h : ∀ i, |v i - w i| ≤ u * |x i|) :
    |sqrt (inner v v) - sqrt (inner w w)| ≤ u * sqrt (inner x x) := by
  refine (norm_diff hs v w).trans ?_
  have hN : ∀ y : Vec F n, 0 ≤ inner y y := fun y => inner_self_nonneg y
  obtain ⟨r0, r1⟩ := hs _ (hN x)
  refine sqrt_le_of_sq hs (mul_nonneg hu r0) (hN _) ?_
  rw [mul_pow, sq (sqrt _), r1, inner, inner, Finset.mul_sum]
  refine Finset.sum_le_sum fun i _ => ?_
  rw [Pi.sub_apply, ← sq, ← sq, ← sq_abs, ← sq_abs (x i), ← mul_pow]
  exact pow_le_pow_left₀ (abs_nonneg _) (h i) 2

/-- The length of a rounded difference of points, one of which has an error. -/
theorem norm_sub_error (h : SignedRounding fl u) {sqrt : F → F} (hs : IsSqrt sqrt) (p q q' : Vec F n) {e : F}
    (he : |sqrt (inner (p - q') (p - q')) - sqrt (inner (p - q) (p - q))| ≤ e) :
    |normR fl sqrt (subV fl p q') - sqrt (dist2 p q)| ≤ grow u (n + 3) * (sqrt (dist2 p q) + e) + e := by
  have hu := h.nonneg
  rw [dist2_eq]
  have e1 := normR_error h hs (subV fl p q')
  have e2 : |sqrt (inner (subV fl p q') (subV fl p q')) - sqrt (inner (p - q') (p - q'))| ≤ u * sqrt (inner (p - q') (p - q')) :=
    norm_near hs hu fun i => h.near (p i - q' i)
  set a := normR fl sqrt (subV fl p q')
  set b := sqrt (inner (subV fl p q') (subV fl p q'))
  set c := sqrt (inner (p - q') (p - q')) with hc
  set d := sqrt (inner (p - q) (p - q))
  have hc0 : 0 ≤ c := (hs _ (inner_self_nonneg _)).1
  have hg := grow_nonneg hu (n + 2)
  obtain ⟨l1, r1⟩ := abs_le.1 e1
  obtain ⟨l2, r2⟩ := abs_le.1 e2
  obtain ⟨l3, r3⟩ := abs_le.1 he
  have e3 : grow u (n + 2) * b ≤ grow u (n + 2) * ((1 + u) * c) := mul_le_mul_of_nonneg_left (by linarith) hg
  have e4 : grow u (n + 3) * c = grow u (n + 2) * ((1 + u) * c) + u * c := by
    unfold grow
    ring
  have e5 : grow u (n + 3) * c ≤ grow u (n + 3) * (d + e) := mul_le_mul_of_nonneg_left (by linarith) (grow_nonneg hu _)
  rw [abs_le]
  exact ⟨by linarith, by linarith⟩

end Actl.Geo
