import Verif.Model.ClosestPair
import Verif.Spec.ClosestPair
import Verif.Spec.SortAngle
import Verif.Props.SortAngle
import Verif.Props.Distance
import Verif.Props.Intersect
import Mathlib.Data.List.Perm.Basic

/-!
# The closest pair of points

C67.
-/

namespace Actl.Geo

variable {F : Type*} [Field F] [LinearOrder F] [IsStrictOrderedRing F] {sqrt : F → F}

theorem PairIn.perm {E : Type*} {l l' : List E} (h : l.Perm l') {a b : E} (hp : PairIn l a b) :
    PairIn l' a b := by
  obtain ⟨rest, hr⟩ := hp
  exact ⟨rest, h.symm.trans hr⟩

theorem PairIn.append_left {E : Type*} {l : List E} (l' : List E) {a b : E} (hp : PairIn l a b) :
    PairIn (l ++ l') a b := by
  obtain ⟨rest, hr⟩ := hp
  exact ⟨rest ++ l', hr.append_right l'⟩

theorem PairIn.append_right {E : Type*} {l : List E} (l' : List E) {a b : E} (hp : PairIn l a b) :
    PairIn (l' ++ l) a b :=
  (hp.append_left l').perm List.perm_append_comm

theorem pairwise_iff_pairIn {E : Type*} {R : E → E → Prop} (hR : ∀ {a b}, R a b → R b a)
    (l : List E) : l.Pairwise R ↔ ∀ a b, PairIn l a b → R a b := by
  constructor
  · rintro h a b ⟨rest, hr⟩
    have := (hr.pairwise_iff hR).1 h
    rw [List.pairwise_cons] at this
    exact this.1 b List.mem_cons_self
  · intro h
    induction l with
    | nil => exact List.Pairwise.nil
    | cons x l ih =>
      rw [List.pairwise_cons]
      constructor
      · intro y hy
        obtain ⟨s, t, rfl⟩ := List.append_of_mem hy
        exact h x y ⟨s ++ t, (List.perm_middle).cons x⟩
      · refine ih fun a b hp => h a b ?_
        exact hp.append_right [x]

/-- The lower bound that the result must satisfy. -/
def Bound (sqrt : F → F) (l : List (Vec F 2)) (r : F) : Prop :=
  l.Pairwise fun c d => r ≤ distancePoint sqrt c d

theorem dist_comm' (hs : IsSqrt sqrt) (p q : Vec F 2) :
    distancePoint sqrt q p = distancePoint sqrt p q := (distancePoint_correct hs p q).2.2.1

theorem dist_ge_coord (hs : IsSqrt sqrt) (p q : Vec F 2) (i : Fin 2) :
    |p i - q i| ≤ distancePoint sqrt p q := by
  obtain ⟨h0, h1, -⟩ := distancePoint_correct hs p q
  refine abs_le_of_sq_le_sq ?_ h0
  rw [h1, dist2]
  fin_cases i <;> simp [Fin.sum_univ_two] <;> positivity

theorem Bound.perm (hs : IsSqrt sqrt) {l l' : List (Vec F 2)} {r : F} (h : l.Perm l')
    (hb : Bound sqrt l r) : Bound sqrt l' r :=
  (h.pairwise_iff (fun h => by rw [dist_comm' hs]; exact h)).1 hb

theorem Bound.mono {l : List (Vec F 2)} {r r' : F} (h : r' ≤ r) (hb : Bound sqrt l r) :
    Bound sqrt l r' := hb.imp fun h' => h.trans h'

/-- The result is the distance of two elements of the list. -/
def Realized (sqrt : F → F) (l : List (Vec F 2)) (r : DistPair F) : Prop :=
  r.1 = distancePoint sqrt r.2.1 r.2.2 ∧ PairIn l r.2.1 r.2.2

theorem bruteForce_correct (hs : IsSqrt sqrt) (l : List (Vec F 2)) (h2 : 2 ≤ l.length)
    (h3 : l.length ≤ 3) :
    Realized sqrt l (bruteForce sqrt l) ∧ Bound sqrt l (bruteForce sqrt l).1 := by
  match l, h2, h3 with
  | [a, b], _, _ =>
    simp only [bruteForce, List.length_cons, List.length_nil, List.range_succ, List.range_zero,
      List.nil_append, List.foldl_cons, List.foldl_nil, List.range', elemAt, List.foldl_append]
    simp only [List.getElem?_cons_zero, List.getElem?_cons_succ, Option.getD_some]
    simp only [zero_add, true_or, if_true]
    exact ⟨⟨rfl, [], List.Perm.refl _⟩, by simp [Bound]⟩
  | [a, b, c], _, _ =>
    have e : bruteForce sqrt [a, b, c] =
        (let r1 : DistPair F := (distancePoint sqrt a b, a, b)
         let r2 := if distancePoint sqrt a c < r1.1 then (distancePoint sqrt a c, a, c) else r1
         if distancePoint sqrt b c < r2.1 then (distancePoint sqrt b c, b, c) else r2) := by
      simp [bruteForce, List.range_succ, List.range', elemAt]
    rw [e]
    have p1 : PairIn [a, b, c] a b := ⟨[c], List.Perm.refl _⟩
    have p2 : PairIn [a, b, c] a c := ⟨[b], (List.Perm.swap c b []).cons a⟩
    have p3 : PairIn [a, b, c] b c := ⟨[a], by
      refine (List.Perm.swap b a [c]).trans ((List.Perm.swap c a []).cons b)⟩
    simp only [Realized, Bound, List.pairwise_cons, List.mem_cons, List.not_mem_nil, or_false,
      forall_eq_or_imp, forall_eq, List.Pairwise.nil, and_true, IsEmpty.forall_iff, implies_true]
    split_ifs with h1 h2 h2 <;> simp only [not_lt] at * <;>
      refine ⟨⟨trivial, by assumption⟩, ⟨?_, ?_⟩, ?_⟩ <;> first | exact le_refl _ | linarith

theorem scanStrip_correct (hs : IsSqrt sqrt) (whole : List (Vec F 2)) (p : Vec F 2) :
    ∀ (kept : List (Vec F 2)) (res : DistPair F), Realized sqrt whole res →
      (∀ q ∈ kept, PairIn whole p q) → (kept.Pairwise fun a b => b 1 ≤ a 1) →
      (scanStrip sqrt p res kept).1 ≤ res.1 ∧ Realized sqrt whole (scanStrip sqrt p res kept) ∧
        ∀ q ∈ kept, (scanStrip sqrt p res kept).1 ≤ distancePoint sqrt p q
  | [], res, hr, _, _ => ⟨le_refl _, hr, by simp⟩
  | q :: qs, res, hr, hk, hy => by
    rw [List.pairwise_cons] at hy
    rw [scanStrip]
    split_ifs with h
    · have hr' : Realized sqrt whole
          (if distancePoint sqrt p q < res.1 then (distancePoint sqrt p q, p, q) else res) := by
        split_ifs
        · exact ⟨rfl, hk q List.mem_cons_self⟩
        · exact hr
      obtain ⟨h1, h2, h3⟩ := scanStrip_correct hs whole p qs _ hr'
        (fun x hx => hk x (List.mem_cons_of_mem _ hx)) hy.2
      have h4 : (if distancePoint sqrt p q < res.1 then (distancePoint sqrt p q, p, q) else res).1 ≤
          res.1 ∧ (if distancePoint sqrt p q < res.1 then (distancePoint sqrt p q, p, q)
            else res).1 ≤ distancePoint sqrt p q := by
        split_ifs with hd
        · exact ⟨hd.le, le_refl _⟩
        · exact ⟨le_refl _, not_lt.1 hd⟩
      refine ⟨h1.trans h4.1, h2, fun x hx => ?_⟩
      rcases List.mem_cons.1 hx with rfl | hx
      · exact h1.trans h4.2
      · exact h3 x hx
    · refine ⟨le_refl _, hr, fun x hx => ?_⟩
      have hx1 : x 1 ≤ q 1 := by
        rcases List.mem_cons.1 hx with rfl | hx
        · exact le_refl _
        · exact hy.1 x hx
      have := dist_ge_coord hs p x 1
      have := le_abs_self (p 1 - x 1)
      linarith [not_lt.1 h]

/-- Two points whose distance is known to be large or that are on different sides of the line. -/
def Apart (sqrt : F → F) (r0 mx : F) (c d : Vec F 2) : Prop :=
  r0 ≤ distancePoint sqrt c d ∨ c 0 ≤ mx ∧ mx ≤ d 0 ∨ d 0 ≤ mx ∧ mx ≤ c 0

theorem Apart.symm (hs : IsSqrt sqrt) {r0 mx : F} {c d : Vec F 2} (h : Apart sqrt r0 mx c d) :
    Apart sqrt r0 mx d c := by
  rcases h with h | h | h
  · exact Or.inl (by rw [dist_comm' hs]; exact h)
  · exact Or.inr (Or.inr h)
  · exact Or.inr (Or.inl h)

theorem Apart.le (hs : IsSqrt sqrt) {r0 mx r : F} {c d : Vec F 2} (h : Apart sqrt r0 mx c d)
    (h0 : r ≤ r0) (hc : r ≤ |c 0 - mx|) : r ≤ distancePoint sqrt c d := by
  have h1 := dist_ge_coord hs c d 0
  rcases h with h | h | h
  · exact h0.trans h
  · rw [abs_of_nonpos (by linarith)] at hc h1; linarith
  · rw [abs_of_nonneg (by linarith)] at hc h1; linarith

theorem stripLoop_correct (hs : IsSqrt sqrt) (mx r0 : F) (whole : List (Vec F 2))
    (hy : whole.Pairwise fun a b => a 1 ≤ b 1) (ha : whole.Pairwise (Apart sqrt r0 mx)) :
    ∀ (ps pre kept : List (Vec F 2)) (res : DistPair F), whole = pre ++ ps → res.1 ≤ r0 →
      Realized sqrt whole res → Bound sqrt pre res.1 →
      (∀ q ∈ pre, q ∈ kept ∨ res.1 ≤ |q 0 - mx|) → (∀ q ∈ kept, q ∈ pre) →
      (kept.Pairwise fun a b => b 1 ≤ a 1) →
      Realized sqrt whole (stripLoop sqrt mx res kept ps) ∧
        Bound sqrt whole (stripLoop sqrt mx res kept ps).1
  | [], pre, kept, res, hw, _, hr, hb, _, _, _ => by
    rw [List.append_nil] at hw
    rw [stripLoop, hw]
    exact ⟨hw ▸ hr, hb⟩
  | p :: ps, pre, kept, res, hw, h0, hr, hb, hq, hk, hd => by
    have hw' : whole = (pre ++ [p]) ++ ps := by rw [hw]; simp
    have hy' := hy
    have ha' := ha
    rw [hw', List.pairwise_append, List.pairwise_append] at hy' ha'
    have hyp : ∀ q ∈ pre, q 1 ≤ p 1 := fun q hq => hy'.1.2.2 q hq p List.mem_cons_self
    have hap : ∀ q ∈ pre, Apart sqrt r0 mx q p := fun q hq => ha'.1.2.2 q hq p List.mem_cons_self
    have habs : absValue (p 0 - mx) = |p 0 - mx| := absValue_eq _
    have bound_snoc : ∀ r, r ≤ res.1 → (∀ q ∈ pre, r ≤ distancePoint sqrt q p) →
        Bound sqrt (pre ++ [p]) r := by
      intro r hr hqp
      rw [Bound, List.pairwise_append]
      refine ⟨hb.mono hr, List.pairwise_singleton _ _, fun q hq x hx => ?_⟩
      rw [List.mem_singleton] at hx
      rw [hx]; exact hqp q hq
    rw [stripLoop]
    split_ifs with hc
    · have hpair : ∀ q ∈ kept, PairIn whole p q := by
        intro q hq
        obtain ⟨s, t, hst⟩ := List.append_of_mem (hk q hq)
        refine ⟨s ++ t ++ ps, ?_⟩
        rw [hw, hst]
        have e1 : (s ++ q :: t ++ p :: ps).Perm (p :: (s ++ q :: t ++ ps)) := List.perm_middle
        have e2 : (s ++ q :: t).Perm (q :: (s ++ t)) := List.perm_middle
        exact e1.trans ((e2.append_right ps).cons p)
      obtain ⟨s1, s2, s3⟩ := scanStrip_correct hs whole p kept res hr hpair hd
      generalize scanStrip sqrt p res kept = res' at *
      refine stripLoop_correct hs mx r0 whole hy ha ps (pre ++ [p]) (p :: kept) res' hw'
        (s1.trans h0) s2 (bound_snoc _ s1 fun q hqm => ?_) ?_ ?_ ?_
      · rcases hq q hqm with h | h
        · rw [← dist_comm' hs]; exact s3 q h
        · exact (hap q hqm).le hs (s1.trans h0) (s1.trans h)
      · intro q hqm
        rcases List.mem_append.1 hqm with h | h
        · rcases hq q h with h | h
          · exact Or.inl (List.mem_cons_of_mem _ h)
          · exact Or.inr (s1.trans h)
        · rw [List.mem_singleton] at h
          exact Or.inl (h ▸ List.mem_cons_self)
      · intro q hqm
        rcases List.mem_cons.1 hqm with h | h
        · exact List.mem_append_right _ (h ▸ List.mem_cons_self)
        · exact List.mem_append_left _ (hk q h)
      · rw [List.pairwise_cons]
        exact ⟨fun q hqm => hyp q (hk q hqm), hd⟩
    · rw [habs, not_lt] at hc
      refine stripLoop_correct hs mx r0 whole hy ha ps (pre ++ [p]) kept res hw' h0 hr
        (bound_snoc _ (le_refl _) fun q hqm => ?_) ?_ ?_ hd
      · rw [← dist_comm' hs]
        exact ((hap q hqm).symm hs).le hs h0 hc
      · intro q hqm
        rcases List.mem_append.1 hqm with h | h
        · exact hq q h
        · rw [List.mem_singleton] at h
          exact Or.inr (h ▸ hc)
      · exact fun q hqm => List.mem_append_left _ (hk q hqm)

omit [Field F] [IsStrictOrderedRing F] in
theorem yLess_strictWeak (l : List (Vec F 2)) : StrictWeak yLess l := by
  refine ⟨fun a _ => ?_, fun a _ b _ c _ => ?_, fun a _ b _ c _ => ?_⟩ <;>
    simp only [yLess, decide_eq_true_eq, decide_eq_false_iff_not, not_lt]
  · exact le_refl _
  · exact lt_trans
  · exact fun h1 h2 => h2.trans h1

theorem nearestRec_correct (hs : IsSqrt sqrt) (alg : StdAlgorithms (Vec F 2)) (ha : alg.Correct) :
    ∀ (n : Nat) (l : List (Vec F 2)), l.length ≤ n → 2 ≤ l.length →
      (l.Pairwise fun a b => a 0 ≤ b 0) →
      (nearestRec sqrt alg l).2.Perm l ∧
        ((nearestRec sqrt alg l).2.Pairwise fun a b => a 1 ≤ b 1) ∧
        Realized sqrt l (nearestRec sqrt alg l).1 ∧ Bound sqrt l (nearestRec sqrt alg l).1.1
  | 0, l, hn, h2, _ => by omega
  | n + 1, l, hn, h2, hx => by
    rw [nearestRec]
    split_ifs with h3
    · obtain ⟨s1, s2⟩ := ha.2 _ _ (yLess_strictWeak l)
      refine ⟨s1, s2.imp fun h => ?_, bruteForce_correct hs l h2 h3⟩
      simpa [yLess] using h
    · have hm : l.length / 2 < l.length := by omega
      have hxt := hx
      rw [← List.take_append_drop (l.length / 2) l, List.pairwise_append] at hxt
      obtain ⟨l1, l2, l3, l4⟩ := nearestRec_correct hs alg ha n (l.take (l.length / 2))
        (by rw [List.length_take]; omega) (by rw [List.length_take]; omega) hxt.1
      obtain ⟨r1, r2, r3, r4⟩ := nearestRec_correct hs alg ha n (l.drop (l.length / 2))
        (by rw [List.length_drop]; omega) (by rw [List.length_drop]; omega) hxt.2.1
      have hmx : elemAt l (l.length / 2) ∈ l.drop (l.length / 2) ∧
          ∀ d ∈ l.drop (l.length / 2), elemAt l (l.length / 2) 0 ≤ d 0 := by
        have e : l.drop (l.length / 2) =
            elemAt l (l.length / 2) :: l.drop (l.length / 2 + 1) := by
          rw [elemAt, List.getElem?_eq_getElem hm, Option.getD_some]
          exact List.drop_eq_getElem_cons hm
        refine ⟨by rw [e]; exact List.mem_cons_self, fun d hd => ?_⟩
        have h := hxt.2.1
        rw [e, List.pairwise_cons] at h
        rw [e] at hd
        rcases List.mem_cons.1 hd with rfl | hd
        · exact le_refl _
        · exact h.1 d hd
      simp only
      generalize nearestRec sqrt alg (l.take (l.length / 2)) = L at *
      generalize nearestRec sqrt alg (l.drop (l.length / 2)) = R at *
      have hd : elemAt l (l.length / 2) ∈ l.drop (l.length / 2) := hmx.1
      have hmx1 : ∀ c ∈ l.take (l.length / 2), c 0 ≤ elemAt l (l.length / 2) 0 := fun c hc =>
        hxt.2.2 c hc _ hd
      have hmx2 := hmx.2
      generalize elemAt l (l.length / 2) 0 = mx at *
      have hl : l.Perm (l.take (l.length / 2) ++ l.drop (l.length / 2)) := by
        rw [List.take_append_drop]
      generalize l.take (l.length / 2) = lt at *
      generalize l.drop (l.length / 2) = ld at *
      have hm1 : (List.merge L.2 R.2 fun a b => !yLess b a).Perm (lt ++ ld) :=
        (List.merge_perm_append _).trans (l1.append r1)
      have hm2 : (List.merge L.2 R.2 fun a b => !yLess b a).Pairwise fun a b => a 1 ≤ b 1 := by
        have := List.pairwise_merge (le := fun a b : Vec F 2 => !yLess b a)
          (by intro a b c; simp only [yLess]; simpa using fun h1 h2 => le_trans h1 h2)
          (by intro a b; simp only [yLess]; simpa using le_total (a 1) (b 1)) L.2 R.2
          (l2.imp fun h => by simpa [yLess] using h) (r2.imp fun h => by simpa [yLess] using h)
        exact this.imp fun h => by simpa [yLess] using h
      generalize List.merge L.2 R.2 (fun a b => !yLess b a) = whole at *
      refine ⟨hm1.trans hl.symm, hm2, ?_⟩
      have hres : (if R.1.1 < L.1.1 then R.1 else L.1).1 ≤ L.1.1 ∧
          (if R.1.1 < L.1.1 then R.1 else L.1).1 ≤ R.1.1 ∧
          Realized sqrt whole (if R.1.1 < L.1.1 then R.1 else L.1) := by
        split_ifs with h
        · exact ⟨h.le, le_refl _, r3.1, (r3.2.append_right lt).perm hm1.symm⟩
        · exact ⟨le_refl _, not_lt.1 h, l3.1, (l3.2.append_left ld).perm hm1.symm⟩
      generalize (if R.1.1 < L.1.1 then R.1 else L.1) = res at *
      have hap : whole.Pairwise (Apart sqrt res.1 mx) := by
        refine (hm1.pairwise_iff fun h => h.symm hs).2 ?_
        rw [List.pairwise_append]
        exact ⟨l4.imp fun h => Or.inl (hres.1.trans h),
          r4.imp fun h => Or.inl (hres.2.1.trans h),
          fun c hc d hd => Or.inr (Or.inl ⟨hmx1 c hc, hmx2 d hd⟩)⟩
      obtain ⟨f1, f2⟩ := stripLoop_correct hs mx res.1 whole hm2 hap whole [] [] res rfl (le_refl _)
        hres.2.2 List.Pairwise.nil (by simp) (by simp) List.Pairwise.nil
      exact ⟨⟨f1.1, f1.2.perm (hm1.trans hl.symm)⟩, f2.perm hs (hm1.trans hl.symm)⟩

theorem equalNeighbours_some : ∀ (l : List (Vec F 2)) {a b : Vec F 2},
    equalNeighbours l = some (a, b) → PairIn l a b ∧ a = b
  | [], _, _, h => by simp [equalNeighbours] at h
  | [_], _, _, h => by simp [equalNeighbours] at h
  | x :: y :: rest, a, b, h => by
    rw [equalNeighbours] at h
    split_ifs at h with he
    · simp only [Option.some.injEq, Prod.mk.injEq] at h
      obtain ⟨rfl, rfl⟩ := h
      exact ⟨⟨rest, List.Perm.refl _⟩, (isEqual_iff _ _).1 he⟩
    · obtain ⟨h1, h2⟩ := equalNeighbours_some (y :: rest) h
      exact ⟨h1.append_right [x], h2⟩

theorem less_strictWeak (l : List (Vec F 2)) : StrictWeak less l := by
  refine ⟨fun a _ => ?_, fun a _ b _ c _ => ?_, fun a _ b _ c _ => ?_⟩ <;>
    simp only [← Bool.not_eq_true, less_iff, not_lt]
  · exact le_refl _
  · exact lt_trans
  · exact fun h1 h2 => h2.trans h1

/-- C67. `nearest(points)` returns two of the points at different positions whose distance is the
least one among all such pairs, and leaves the points permuted. -/
theorem nearestPair_correct (hs : IsSqrt sqrt) (alg : StdAlgorithms (Vec F 2)) (ha : alg.Correct)
    (points : List (Vec F 2)) (h2 : 2 ≤ points.length) :
    ∃ a b points', nearestPair sqrt alg points = some ((a, b), points') ∧
      points'.Perm points ∧ ClosestPair points a b := by
  rw [nearestPair, if_neg (by omega)]
  obtain ⟨s1, s2⟩ := ha.2 less points (less_strictWeak points)
  simp only
  generalize alg.sort less points = sorted at *
  match he : equalNeighbours sorted with
  | some (a, b) =>
    obtain ⟨h1, h2⟩ := equalNeighbours_some sorted he
    refine ⟨a, b, sorted, rfl, s1, h1.perm s1, fun c d _ => ?_⟩
    rw [h2, dist2_eq, sub_self]
    have : inner (0 : Vec F 2) 0 = 0 := by simp [inner]
    rw [this, dist2_eq]
    exact inner_self_nonneg _
  | none =>
    have hx : sorted.Pairwise fun a b => a 0 ≤ b 0 := by
      refine s2.imp fun {a b} h => ?_
      by_contra hn
      have : less b a = true := (less_iff b a).2 (key_lt.2 (Or.inl (not_le.1 hn)))
      rw [h] at this
      cases this
    obtain ⟨r1, -, r3, r4⟩ := nearestRec_correct hs alg ha sorted.length sorted (le_refl _)
      (by rw [s1.length_eq]; exact h2) hx
    refine ⟨_, _, _, rfl, r1.trans s1, r3.2.perm s1, fun c d hcd => ?_⟩
    have h1 := (pairwise_iff_pairIn (fun h => by rw [dist_comm' hs]; exact h) points).1
      (r4.perm hs s1) c d hcd
    rw [r3.1] at h1
    have h2 := distancePoint_correct hs (nearestRec sqrt alg sorted).1.2.1
      (nearestRec sqrt alg sorted).1.2.2
    have h3 := distancePoint_correct hs c d
    rw [← h2.2.1, ← h3.2.1]
    exact pow_le_pow_left₀ h2.1 h1 2

/-- C67. With fewer than two points the precondition is violated. -/
theorem nearestPair_none_iff (alg : StdAlgorithms (Vec F 2)) (points : List (Vec F 2)) :
    nearestPair sqrt alg points = none ↔ points.length < 2 := by
  rw [nearestPair]
  split_ifs with h
  · exact ⟨fun _ => by omega, fun _ => rfl⟩
  · simp only
    refine ⟨fun h' => ?_, fun h' => by omega⟩
    split at h' <;> cases h'

example : ∃ a b points', nearestPair Real.sqrt (listAlgorithms (Vec ℝ 2))
    [![0, 0], ![3, 1], ![1, 5], ![7, 2], ![3, 2], ![9, 9]] = some ((a, b), points') ∧
      ClosestPair [![0, 0], ![3, 1], ![1, 5], ![7, 2], ![3, 2], ![9, 9]] a b := by
  obtain ⟨a, b, points', h1, -, h2⟩ := nearestPair_correct isSqrt_real (listAlgorithms _)
    (listAlgorithms_correct _) [![0, 0], ![3, 1], ![1, 5], ![7, 2], ![3, 2], ![9, 9]] (by simp)
  exact ⟨a, b, points', h1, h2⟩

end Actl.Geo
