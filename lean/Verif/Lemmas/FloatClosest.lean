import Verif.Model.FloatClosest
import Verif.Lemmas.FloatLines
import Verif.Props.FloatLines
import Verif.Props.ClosestPair
import Verif.Props.Antipodal

/-!
Lemmas about the closest and the furthest points in floating point.
-/

namespace Actl.Geo

variable {F : Type*} [Field F] [LinearOrder F] [IsStrictOrderedRing F]
variable {fl sqrt : F → F} {u : F}

/-! ### The closest pair -/

/-- The distance of the points is at least `r`, up to the errors. -/
def Far (u r : F) (c d : Vec F 2) : Prop := r ^ 2 ≤ (1 + u) ^ 7 * dist2 c d

omit [LinearOrder F] [IsStrictOrderedRing F] in
theorem dist2_symm (c d : Vec F 2) : dist2 c d = dist2 d c := by
  simp only [dist2, Fin.sum_univ_two]; ring

omit [IsStrictOrderedRing F] in
theorem Far.symm {r : F} {c d : Vec F 2} (h : Far u r c d) : Far u r d c := by
  rw [Far, dist2_symm]; exact h

theorem Far.mono {r r' : F} {c d : Vec F 2} (h : Far u r c d) (h0 : 0 ≤ r') (hr : r' ≤ r) : Far u r' c d :=
  (pow_le_pow_left₀ h0 hr 2).trans h

theorem far_of_le (h : SignedRounding fl u) (hs : IsSqrt sqrt) {r : F} {c d : Vec F 2} (h0 : 0 ≤ r)
    (hr : r ≤ distancePointR fl sqrt c d) : Far u r c d :=
  (pow_le_pow_left₀ h0 hr 2).trans (distance_rounded h hs c d).2.2.1

theorem far_of_coord (hu : 0 ≤ u) {r : F} {c d : Vec F 2} (i : Fin 2) (h0 : 0 ≤ r) (hr : r ≤ (1 + u) * |c i - d i|) :
    Far u r c d := by
  have h1 : (c i - d i) ^ 2 ≤ dist2 c d := by
    rw [dist2]
    fin_cases i <;> simp [Fin.sum_univ_two] <;> positivity
  have h2 : r ^ 2 ≤ (1 + u) ^ 2 * dist2 c d := by
    refine (pow_le_pow_left₀ h0 hr 2).trans ?_
    rw [mul_pow, sq_abs]
    exact mul_le_mul_of_nonneg_left h1 (sq_nonneg _)
  refine h2.trans (mul_le_mul_of_nonneg_right ?_ ((sq_nonneg _).trans h1))
  exact pow_le_pow_right₀ (by linarith) (by norm_num)

theorem abs_fl_le (h : SignedRounding fl u) (x : F) : |fl x| ≤ (1 + u) * |x| := by
  have h1 := h.near x
  have h2 := abs_sub_abs_le_abs_sub (fl x) x
  linarith

/-- The lower bound that the result satisfies. -/
def BoundR (u : F) (l : List (Vec F 2)) (r : F) : Prop := l.Pairwise (Far u r)

omit [IsStrictOrderedRing F] in
theorem BoundR.perm {l l' : List (Vec F 2)} {r : F} (h : l.Perm l') (hb : BoundR u l r) : BoundR u l' r :=
  (h.pairwise_iff fun h => h.symm).1 hb

theorem BoundR.mono {l : List (Vec F 2)} {r r' : F} (h0 : 0 ≤ r') (h : r' ≤ r) (hb : BoundR u l r) : BoundR u l r' :=
  hb.imp fun h' => h'.mono h0 h

/-- The result is the computed distance of two elements of the list. -/
def RealizedR (fl sqrt : F → F) (l : List (Vec F 2)) (r : DistPair F) : Prop :=
  r.1 = distancePointR fl sqrt r.2.1 r.2.2 ∧ PairIn l r.2.1 r.2.2

theorem RealizedR.nonneg (h : SignedRounding fl u) (hs : IsSqrt sqrt) {l : List (Vec F 2)} {r : DistPair F}
    (hr : RealizedR fl sqrt l r) : 0 ≤ r.1 := by
  rw [hr.1]; exact (distance_rounded h hs _ _).1

theorem bruteForceR_near (h : SignedRounding fl u) (hs : IsSqrt sqrt) (l : List (Vec F 2)) (h2 : 2 ≤ l.length)
    (h3 : l.length ≤ 3) :
    RealizedR fl sqrt l (bruteForceR fl sqrt l) ∧ BoundR u l (bruteForceR fl sqrt l).1 := by
  match l, h2, h3 with
  | [a, b], _, _ =>
    simp only [bruteForceR, List.length_cons, List.length_nil, List.range_succ, List.range_zero,
      List.nil_append, List.foldl_cons, List.foldl_nil, List.range', elemAt, List.foldl_append]
    simp only [List.getElem?_cons_zero, List.getElem?_cons_succ, Option.getD_some]
    simp only [zero_add, true_or, if_true]
    exact ⟨⟨rfl, [], List.Perm.refl _⟩, by
      simpa [BoundR] using far_of_le h hs (distance_rounded h hs a b).1 le_rfl⟩
  | [a, b, c], _, _ =>
    have e : bruteForceR fl sqrt [a, b, c] =
        (let r1 : DistPair F := (distancePointR fl sqrt a b, a, b)
         let r2 := if distancePointR fl sqrt a c < r1.1 then (distancePointR fl sqrt a c, a, c) else r1
         if distancePointR fl sqrt b c < r2.1 then (distancePointR fl sqrt b c, b, c) else r2) := by
      simp [bruteForceR, List.range_succ, List.range', elemAt]
    rw [e]
    have p1 : PairIn [a, b, c] a b := ⟨[c], List.Perm.refl _⟩
    have p2 : PairIn [a, b, c] a c := ⟨[b], (List.Perm.swap c b []).cons a⟩
    have p3 : PairIn [a, b, c] b c := ⟨[a], by
      refine (List.Perm.swap b a [c]).trans ((List.Perm.swap c a []).cons b)⟩
    have d1 := (distance_rounded h hs a b).1
    have d2 := (distance_rounded h hs a c).1
    have d3 := (distance_rounded h hs b c).1
    simp only [RealizedR, BoundR, List.pairwise_cons, List.mem_cons, List.not_mem_nil, or_false,
      forall_eq_or_imp, forall_eq, List.Pairwise.nil, and_true, IsEmpty.forall_iff, implies_true]
    split_ifs with h1 h2 h2 <;> simp only [not_lt] at * <;>
      refine ⟨⟨trivial, by assumption⟩, ⟨?_, ?_⟩, ?_⟩ <;>
        refine far_of_le h hs (by assumption) ?_ <;> first | exact le_refl _ | linarith

theorem scanStripR_near (h : SignedRounding fl u) (hs : IsSqrt sqrt) (whole : List (Vec F 2)) (p : Vec F 2) :
    ∀ (kept : List (Vec F 2)) (res : DistPair F), RealizedR fl sqrt whole res →
      (∀ q ∈ kept, PairIn whole p q) → (kept.Pairwise fun a b => b 1 ≤ a 1) →
      (scanStripR fl sqrt p res kept).1 ≤ res.1 ∧ RealizedR fl sqrt whole (scanStripR fl sqrt p res kept) ∧
        ∀ q ∈ kept, Far u (scanStripR fl sqrt p res kept).1 p q
  | [], res, hr, _, _ => ⟨le_refl _, hr, by simp⟩
  | q :: qs, res, hr, hk, hy => by
    rw [List.pairwise_cons] at hy
    rw [scanStripR]
    split_ifs with hlt
    · have hr' : RealizedR fl sqrt whole
          (if distancePointR fl sqrt p q < res.1 then (distancePointR fl sqrt p q, p, q) else res) := by
        split_ifs
        · exact ⟨rfl, hk q List.mem_cons_self⟩
        · exact hr
      obtain ⟨h1, h2, h3⟩ := scanStripR_near h hs whole p qs _ hr'
        (fun x hx => hk x (List.mem_cons_of_mem _ hx)) hy.2
      have h4 : (if distancePointR fl sqrt p q < res.1 then (distancePointR fl sqrt p q, p, q) else res).1 ≤
          res.1 ∧ (if distancePointR fl sqrt p q < res.1 then (distancePointR fl sqrt p q, p, q)
            else res).1 ≤ distancePointR fl sqrt p q := by
        split_ifs with hd
        · exact ⟨hd.le, le_refl _⟩
        · exact ⟨le_refl _, not_lt.1 hd⟩
      refine ⟨h1.trans h4.1, h2, fun x hx => ?_⟩
      rcases List.mem_cons.1 hx with rfl | hx
      · exact far_of_le h hs (h2.nonneg h hs) (h1.trans h4.2)
      · exact h3 x hx
    · refine ⟨le_refl _, hr, fun x hx => ?_⟩
      have hx1 : x 1 ≤ q 1 := by
        rcases List.mem_cons.1 hx with rfl | hx
        · exact le_refl _
        · exact hy.1 x hx
      have h0 := hr.nonneg h hs
      have hz : 0 ≤ p 1 - q 1 := by
        by_contra hn
        have := (h.neg_iff _).2 (not_le.1 hn)
        linarith [not_lt.1 hlt]
      have h1 := abs_fl_le h (p 1 - q 1)
      have h2 := le_abs_self (fl (p 1 - q 1))
      refine far_of_coord h.nonneg 1 h0 (((not_lt.1 hlt).trans (h2.trans h1)).trans ?_)
      refine mul_le_mul_of_nonneg_left ?_ (by linarith [h.nonneg])
      rw [abs_of_nonneg hz, abs_of_nonneg (by linarith)]
      linarith

/-- Two points whose distance is known to be large or that are on different sides of the line. -/
def ApartR (u r0 mx : F) (c d : Vec F 2) : Prop := Far u r0 c d ∨ c 0 ≤ mx ∧ mx ≤ d 0 ∨ d 0 ≤ mx ∧ mx ≤ c 0

omit [IsStrictOrderedRing F] in
theorem ApartR.symm {r0 mx : F} {c d : Vec F 2} (h : ApartR u r0 mx c d) : ApartR u r0 mx d c := by
  rcases h with h | h | h
  · exact Or.inl h.symm
  · exact Or.inr (Or.inr h)
  · exact Or.inr (Or.inl h)

theorem ApartR.far (hu : 0 ≤ u) {r0 mx r : F} {c d : Vec F 2} (h : ApartR u r0 mx c d) (hr : 0 ≤ r) (h0 : r ≤ r0)
    (hc : r ≤ (1 + u) * |c 0 - mx|) : Far u r c d := by
  rcases h with h | h | h
  · exact h.mono hr h0
  · refine far_of_coord hu 0 hr (hc.trans (mul_le_mul_of_nonneg_left ?_ (by linarith)))
    rw [abs_of_nonpos (by linarith), abs_of_nonpos (by linarith)]; linarith
  · refine far_of_coord hu 0 hr (hc.trans (mul_le_mul_of_nonneg_left ?_ (by linarith)))
    rw [abs_of_nonneg (by linarith), abs_of_nonneg (by linarith)]; linarith

theorem stripLoopR_near (h : SignedRounding fl u) (hs : IsSqrt sqrt) (mx r0 : F) (whole : List (Vec F 2))
    (hy : whole.Pairwise fun a b => a 1 ≤ b 1) (ha : whole.Pairwise (ApartR u r0 mx)) :
    ∀ (ps pre kept : List (Vec F 2)) (res : DistPair F), whole = pre ++ ps → res.1 ≤ r0 →
      RealizedR fl sqrt whole res → BoundR u pre res.1 →
      (∀ q ∈ pre, q ∈ kept ∨ res.1 ≤ (1 + u) * |q 0 - mx|) → (∀ q ∈ kept, q ∈ pre) →
      (kept.Pairwise fun a b => b 1 ≤ a 1) →
      RealizedR fl sqrt whole (stripLoopR fl sqrt mx res kept ps) ∧
        BoundR u whole (stripLoopR fl sqrt mx res kept ps).1
  | [], pre, kept, res, hw, _, hr, hb, _, _, _ => by
    rw [List.append_nil] at hw
    rw [stripLoopR, hw]
    exact ⟨hw ▸ hr, hb⟩
  | p :: ps, pre, kept, res, hw, h0, hr, hb, hq, hk, hd => by
    have hw' : whole = (pre ++ [p]) ++ ps := by rw [hw]; simp
    have hy' := hy
    have ha' := ha
    rw [hw', List.pairwise_append, List.pairwise_append] at hy' ha'
    have hyp : ∀ q ∈ pre, q 1 ≤ p 1 := fun q hq => hy'.1.2.2 q hq p List.mem_cons_self
    have hap : ∀ q ∈ pre, ApartR u r0 mx q p := fun q hq => ha'.1.2.2 q hq p List.mem_cons_self
    have habs : absValue (fl (p 0 - mx)) = |fl (p 0 - mx)| := absValue_eq _
    have bound_snoc : ∀ r, 0 ≤ r → r ≤ res.1 → (∀ q ∈ pre, Far u r q p) →
        BoundR u (pre ++ [p]) r := by
      intro r h0 hr hqp
      rw [BoundR, List.pairwise_append]
      refine ⟨hb.mono h0 hr, List.pairwise_singleton _ _, fun q hq x hx => ?_⟩
      rw [List.mem_singleton] at hx
      rw [hx]; exact hqp q hq
    rw [stripLoopR]
    split_ifs with hc
    · have hpair : ∀ q ∈ kept, PairIn whole p q := by
        intro q hq
        obtain ⟨s, t, hst⟩ := List.append_of_mem (hk q hq)
        refine ⟨s ++ t ++ ps, ?_⟩
        rw [hw, hst]
        have e1 : (s ++ q :: t ++ p :: ps).Perm (p :: (s ++ q :: t ++ ps)) := List.perm_middle
        have e2 : (s ++ q :: t).Perm (q :: (s ++ t)) := List.perm_middle
        exact e1.trans ((e2.append_right ps).cons p)
      obtain ⟨s1, s2, s3⟩ := scanStripR_near h hs whole p kept res hr hpair hd
      generalize scanStripR fl sqrt p res kept = res' at *
      refine stripLoopR_near h hs mx r0 whole hy ha ps (pre ++ [p]) (p :: kept) res' hw'
        (s1.trans h0) s2 (bound_snoc _ (s2.nonneg h hs) s1 fun q hqm => ?_) ?_ ?_ ?_
      · rcases hq q hqm with hm | hm
        · exact (s3 q hm).symm
        · exact (hap q hqm).far h.nonneg (s2.nonneg h hs) (s1.trans h0) (s1.trans hm)
      · intro q hqm
        rcases List.mem_append.1 hqm with h | h
        · rcases hq q h with h | h
          · exact Or.inl (List.mem_cons_of_mem _ h)
          · exact Or.inr (s1.trans h)
        · rw [List.mem_singleton] at h
          exact Or.inl (h ▸ List.mem_cons_self)
      · intro q hqm
        rcases List.mem_cons.1 hqm with h | h
        · exact List.mem_append_right _ (h ▸ List.mem_cons_self)
        · exact List.mem_append_left _ (hk q h)
      · rw [List.pairwise_cons]
        exact ⟨fun q hqm => hyp q (hk q hqm), hd⟩
    · rw [habs, not_lt] at hc
      have hc := hc.trans (abs_fl_le h _)
      refine stripLoopR_near h hs mx r0 whole hy ha ps (pre ++ [p]) kept res hw' h0 hr
        (bound_snoc _ (hr.nonneg h hs) (le_refl _) fun q hqm => ?_) ?_ ?_ hd
      · exact ((hap q hqm).symm.far h.nonneg (hr.nonneg h hs) h0 hc).symm
      · intro q hqm
        rcases List.mem_append.1 hqm with h | h
        · exact hq q h
        · rw [List.mem_singleton] at h
          exact Or.inr (h ▸ hc)
      · exact fun q hqm => List.mem_append_left _ (hk q hqm)

theorem nearestRecR_near (h : SignedRounding fl u) (hs : IsSqrt sqrt) (alg : StdAlgorithms (Vec F 2)) (ha : alg.Correct) :
    ∀ (n : Nat) (l : List (Vec F 2)), l.length ≤ n → 2 ≤ l.length →
      (l.Pairwise fun a b => a 0 ≤ b 0) →
      (nearestRecR fl sqrt alg l).2.Perm l ∧
        ((nearestRecR fl sqrt alg l).2.Pairwise fun a b => a 1 ≤ b 1) ∧
        RealizedR fl sqrt l (nearestRecR fl sqrt alg l).1 ∧ BoundR u l (nearestRecR fl sqrt alg l).1.1
  | 0, l, hn, h2, _ => by omega
  | n + 1, l, hn, h2, hx => by
    rw [nearestRecR]
    split_ifs with h3
    · obtain ⟨s1, s2⟩ := ha.2 _ _ (yLess_strictWeak l)
      refine ⟨s1, s2.imp fun h => ?_, bruteForceR_near h hs l h2 h3⟩
      simpa [yLess] using h
    · have hm : l.length / 2 < l.length := by omega
      have hxt := hx
      rw [← List.take_append_drop (l.length / 2) l, List.pairwise_append] at hxt
      obtain ⟨l1, l2, l3, l4⟩ := nearestRecR_near h hs alg ha n (l.take (l.length / 2))
        (by rw [List.length_take]; omega) (by rw [List.length_take]; omega) hxt.1
      obtain ⟨r1, r2, r3, r4⟩ := nearestRecR_near h hs alg ha n (l.drop (l.length / 2))
        (by rw [List.length_drop]; omega) (by rw [List.length_drop]; omega) hxt.2.1
      have hmx : elemAt l (l.length / 2) ∈ l.drop (l.length / 2) ∧
          ∀ d ∈ l.drop (l.length / 2), elemAt l (l.length / 2) 0 ≤ d 0 := by
        have e : l.drop (l.length / 2) =
            elemAt l (l.length / 2) :: l.drop (l.length / 2 + 1) := by
          rw [elemAt, List.getElem?_eq_getElem hm, Option.getD_some]
          exact List.drop_eq_getElem_cons hm
        refine ⟨by rw [e]; exact List.mem_cons_self, fun d hd => ?_⟩
        have h := hxt.2.1
        rw [e, List.pairwise_cons] at h
        rw [e] at hd
        rcases List.mem_cons.1 hd with rfl | hd
        · exact le_refl _
        · exact h.1 d hd
      simp only
      generalize nearestRecR fl sqrt alg (l.take (l.length / 2)) = L at *
      generalize nearestRecR fl sqrt alg (l.drop (l.length / 2)) = R at *
      have hd : elemAt l (l.length / 2) ∈ l.drop (l.length / 2) := hmx.1
      have hmx1 : ∀ c ∈ l.take (l.length / 2), c 0 ≤ elemAt l (l.length / 2) 0 := fun c hc =>
        hxt.2.2 c hc _ hd
      have hmx2 := hmx.2
      generalize elemAt l (l.length / 2) 0 = mx at *
      have hl : l.Perm (l.take (l.length / 2) ++ l.drop (l.length / 2)) := by
        rw [List.take_append_drop]
      generalize l.take (l.length / 2) = lt at *
      generalize l.drop (l.length / 2) = ld at *
      have hm1 : (List.merge L.2 R.2 fun a b => !yLess b a).Perm (lt ++ ld) :=
        (List.merge_perm_append _).trans (l1.append r1)
      have hm2 : (List.merge L.2 R.2 fun a b => !yLess b a).Pairwise fun a b => a 1 ≤ b 1 := by
        have := List.pairwise_merge (le := fun a b : Vec F 2 => !yLess b a)
          (by intro a b c; simp only [yLess]; simpa using fun h1 h2 => le_trans h1 h2)
          (by intro a b; simp only [yLess]; simpa using le_total (a 1) (b 1)) L.2 R.2
          (l2.imp fun h => by simpa [yLess] using h) (r2.imp fun h => by simpa [yLess] using h)
        exact this.imp fun h => by simpa [yLess] using h
      generalize List.merge L.2 R.2 (fun a b => !yLess b a) = whole at *
      refine ⟨hm1.trans hl.symm, hm2, ?_⟩
      have hres : (if R.1.1 < L.1.1 then R.1 else L.1).1 ≤ L.1.1 ∧
          (if R.1.1 < L.1.1 then R.1 else L.1).1 ≤ R.1.1 ∧
          RealizedR fl sqrt whole (if R.1.1 < L.1.1 then R.1 else L.1) := by
        split_ifs with h
        · exact ⟨h.le, le_refl _, r3.1, (r3.2.append_right lt).perm hm1.symm⟩
        · exact ⟨le_refl _, not_lt.1 h, l3.1, (l3.2.append_left ld).perm hm1.symm⟩
      generalize (if R.1.1 < L.1.1 then R.1 else L.1) = res at *
      have hap : whole.Pairwise (ApartR u res.1 mx) := by
        refine (hm1.pairwise_iff fun h => h.symm).2 ?_
        rw [List.pairwise_append]
        exact ⟨l4.imp fun h' => Or.inl (h'.mono (hres.2.2.nonneg h hs) hres.1),
          r4.imp fun h' => Or.inl (h'.mono (hres.2.2.nonneg h hs) hres.2.1),
          fun c hc d hd => Or.inr (Or.inl ⟨hmx1 c hc, hmx2 d hd⟩)⟩
      obtain ⟨f1, f2⟩ := stripLoopR_near h hs mx res.1 whole hm2 hap whole [] [] res rfl (le_refl _)
        hres.2.2 List.Pairwise.nil (by simp) (by simp) List.Pairwise.nil
      exact ⟨⟨f1.1, f1.2.perm (hm1.trans hl.symm)⟩, f2.perm (hm1.trans hl.symm)⟩

/-! ### The furthest pair -/

theorem polyAt_mem {poly : List (Vec F 2)} {i : Nat} (h : i < poly.length) : polyAt poly i ∈ poly := by
  rw [polyAt, List.getElem?_eq_getElem h, Option.getD_some]
  exact List.getElem_mem h

theorem antipodalInnerR_grid {g : F} {M : Int} (he : Exact fl g M) {poly : List (Vec F 2)} (hg : ∀ v ∈ poly, OnGrid g M v) (i : Nat) :
    ∀ (k j : Nat) (out : List (Nat × Nat)), j + k = poly.length →
      antipodalInnerR fl poly i k j out = antipodalInner poly i k j out
  | 0, _, _, _ => rfl
  | k + 1, j, out, hj => by
    rw [antipodalInnerR, antipodalInner]
    split_ifs with hi hl hl' hl'
    · exact antipodalInnerR_grid he hg i k (j + 1) _ (by omega)
    · exact absurd hl (by rwa [key i j hi (by omega)])
    · exact absurd hl' (by rwa [← key i j hi (by omega)])
    · rfl
    · rfl
where
  key (i j : Nat) (hi : i + 1 < poly.length) (hj : j < poly.length) :
      Turn.ofSign (areaR fl (edgeFromR fl poly j) (subR fl (polyAt poly (i + 1)) (polyAt poly i))) =
        orientation (polyAt poly (i + 1) - polyAt poly i) (edgeFrom poly j) := by
    have g1 := hg _ (polyAt_mem hi)
    have g2 := hg _ (polyAt_mem (poly := poly) (i := i) (by omega))
    have g3 := hg _ (polyAt_mem hj)
    have g4 := hg _ (polyAt_mem (poly := poly) (i := if j + 1 ≠ poly.length then j + 1 else 0) (by split <;> omega))
    rw [edgeFromR, edgeFrom, subR_grid he g1 g2, subR_grid he g4 g3, areaR_grid he (grid_diff g4 g3) (grid_diff g1 g2), orientation]

theorem antipodalInner_bounds {poly : List (Vec F 2)} (i : Nat) : ∀ (k j : Nat) (out : List (Nat × Nat)), j + k = poly.length →
    ∀ r, antipodalInner poly i k j out = some r → j ≤ r.1 ∧ r.1 ≤ poly.length
  | 0, j, out, hj, r, h => by
    rw [antipodalInner] at h
    obtain rfl := Option.some.inj h
    simp only; omega
  | k + 1, j, out, hj, r, h => by
    rw [antipodalInner] at h
    split_ifs at h
    · have := antipodalInner_bounds i k (j + 1) _ (by omega) r h
      omega
    · obtain rfl := Option.some.inj h
      simp only; omega

theorem antipodalOuterR_grid {g : F} {M : Int} (he : Exact fl g M) {poly : List (Vec F 2)} (hg : ∀ v ∈ poly, OnGrid g M v) :
    ∀ (k i j : Nat) (out : List (Nat × Nat)), j ≤ poly.length → antipodalOuterR fl poly k i j out = antipodalOuter poly k i j out
  | 0, _, _, _, _ => rfl
  | k + 1, i, j, out, hj => by
    rw [antipodalOuterR, antipodalOuter, antipodalInnerR_grid he hg i _ _ _ (by omega)]
    split_ifs
    · rfl
    · match e : antipodalInner poly i (poly.length - j) j out with
      | none => rfl
      | some (j', out') =>
        exact antipodalOuterR_grid he hg k (i + 1) j' out' (antipodalInner_bounds i _ _ _ (by omega) _ e).2

theorem antipodalVerticesR_grid {g : F} {M : Int} (he : Exact fl g M) {poly : List (Vec F 2)} (hg : ∀ v ∈ poly, OnGrid g M v) :
    antipodalVerticesR fl poly = antipodalVertices poly := by
  rw [antipodalVerticesR, antipodalVertices]
  split_ifs
  · rfl
  · exact antipodalOuterR_grid he hg _ _ _ _ (by omega)

/-- The furthest pair is written. -/
theorem antipodal_furthest {poly : List (Vec F 2)} (hc : StrictlyConvex poly) :
    ∃ pairs, antipodalVertices poly = some pairs ∧ (∀ x ∈ pairs, x.1 < poly.length ∧ x.2 < poly.length) ∧
      ∃ x ∈ pairs, ∀ v ∈ poly, ∀ w ∈ poly, dist2 v w ≤ dist2 (polyAt poly x.1) (polyAt poly x.2) := by
  have h3 := hc.1
  obtain ⟨pairs, e, hr, -⟩ := antipodalVertices_defined hc
  refine ⟨pairs, e, fun x hx => ⟨by have := hr x hx; omega, by have := hr x hx; omega⟩, ?_⟩
  obtain ⟨p, hp, q, hq, hpq⟩ := exists_farthest poly (by rintro rfl; simp at h3)
  have hne : p ≠ q := by
    rintro rfl
    have h01 := hc.vert_ne' (a := 0) (b := 1) (by omega) (by omega)
    have := hpq _ (vert_mem (by omega) 1) _ (vert_mem (by omega) 0)
    have e0 : dist2 p p = 0 := by simp [dist2]
    rw [e0, dist2_eq] at this
    exact absurd (inner_self_pos (sub_ne_zero.2 h01)) (not_lt.2 this)
  have hfin : ∀ a b : Nat, a < b → b < poly.length →
      (∀ u ∈ poly, ∀ v ∈ poly, dist2 u v ≤ dist2 (vert poly a) (vert poly b)) →
      ∃ x ∈ pairs, ∀ v ∈ poly, ∀ w ∈ poly, dist2 v w ≤ dist2 (polyAt poly x.1) (polyAt poly x.2) := by
    intro a b hab hb hmax
    obtain ⟨g1, g2⟩ := farthest_between hmax (vert_mem (by omega) a) (vert_mem (by omega) b)
    refine ⟨(a, b), antipodalVertices_complete hc e (d := vert poly b - vert poly a)
      (sub_ne_zero.2 (hc.vert_ne' hab (by omega))) hab hb (Or.inl g1) fun hn => ?_, ?_⟩
    · exact hc.vert_ne' (a := b - 1) (b := b) (by omega) (by omega)
        (g2 _ (vert_mem (by omega) _) hn.2).symm
    · simp only
      rw [polyAt_eq (by omega), polyAt_eq hb]
      exact hmax
  obtain ⟨a, ha, rfl⟩ := exists_vert hp
  obtain ⟨b, hb, rfl⟩ := exists_vert hq
  rcases Nat.lt_trichotomy a b with hab | rfl | hab
  · exact hfin a b hab hb hpq
  · exact absurd rfl hne
  · exact hfin b a hab ha fun u hu v hv => by rw [dist2_symm (vert poly b)]; exact hpq u hu v hv

/-! ### Distances on the grid -/

theorem grid_dist2 {g : F} {M : Int} {p q : Vec F 2} (hp : OnGrid g M p) (hq : OnGrid g M q) :
    ∃ k : Int, 0 ≤ k ∧ k ≤ 8 * (M * M) ∧ dist2 p q = k * g ^ 2 := by
  obtain ⟨a, ha, ea⟩ := grid_sub hp hq 0
  obtain ⟨b, hb, eb⟩ := grid_sub hp hq 1
  have h1 : a ^ 2 ≤ (2 * M) ^ 2 := sq_le_sq' (by linarith [(abs_le.1 ha).1]) (abs_le.1 ha).2
  have h2 : b ^ 2 ≤ (2 * M) ^ 2 := sq_le_sq' (by linarith [(abs_le.1 hb).1]) (abs_le.1 hb).2
  refine ⟨a ^ 2 + b ^ 2, by positivity, by nlinarith, ?_⟩
  rw [dist2, Fin.sum_univ_two, ea, eb]
  push_cast
  ring

/-- Squares of distances on a small grid are so different that the errors do not reverse their order. -/
theorem grid_order {g : F} {M : Int} (hu : 0 ≤ u) (hu1 : u < 1)
    (hM : (1 + u) ^ 7 * (8 * (M * M) : Int) < (1 - u) ^ 7 * ((8 * (M * M) : Int) + 1)) {a b c d : Vec F 2}
    (ha : OnGrid g M a) (hb : OnGrid g M b) (hc : OnGrid g M c) (hd : OnGrid g M d)
    (h : (1 - u) ^ 7 * dist2 a b ≤ (1 + u) ^ 7 * dist2 c d) : dist2 a b ≤ dist2 c d := by
  obtain ⟨k, -, -, ek⟩ := grid_dist2 ha hb
  obtain ⟨m, hm0, hm, em⟩ := grid_dist2 hc hd
  rw [ek, em] at h ⊢
  by_cases hg : g = 0
  · simp [hg]
  have hg2 : 0 < g ^ 2 := by positivity
  refine mul_le_mul_of_nonneg_right ?_ hg2.le
  have h' : (1 - u) ^ 7 * (k : F) ≤ (1 + u) ^ 7 * m := by
    rw [← mul_assoc, ← mul_assoc] at h
    exact le_of_mul_le_mul_right h hg2
  by_contra hn
  have h1 : m + 1 ≤ k := by
    have : (m : F) < k := not_le.1 hn
    exact_mod_cast this
  have h2 : (m : F) + 1 ≤ k := by exact_mod_cast h1
  have h3 : (m : F) ≤ (8 * (M * M) : Int) := by exact_mod_cast hm
  have p1 : 0 < (1 - u) ^ 7 := pow_pos (by linarith) 7
  have p2 : (1 - u) ^ 7 ≤ (1 + u) ^ 7 := pow_le_pow_left₀ (by linarith) (by linarith) 7
  have h4 : (1 - u) ^ 7 * ((m : F) + 1) ≤ (1 + u) ^ 7 * m := (mul_le_mul_of_nonneg_left h2 p1.le).trans h'
  have h5 : ((1 + u) ^ 7 - (1 - u) ^ 7) * (m : F) ≤ ((1 + u) ^ 7 - (1 - u) ^ 7) * (8 * (M * M) : Int) :=
    mul_le_mul_of_nonneg_left h3 (by linarith)
  linarith

end Actl.Geo
