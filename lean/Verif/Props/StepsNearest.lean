import Verif.Props.Steps
import Verif.Props.ClosestPair
import Mathlib.Tactic.Positivity

/-!
# The running time of the search for the closest pair

C102.
-/

namespace Actl.Geo

variable {F : Type*} [Field F] [LinearOrder F] [IsStrictOrderedRing F] {sqrt : F → F}

/-! ### Points in a box that are pairwise apart -/

/-- Which half of `[x, x + r]` a coordinate is in. -/
def halfOf (x r a : F) : Bool := decide (a ≤ x + r / 2)

/-- Two points of the same quarter of an `r` by `r` box are closer than `r`. -/
theorem dist_lt_of_quarter (hs : IsSqrt sqrt) {x y r : F} {p q : Vec F 2} (hr : 0 < r)
    (hp : x ≤ p 0 ∧ p 0 ≤ x + r ∧ y ≤ p 1 ∧ p 1 ≤ y + r)
    (hq : x ≤ q 0 ∧ q 0 ≤ x + r ∧ y ≤ q 1 ∧ q 1 ≤ y + r)
    (h0 : halfOf x r (p 0) = halfOf x r (q 0)) (h1 : halfOf y r (p 1) = halfOf y r (q 1)) :
    distancePoint sqrt p q < r := by
  have key : ∀ {x a b : F}, x ≤ a → a ≤ x + r → x ≤ b → b ≤ x + r →
      halfOf x r a = halfOf x r b → (a - b) ^ 2 ≤ (r / 2) ^ 2 := by
    intro x a b ha1 ha2 hb1 hb2 h
    rw [sq_le_sq, abs_of_pos (half_pos hr), abs_le]
    simp only [halfOf, decide_eq_decide] at h
    by_cases hc : a ≤ x + r / 2
    · have := h.1 hc
      constructor <;> linarith
    · have hd : ¬ b ≤ x + r / 2 := fun hb => hc (h.2 hb)
      rw [not_le] at hc hd
      constructor <;> linarith
  obtain ⟨d0, d1, -⟩ := distancePoint_correct hs p q
  have k0 := key hp.1 hp.2.1 hq.1 hq.2.1 h0
  have k1 := key hp.2.2.1 hp.2.2.2 hq.2.2.1 hq.2.2.2 h1
  have hd : distancePoint sqrt p q ^ 2 < r ^ 2 := by
    rw [d1, dist2, Fin.sum_univ_two]
    have : 0 < r ^ 2 := by positivity
    nlinarith
  exact lt_of_pow_lt_pow_left₀ 2 hr.le hd

/-- At most four points that are pairwise at a distance of at least `r` are in an `r` by `r` box. -/
theorem box_length (hs : IsSqrt sqrt) {x y r : F} (hr : 0 < r) (l : List (Vec F 2))
    (hb : ∀ p ∈ l, x ≤ p 0 ∧ p 0 ≤ x + r ∧ y ≤ p 1 ∧ p 1 ≤ y + r) (hl : Bound sqrt l r) :
    l.length ≤ 4 := by
  have hn : (l.map fun p => (halfOf x r (p 0), halfOf y r (p 1))).Nodup := by
    rw [List.Nodup, List.pairwise_map]
    refine hl.imp_of_mem fun {p q} hp hq h he => ?_
    simp only [Prod.mk.injEq] at he
    exact absurd (dist_lt_of_quarter hs hr (hb p hp) (hb q hq) he.1 he.2) (not_lt.2 h)
  have := hn.length_le_card
  rw [List.length_map] at this
  simpa using this

/-- At most eight points of the strip are within `r` below a point, if the points on each side of the
line are pairwise at a distance of at least `r`. -/
theorem strip_length (hs : IsSqrt sqrt) {mx y r : F} (hr : 0 < r) (side : Vec F 2 → Prop)
    [DecidablePred side] (l : List (Vec F 2))
    (hb : ∀ p ∈ l, |p 0 - mx| ≤ r ∧ y ≤ p 1 ∧ p 1 ≤ y + r)
    (hside : ∀ p ∈ l, (side p → p 0 ≤ mx) ∧ (¬ side p → mx ≤ p 0))
    (hl : l.Pairwise fun p q => (side p ↔ side q) → r ≤ distancePoint sqrt p q) : l.length ≤ 8 := by
  rw [List.length_eq_length_filter_add (fun p => decide (side p))]
  have h1 : (l.filter fun p => decide (side p)).length ≤ 4 := by
    refine box_length hs (x := mx - r) (y := y) hr _ (fun p hp => ?_) ?_
    · obtain ⟨h1, h2⟩ := List.mem_filter.1 hp
      have h3 := hb p h1
      rw [abs_le] at h3
      have h4 := (hside p h1).1 (by simpa using h2)
      exact ⟨by linarith, by linarith, h3.2.1, h3.2.2⟩
    · refine (hl.filter _).imp_of_mem fun {p q} hp hq h => h ?_
      have h1 := (List.mem_filter.1 hp).2
      have h2 := (List.mem_filter.1 hq).2
      simp only [decide_eq_true_eq] at h1 h2
      exact ⟨fun _ => h2, fun _ => h1⟩
  have h2 : (l.filter fun p => !decide (side p)).length ≤ 4 := by
    refine box_length hs (x := mx) (y := y) hr _ (fun p hp => ?_) ?_
    · obtain ⟨h1, h2⟩ := List.mem_filter.1 hp
      have h3 := hb p h1
      rw [abs_le] at h3
      have h4 := (hside p h1).2 (by simpa using h2)
      exact ⟨by linarith, by linarith, h3.2.1, h3.2.2⟩
    · refine (hl.filter _).imp_of_mem fun {p q} hp hq h => h ?_
      have h1 := (List.mem_filter.1 hp).2
      have h2 := (List.mem_filter.1 hq).2
      simp only [Bool.not_eq_true', decide_eq_false_iff_not] at h1 h2
      exact ⟨fun h => absurd h h1, fun h => absurd h h2⟩
  omega

/-! ### The strip -/

omit [IsStrictOrderedRing F] in
theorem scanStripCount_spec (p : Vec F 2) (r : F) : ∀ (kept : List (Vec F 2)) (res : DistPair F),
    res.1 ≤ r → (scanStripCount sqrt p res kept).1 = scanStrip sqrt p res kept ∧
      (scanStrip sqrt p res kept).1 ≤ res.1 ∧
      (scanStripCount sqrt p res kept).2 ≤
        (kept.takeWhile fun q => decide (p 1 - q 1 < r)).length + 1
  | [], res, _ => ⟨rfl, le_refl _, by simp [scanStripCount]⟩
  | q :: qs, res, h => by
    rw [scanStripCount, scanStrip]
    by_cases hy : p 1 - q 1 < res.1
    · rw [if_pos hy, if_pos hy]
      simp only
      have hle : (if distancePoint sqrt p q < res.1 then (distancePoint sqrt p q, p, q)
          else res).1 ≤ res.1 := by
        split_ifs with hd
        · exact hd.le
        · exact le_refl _
      obtain ⟨h1, h2, h3⟩ := scanStripCount_spec p r qs _ (hle.trans h)
      refine ⟨h1, h2.trans hle, ?_⟩
      rw [List.takeWhile_cons_of_pos (by simpa using hy.trans_le h), List.length_cons]
      omega
    · rw [if_neg hy, if_neg hy]
      exact ⟨rfl, le_refl _, by simp⟩

/-- Ten iterations of the two loops for every point. -/
theorem stripLoopCount_spec (hs : IsSqrt sqrt) (mx r : F) (side : Vec F 2 → Prop)
    [DecidablePred side] (whole : List (Vec F 2)) (hy : whole.Pairwise fun a b => a 1 ≤ b 1)
    (hside : ∀ p ∈ whole, (side p → p 0 ≤ mx) ∧ (¬ side p → mx ≤ p 0))
    (hr : whole.Pairwise fun p q => (side p ↔ side q) → r ≤ distancePoint sqrt p q) :
    ∀ (ps pre kept : List (Vec F 2)) (res : DistPair F), whole = pre ++ ps → res.1 ≤ r →
      kept.Sublist pre.reverse → (∀ q ∈ kept, |q 0 - mx| ≤ r) →
      (stripLoopCount sqrt mx res kept ps).1 = stripLoop sqrt mx res kept ps ∧
        (stripLoopCount sqrt mx res kept ps).2 ≤ 10 * ps.length
  | [], _, _, _, _, _, _, _ => ⟨rfl, by simp [stripLoopCount]⟩
  | p :: ps, pre, kept, res, hw, h0, hk, hx => by
    have hw' : whole = (pre ++ [p]) ++ ps := by rw [hw]; simp
    rw [stripLoopCount, stripLoop]
    by_cases hc : absValue (p 0 - mx) < res.1
    · rw [if_pos hc, if_pos hc]
      simp only
      rw [absValue_eq] at hc
      obtain ⟨h1, h2, h3⟩ := scanStripCount_spec (sqrt := sqrt) p r kept res h0
      have hrpos : 0 < r := (abs_nonneg _).trans_lt (hc.trans_le h0)
      have hpy : ∀ q ∈ pre, q 1 ≤ p 1 := by
        rw [hw, List.pairwise_append] at hy
        exact fun q hq => hy.2.2 q hq p List.mem_cons_self
      have hsub : (kept.takeWhile fun q => decide (p 1 - q 1 < r)).Sublist kept :=
        List.takeWhile_sublist _
      have hmem : ∀ q ∈ kept.takeWhile (fun q => decide (p 1 - q 1 < r)), q ∈ pre := fun q hq =>
        List.mem_reverse.1 (hk.subset (hsub.subset hq))
      have h8 : (kept.takeWhile fun q => decide (p 1 - q 1 < r)).length ≤ 8 := by
        refine strip_length hs (mx := mx) (y := p 1 - r) hrpos side _ (fun q hq => ?_)
          (fun q hq => hside q (by rw [hw]; exact List.mem_append_left _ (hmem q hq))) ?_
        · have h5 : p 1 - q 1 < r := by
            simpa using List.all_eq_true.1 (List.all_takeWhile (l := kept)) q hq
          have h6 := hpy q (hmem q hq)
          exact ⟨hx q (hsub.subset hq), by linarith, by linarith⟩
        · rw [hw, List.pairwise_append] at hr
          have h6 : pre.reverse.Pairwise fun p q => (side p ↔ side q) → r ≤ distancePoint sqrt p q := by
            rw [List.pairwise_reverse]
            exact hr.1.imp fun h h' => by rw [dist_comm' hs]; exact h h'.symm
          exact h6.sublist (hsub.trans hk)
      rw [h1]
      obtain ⟨e1, e2⟩ := stripLoopCount_spec hs mx r side whole hy hside hr ps (pre ++ [p]) (p :: kept)
        (scanStrip sqrt p res kept) hw' (h2.trans h0) (by simpa using hk) (by
          intro q hq
          rcases List.mem_cons.1 hq with rfl | hq
          · exact (hc.trans_le h0).le
          · exact hx q hq)
      refine ⟨e1, ?_⟩
      rw [List.length_cons]
      omega
    · rw [if_neg hc, if_neg hc]
      simp only
      obtain ⟨e1, e2⟩ := stripLoopCount_spec hs mx r side whole hy hside hr ps (pre ++ [p]) kept res
        hw' h0 (by simpa using hk.cons p) hx
      refine ⟨e1, ?_⟩
      rw [List.length_cons]
      omega

/-! ### The recursion -/

theorem nearestRecCount_spec (hs : IsSqrt sqrt) (alg : StdAlgorithms (Vec F 2)) (ha : alg.Correct) :
    ∀ (n : Nat) (l : List (Vec F 2)), l.length ≤ n → 2 ≤ l.length →
      (l.Pairwise fun a b => a 0 ≤ b 0) → l.Nodup →
      (nearestRecCount sqrt alg l).1 = nearestRec sqrt alg l ∧
        (nearestRecCount sqrt alg l).2 ≤ 12 * (l.length * Nat.clog 2 l.length)
  | 0, l, hn, h2, _, _ => by omega
  | n + 1, l, hn, h2, hx, hd => by
    rw [nearestRecCount, nearestRec]
    by_cases h3 : l.length ≤ 3
    · rw [if_pos h3, if_pos h3]
      refine ⟨rfl, ?_⟩
      simp only
      have hc : 1 ≤ Nat.clog 2 l.length := Nat.clog_pos (by omega) h2
      have h4 : l.length * 1 ≤ l.length * Nat.clog 2 l.length := Nat.mul_le_mul_left _ hc
      have h5 : l.length * (l.length - 1) ≤ 3 * 2 := Nat.mul_le_mul h3 (by omega)
      omega
    · rw [if_neg h3, if_neg h3]
      have hm : l.length / 2 < l.length := by omega
      have hxt := hx
      rw [← List.take_append_drop (l.length / 2) l, List.pairwise_append] at hxt
      have hdt := hd
      rw [← List.take_append_drop (l.length / 2) l, List.nodup_append] at hdt
      have hl1 : (l.take (l.length / 2)).length = l.length / 2 := by rw [List.length_take]; omega
      have hl2 : (l.drop (l.length / 2)).length = l.length - l.length / 2 := by rw [List.length_drop]
      obtain ⟨c1, c2⟩ := nearestRecCount_spec hs alg ha n (l.take (l.length / 2))
        (by omega) (by omega) hxt.1 hdt.1
      obtain ⟨c3, c4⟩ := nearestRecCount_spec hs alg ha n (l.drop (l.length / 2))
        (by omega) (by omega) hxt.2.1 hdt.2.1
      obtain ⟨l1, l2, l3, l4⟩ := nearestRec_correct hs alg ha n (l.take (l.length / 2))
        (by omega) (by omega) hxt.1
      obtain ⟨r1, r2, r3, r4⟩ := nearestRec_correct hs alg ha n (l.drop (l.length / 2))
        (by omega) (by omega) hxt.2.1
      have hmx : elemAt l (l.length / 2) ∈ l.drop (l.length / 2) ∧
          ∀ d ∈ l.drop (l.length / 2), elemAt l (l.length / 2) 0 ≤ d 0 := by
        have e : l.drop (l.length / 2) =
            elemAt l (l.length / 2) :: l.drop (l.length / 2 + 1) := by
          rw [elemAt, List.getElem?_eq_getElem hm, Option.getD_some]
          exact List.drop_eq_getElem_cons hm
        refine ⟨by rw [e]; exact List.mem_cons_self, fun d hd => ?_⟩
        have h := hxt.2.1
        rw [e, List.pairwise_cons] at h
        rw [e] at hd
        rcases List.mem_cons.1 hd with rfl | hd
        · exact le_refl _
        · exact h.1 d hd
      have hmx1 : ∀ c ∈ l.take (l.length / 2), c 0 ≤ elemAt l (l.length / 2) 0 := fun c hc =>
        hxt.2.2 c hc _ hmx.1
      have hmx2 := hmx.2
      simp only
      rw [c1, c3]
      rw [hl1] at c2
      rw [hl2] at c4
      generalize (nearestRecCount sqrt alg (l.take (l.length / 2))).2 = a at *
      generalize (nearestRecCount sqrt alg (l.drop (l.length / 2))).2 = b at *
      generalize nearestRec sqrt alg (l.take (l.length / 2)) = L at *
      generalize nearestRec sqrt alg (l.drop (l.length / 2)) = R at *
      generalize elemAt l (l.length / 2) 0 = mx at *
      have hl : l.Perm (l.take (l.length / 2) ++ l.drop (l.length / 2)) := by
        rw [List.take_append_drop]
      have hlen := hl.length_eq
      generalize l.take (l.length / 2) = lt at *
      generalize l.drop (l.length / 2) = ld at *
      have hm1 : (List.merge L.2 R.2 fun a b => !yLess b a).Perm (lt ++ ld) :=
        (List.merge_perm_append _).trans (l1.append r1)
      have hm2 : (List.merge L.2 R.2 fun a b => !yLess b a).Pairwise fun a b => a 1 ≤ b 1 := by
        have := List.pairwise_merge (le := fun a b : Vec F 2 => !yLess b a)
          (by intro a b c; simp only [yLess]; simpa using fun h1 h2 => le_trans h1 h2)
          (by intro a b; simp only [yLess]; simpa using le_total (a 1) (b 1)) L.2 R.2
          (l2.imp fun h => by simpa [yLess] using h) (r2.imp fun h => by simpa [yLess] using h)
        exact this.imp fun h => by simpa [yLess] using h
      generalize List.merge L.2 R.2 (fun a b => !yLess b a) = whole at *
      have hres : (if R.1.1 < L.1.1 then R.1 else L.1).1 ≤ L.1.1 ∧
          (if R.1.1 < L.1.1 then R.1 else L.1).1 ≤ R.1.1 := by
        split_ifs with h
        · exact ⟨h.le, le_refl _⟩
        · exact ⟨le_refl _, not_lt.1 h⟩
      generalize (if R.1.1 < L.1.1 then R.1 else L.1) = res at *
      classical
      have hnot : ∀ q ∈ ld, q ∉ lt := fun q hq hq' => hdt.2.2 q hq' q hq rfl
      have hap : whole.Pairwise fun p q => (p ∈ lt ↔ q ∈ lt) → res.1 ≤ distancePoint sqrt p q := by
        refine (hm1.pairwise_iff fun h h' => by rw [dist_comm' hs]; exact h h'.symm).2 ?_
        rw [List.pairwise_append]
        refine ⟨l4.imp ?_, r4.imp ?_,
          fun c hc d hd h => absurd (h.1 hc) (hnot d hd)⟩
        · exact fun h _ => hres.1.trans h
        · exact fun h _ => hres.2.trans h
      obtain ⟨f1, f2⟩ := stripLoopCount_spec hs mx res.1 (· ∈ lt) whole hm2 (fun p hp =>
        ⟨hmx1 p, fun hn => hmx2 p ((List.mem_append.1 (hm1.subset hp)).resolve_left hn)⟩) hap
        whole [] [] res rfl (le_refl _) (List.Sublist.refl _) (by simp)
      rw [f1]
      refine ⟨rfl, ?_⟩
      have hwl : whole.length = l.length := by rw [hm1.length_eq, hlen]
      obtain ⟨g1, g2⟩ := clog_half (d := l.length) (by omega)
      rw [hwl] at f2 ⊢
      have k1 : l.length / 2 * Nat.clog 2 (l.length / 2) ≤
          l.length / 2 * (Nat.clog 2 l.length - 1) := Nat.mul_le_mul_left _ (by omega)
      have k2 : (l.length - l.length / 2) * Nat.clog 2 (l.length - l.length / 2) ≤
          (l.length - l.length / 2) * (Nat.clog 2 l.length - 1) := Nat.mul_le_mul_left _ (by omega)
      have k3 : l.length / 2 * (Nat.clog 2 l.length - 1) +
          (l.length - l.length / 2) * (Nat.clog 2 l.length - 1) + l.length =
          l.length * Nat.clog 2 l.length := by
        rw [← Nat.add_mul, show l.length / 2 + (l.length - l.length / 2) = l.length by omega]
        obtain ⟨c, hc⟩ : ∃ c, Nat.clog 2 l.length = c + 1 := ⟨Nat.clog 2 l.length - 1, by omega⟩
        rw [hc, Nat.add_sub_cancel, Nat.mul_succ]
      omega

omit [IsStrictOrderedRing F] in
theorem equalNeighboursCount_spec : ∀ l : List (Vec F 2),
    (equalNeighboursCount l).1 = equalNeighbours l ∧ (equalNeighboursCount l).2 ≤ l.length - 1
  | [] => ⟨rfl, by simp [equalNeighboursCount]⟩
  | [_] => ⟨rfl, by simp [equalNeighboursCount]⟩
  | a :: b :: rest => by
    obtain ⟨h1, h2⟩ := equalNeighboursCount_spec (b :: rest)
    rw [equalNeighboursCount, equalNeighbours]
    simp only [List.length_cons] at h2 ⊢
    split_ifs
    · exact ⟨rfl, by simp only; omega⟩
    · exact ⟨h1, by simp only; omega⟩

theorem nodup_of_equalNeighbours : ∀ l : List (Vec F 2), equalNeighbours l = none →
    (l.Pairwise fun a b => key a ≤ key b) → l.Nodup
  | [], _, _ => List.nodup_nil
  | [_], _, _ => List.nodup_singleton _
  | a :: b :: rest, h, hp => by
    rw [equalNeighbours] at h
    split_ifs at h with he
    rw [List.pairwise_cons] at hp
    have hab : key a < key b := lt_of_le_of_ne (hp.1 b List.mem_cons_self) fun e =>
      he ((isEqual_iff _ _).2 (key_inj.1 e))
    have ih := nodup_of_equalNeighbours (b :: rest) h hp.2
    rw [List.nodup_cons]
    refine ⟨fun hm => ?_, ih⟩
    rcases List.mem_cons.1 hm with e | hm
    · exact hab.ne (by rw [e])
    · exact absurd ((List.pairwise_cons.1 hp.2).1 a hm) (not_le.2 hab)

/-- **C102.** `nearest(points)` is O(N log N): after the points are sorted it takes at most
`13 N ⌈log₂ N⌉` steps (comparisons of neighbours, distances, merged and copied elements, iterations of
the two loops over the strip). -/
theorem nearestPair_steps (hs : IsSqrt sqrt) (alg : StdAlgorithms (Vec F 2)) (ha : alg.Correct)
    (points : List (Vec F 2)) (h2 : 2 ≤ points.length) :
    ∃ r c, nearestPair sqrt alg points = some r ∧ nearestPairCount sqrt alg points = some (r, c) ∧
      c ≤ 13 * (points.length * Nat.clog 2 points.length) := by
  rw [nearestPair, nearestPairCount, if_neg (by omega), if_neg (by omega)]
  obtain ⟨s1, s2⟩ := ha.2 less points (less_strictWeak points)
  simp only
  have hlen := s1.length_eq
  generalize alg.sort less points = sorted at *
  obtain ⟨e1, e2⟩ := equalNeighboursCount_spec sorted
  rw [e1]
  have hc : 1 ≤ Nat.clog 2 points.length := Nat.clog_pos (by omega) h2
  have h4 : points.length * 1 ≤ points.length * Nat.clog 2 points.length :=
    Nat.mul_le_mul_left _ hc
  match he : equalNeighbours sorted with
  | some pair => exact ⟨_, _, rfl, rfl, by omega⟩
  | none =>
    have hk : sorted.Pairwise fun a b => key a ≤ key b := by
      refine s2.imp fun {a b} h => ?_
      by_contra hn
      rw [(less_iff b a).2 (not_le.1 hn)] at h
      cases h
    have hx : sorted.Pairwise fun a b => a 0 ≤ b 0 := by
      refine hk.imp fun {a b} h => ?_
      by_contra hn
      exact absurd (key_lt.2 (Or.inl (not_le.1 hn))) (not_lt.2 h)
    obtain ⟨r1, r2⟩ := nearestRecCount_spec hs alg ha sorted.length sorted (le_refl _)
      (by omega) hx (nodup_of_equalNeighbours sorted he hk)
    rw [r1]
    rw [hlen] at r2
    exact ⟨_, _, rfl, rfl, by omega⟩

/-- Six points meet the hypotheses: at most 13 · 6 · 3 steps. -/
example : ∃ r c, nearestPairCount Real.sqrt (listAlgorithms (Vec ℝ 2))
    [![0, 0], ![3, 1], ![1, 5], ![7, 2], ![3, 2], ![9, 9]] = some (r, c) ∧ c ≤ 234 := by
  obtain ⟨r, c, -, h, hc⟩ := nearestPair_steps isSqrt_real (listAlgorithms _)
    (listAlgorithms_correct _) [![0, 0], ![3, 1], ![1, 5], ![7, 2], ![3, 2], ![9, 9]] (by simp)
  refine ⟨r, c, h, hc.trans ?_⟩
  have : Nat.clog 2 6 ≤ 3 := Nat.clog_le_of_le_pow (by norm_num)
  exact Nat.mul_le_mul_left 13 (Nat.mul_le_mul_left 6 this)

end Actl.Geo
