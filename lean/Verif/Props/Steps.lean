import Verif.Model.Steps
import Verif.Props.LinePolygon
import Verif.Props.Antipodal
import Verif.Spec.Containers
import Mathlib.Data.Nat.Log

/-!
# Documented running times

C102.  The functions `…Count` return the result of the function and the number of operations; each
theorem says both what the result is and how many operations there are.
-/

namespace Actl.Containers

variable {α : Type}

theorem moveAllCount_eq : ∀ inS out : List α,
    moveAllCount inS out = (moveAll inS out, 4 * inS.length + 1)
  | [], out => rfl
  | x :: inS, out => by
    rw [moveAllCount, moveAllCount_eq inS, moveAll, List.length_cons]
    simp only [Prod.mk.injEq, true_and]; omega

theorem fillCount_eq (q : TwoStacks α) :
    q.fillCount.1 = q.fill ∧ q.fillCount.2 + 4 * q.fill.inS.length ≤ 4 * q.inS.length + 2 := by
  rw [TwoStacks.fillCount, TwoStacks.fill, moveAllCount_eq]
  split_ifs <;> simp <;> omega

theorem stepCount_eq (q : TwoStacks α) (op : QOp α) :
    (q.stepCount op).map Prod.fst = q.step op := by
  cases op <;> simp only [TwoStacks.stepCount, TwoStacks.step, Option.map_some, Option.map_none,
    (fillCount_eq q).1] <;> split <;> simp_all

theorem stepCount_le (q q' : TwoStacks α) (op : QOp α) (x : Out α) (c : Nat)
    (h : q.stepCount op = some ((x, q'), c)) : c + 4 * q'.inS.length ≤ 4 * q.inS.length + 5 := by
  have hf := fillCount_eq q
  cases op <;> simp only [TwoStacks.stepCount] at h
  case push => simp only [Option.some.injEq, Prod.mk.injEq] at h; obtain ⟨⟨-, rfl⟩, rfl⟩ := h; simp; omega
  case back => cases h
  case size => simp only [Option.some.injEq, Prod.mk.injEq] at h; obtain ⟨⟨-, rfl⟩, rfl⟩ := h; omega
  case empty =>
    simp only [Option.some.injEq, Prod.mk.injEq] at h; obtain ⟨⟨-, rfl⟩, rfl⟩ := h
    split_ifs <;> omega
  all_goals
    split at h
    · cases h
    · simp only [Option.some.injEq, Prod.mk.injEq] at h
      obtain ⟨⟨-, rfl⟩, rfl⟩ := h
      simp only [hf.1]; omega

theorem runCount_eq : ∀ (ops : List (QOp α)) (q : TwoStacks α),
    (TwoStacks.runCount q ops).map Prod.fst = run TwoStacks.step q ops
  | [], _ => rfl
  | op :: ops, q => by
    rw [TwoStacks.runCount, run, ← stepCount_eq]
    cases h : q.stepCount op with
    | none => rfl
    | some r =>
      obtain ⟨⟨x, q'⟩, c⟩ := r
      simp only [Option.map_some]
      rw [← runCount_eq ops q']
      cases TwoStacks.runCount q' ops <;> rfl

theorem runCount_le : ∀ (ops : List (QOp α)) (q : TwoStacks α) (xs : List (Out α)) (c : Nat),
    TwoStacks.runCount q ops = some (xs, c) → c ≤ 5 * ops.length + 4 * q.inS.length
  | [], _, _, _, h => by
    simp only [TwoStacks.runCount, Option.some.injEq, Prod.mk.injEq] at h
    omega
  | op :: ops, q, xs, c, h => by
    rw [TwoStacks.runCount] at h
    cases hs : q.stepCount op with
    | none => simp [hs] at h
    | some r =>
      obtain ⟨⟨x, q'⟩, d⟩ := r
      rw [hs] at h
      simp only at h
      cases hr : TwoStacks.runCount q' ops with
      | none => simp [hr] at h
      | some s =>
        obtain ⟨ys, e⟩ := s
        rw [hr] at h
        simp only [Option.some.injEq, Prod.mk.injEq] at h
        have h1 := stepCount_le q q' op x d hs
        have h2 := runCount_le ops q' ys e hr
        rw [List.length_cons]
        omega

/-- **C102.** A queue of two stacks is amortized O(1): every history of an initially empty queue that
stays within the contract calls functions of the two stacks at most five times as often as functions
of the queue are called. -/
theorem twoStacks_amortized (ops : List (QOp α)) (xs : List (Out α))
    (h : run TwoStacks.step ⟨[], []⟩ ops = some xs) :
    ∃ c, TwoStacks.runCount ⟨[], []⟩ ops = some (xs, c) ∧ c ≤ 5 * ops.length := by
  have h1 := runCount_eq ops ⟨[], []⟩
  rw [h] at h1
  cases hr : TwoStacks.runCount (⟨[], []⟩ : TwoStacks α) ops with
  | none => simp [hr] at h1
  | some r =>
    obtain ⟨ys, c⟩ := r
    rw [hr] at h1
    simp only [Option.map_some, Option.some.injEq] at h1
    subst h1
    exact ⟨c, rfl, by simpa using runCount_le ops _ _ c hr⟩

/-- A history of seven calls with twenty-four stack operations. -/
example : TwoStacks.runCount (⟨[], []⟩ : TwoStacks Nat)
    [.push 1, .push 2, .push 3, .pop, .front, .size, .pop] =
    some ([.unit, .unit, .unit, .unit, .val 2, .nat 2, .unit], 24) := rfl

/-- **C102.** A single call is not O(1): the first `pop` after `k` calls of `push` moves all the
elements. -/
theorem twoStacks_single (l : List α) (hl : l ≠ []) :
    ∃ q, (⟨l, []⟩ : TwoStacks α).stepCount .pop = some ((.unit, q), 4 * l.length + 3) := by
  have hm : ∀ (l out : List α), moveAll l out = l.reverse ++ out := by
    intro l
    induction l with
    | nil => intro out; rfl
    | cons x l ih => intro out; rw [moveAll, ih]; simp
  simp only [TwoStacks.stepCount, TwoStacks.fillCount, List.isEmpty_nil, if_true, moveAllCount_eq, hm,
    List.append_nil]
  obtain ⟨y, ys, e⟩ := List.exists_cons_of_ne_nil (List.reverse_ne_nil_iff.2 hl)
  rw [e]
  refine ⟨⟨[], ys⟩, ?_⟩
  simp only [Option.some.injEq, Prod.mk.injEq, true_and]
  omega

end Actl.Containers

namespace Actl.BinaryPow

theorem loopCount_eq {α : Type _} (mul : α → α → α) : ∀ (n power : Nat), power ≤ n → 1 ≤ power →
    ∀ res value, (loopCount mul res value power).1 = loop mul res value power ∧
      (loopCount mul res value power).2 ≤ 2 * Nat.log 2 power + 1
  | 0, power, h, h1 => by omega
  | n + 1, power, h, h1 => by
    intro res value
    rw [loopCount, loop]
    by_cases hp : power > 1
    · rw [if_pos hp, if_pos hp]
      obtain ⟨e1, e2⟩ := loopCount_eq mul n (power / 2) (by omega) (by omega)
        (if power % 2 = 1 then mul res value else res) (mul value value)
      refine ⟨e1, ?_⟩
      have h3 : Nat.log 2 power = Nat.log 2 (power / 2) + 1 :=
        Nat.log_of_one_lt_of_le (by omega) (by omega)
      simp only
      split_ifs at e2 ⊢ <;> omega
    · rw [if_neg hp, if_neg hp]
      exact ⟨rfl, by simp⟩

/-- **C102.** `binary_pow` multiplies at most `2 log₂ power + 1` times. -/
theorem binaryPow_steps {α : Type _} (mul : α → α → α) (one value : α) (power : Nat) :
    (binaryPowCount mul one value power).1 = binaryPow mul one value power ∧
      (binaryPowCount mul one value power).2 ≤ 2 * Nat.log 2 power + 1 := by
  rw [binaryPowCount, binaryPow]
  split_ifs with h
  · exact ⟨rfl, by simp⟩
  · exact loopCount_eq mul power power (le_refl _) (by omega) one value

/-- 3 to the power of 13 with six multiplications. -/
example : (binaryPowCount (· * ·) 1 3 13).1 = 1594323 ∧ (binaryPowCount (· * ·) 1 3 13).2 = 6 := by
  simp [binaryPowCount, loopCount]

end Actl.BinaryPow

namespace Actl.Geo

/-! ### The extreme vertex -/

theorem clog_half {d : Nat} (h : 2 ≤ d) :
    Nat.clog 2 (d / 2) + 1 ≤ Nat.clog 2 d ∧ Nat.clog 2 (d - d / 2) + 1 ≤ Nat.clog 2 d := by
  have e : Nat.clog 2 d = Nat.clog 2 ((d + 1) / 2) + 1 := by
    rw [Nat.clog_of_two_le (by omega) h, show d + 2 - 1 = d + 1 by omega]
  have e2 : d - d / 2 = (d + 1) / 2 := by omega
  rw [e2, e]
  exact ⟨by have := Nat.clog_mono_right 2 (show d / 2 ≤ (d + 1) / 2 by omega); omega, le_refl _⟩

theorem extremeLoopCount_spec (cmp : Nat → Nat → Turn) (n : Nat) :
    ∀ (k first last : Nat) (sgn : Turn), first < last → last - first ≤ k →
      ∃ c, extremeLoopCount cmp n k first last sgn = some (extremeLoop cmp n k first last sgn, c) ∧
        c ≤ 3 * Nat.clog 2 (last - first)
  | 0, first, last, sgn, h, hk => by omega
  | k + 1, first, last, sgn, h, hk => by
    rw [extremeLoopCount, extremeLoop]
    by_cases h1 : first + 1 = last
    · rw [if_pos h1, if_pos h1]
      exact ⟨0, rfl, by omega⟩
    · rw [if_neg h1, if_neg h1]
      simp only
      obtain ⟨hc1, hc2⟩ := clog_half (d := last - first) (by omega)
      have hm : (isExtremeCount cmp n (first + (last - first) / 2)).1 =
        isExtreme cmp n (first + (last - first) / 2) := rfl
      have hm2 : (isExtremeCount cmp n (first + (last - first) / 2)).2 ≤ 2 := by
        rw [isExtremeCount]; simp only; split_ifs <;> omega
      rw [hm]
      generalize (isExtremeCount cmp n (first + (last - first) / 2)).2 = a at *
      generalize isExtreme cmp n (first + (last - first) / 2) = m at *
      have hle : (a + if sgn ≠ m.2 then 0 else 1) ≤ 3 := by split_ifs <;> omega
      generalize (a + if sgn ≠ m.2 then 0 else 1) = a' at *
      by_cases hm1 : m.1 = true
      · rw [if_pos hm1, if_pos hm1]
        exact ⟨a, rfl, by omega⟩
      · rw [if_neg hm1, if_neg hm1]
        by_cases hp : (if sgn ≠ m.2 then sgn.value < m.2.value
          else sgn = cmp first (first + (last - first) / 2))
        · obtain ⟨c, e, hc⟩ := extremeLoopCount_spec cmp n k first (first + (last - first) / 2) sgn
            (by omega) (by omega)
          have e3 : first + (last - first) / 2 - first = (last - first) / 2 := by omega
          rw [e3] at hc
          refine ⟨a' + c, ?_, by omega⟩
          rw [if_pos hp, if_pos hp, e]
          rfl
        · obtain ⟨c, e, hc⟩ := extremeLoopCount_spec cmp n k (first + (last - first) / 2) last m.2
            (by omega) (by omega)
          have e3 : last - (first + (last - first) / 2) = last - first - (last - first) / 2 := by omega
          rw [e3] at hc
          refine ⟨a' + c, ?_, by omega⟩
          rw [if_neg hp, if_neg hp, e]
          rfl

variable {F : Type*} [Field F] [LinearOrder F]

/-- **C102.** `extreme_vertex` is O(log N): for every list of at least two vertices and every direction
it compares vertices at most `3 ⌈log₂ N⌉ + 2` times. -/
theorem extremeVertex_steps (poly : List (Vec F 2)) (direction : Vec F 2 → Vec F 2) (i : Nat)
    (h : extremeVertex poly direction = some i) :
    ∃ c, extremeVertexCount poly direction = some (i, c) ∧ c ≤ 3 * Nat.clog 2 poly.length + 2 := by
  rw [extremeVertex] at h
  rw [extremeVertexCount]
  split_ifs at h with hn
  rw [if_neg hn]
  simp only at h ⊢
  generalize vertexCmp direction poly = cmp at *
  have hm : (isExtremeCount cmp poly.length 0).1 = isExtreme cmp poly.length 0 := rfl
  have hm2 : (isExtremeCount cmp poly.length 0).2 ≤ 2 := by
    rw [isExtremeCount]; simp only; split_ifs <;> omega
  rw [hm]
  generalize (isExtremeCount cmp poly.length 0).2 = a at *
  generalize isExtreme cmp poly.length 0 = m at *
  simp only [Option.some.injEq] at h
  split_ifs at h with hm1
  · rw [if_pos hm1]
    exact ⟨a, by rw [h], by omega⟩
  · rw [if_neg hm1]
    obtain ⟨c, e, hc⟩ := extremeLoopCount_spec cmp poly.length poly.length 0 poly.length m.2
      (by omega) (by omega)
    rw [e, h]
    exact ⟨a + c, rfl, by rw [Nat.sub_zero] at hc; omega⟩

/-- The last vertex of a pentagon is found with seven comparisons. -/
example : extremeVertexCount [![(0 : ℚ), 0], ![2, 0], ![3, 2], ![1, 4], ![-1, 2]] (fun _ => ![0, -1]) =
    some (4, 7) := by decide +kernel

/-! ### A line and a convex polygon -/

theorem chainLoopCount_spec (orient : Nat → Turn) (n : Nat) (o : Turn) :
    ∀ (k first d : Nat), first < n → 1 ≤ d → d < n → d ≤ k →
      ∃ c, chainLoopCount orient n o k first ((first + d) % n) =
          some (chainLoop orient n o k first ((first + d) % n), c) ∧ c ≤ Nat.clog 2 d := by
  intro k
  induction k with
  | zero => intro first d _ h1 _ h2; omega
  | succ k ih =>
    intro first d hf hd1 hdn hdk
    rw [chainLoopCount, chainLoop, nextAt_eq hf, cyclic_distance hf hdn]
    rcases Nat.eq_or_lt_of_le hd1 with rfl | hd2
    · rw [if_pos rfl, if_pos rfl]
      exact ⟨0, rfl, by omega⟩
    · have hne : (first + 1) % n ≠ (first + d) % n := by
        intro h
        have h1 := cyclic_distance hf (show 1 < n by omega)
        rw [h, cyclic_distance hf hdn] at h1
        omega
      rw [if_neg hne, if_neg hne]
      simp only
      obtain ⟨hc1, hc2⟩ := clog_half (d := d) (by omega)
      by_cases hm : orient ((first + d / 2) % n) = o
      · rw [if_pos hm, if_pos hm]
        have e : (first + d) % n = ((first + d / 2) % n + (d - d / 2)) % n := by
          rw [Nat.mod_add_mod]; congr 1; omega
        rw [e]
        obtain ⟨c, e1, hc⟩ := ih ((first + d / 2) % n) (d - d / 2) (Nat.mod_lt _ (by omega))
          (by omega) (by omega) (by omega)
        exact ⟨1 + c, by rw [e1]; rfl, by omega⟩
      · rw [if_neg hm, if_neg hm]
        obtain ⟨c, e1, hc⟩ := ih first (d / 2) hf (by omega) (by omega) (by omega)
        exact ⟨1 + c, by rw [e1]; rfl, by omega⟩

theorem chain_steps (orient : Nat → Turn) (n : Nat) (o : Turn) {first last : Nat} (hf : first < n)
    (hl : last < n) (hne : first ≠ last) :
    ∃ c, chainLoopCount orient n o n first last = some (chainLoop orient n o n first last, c) ∧
      c ≤ Nat.clog 2 n := by
  obtain ⟨d, hd1, hd2, hd3⟩ : ∃ d, 1 ≤ d ∧ d < n ∧ (first + d) % n = last := by
    rcases Nat.lt_or_gt_of_ne hne with h | h
    · exact ⟨last - first, by omega, by omega, by
        rw [show first + (last - first) = last by omega, Nat.mod_eq_of_lt hl]⟩
    · exact ⟨last + n - first, by omega, by omega, by
        rw [show first + (last + n - first) = last + n by omega, Nat.add_mod_right,
          Nat.mod_eq_of_lt hl]⟩
  obtain ⟨c, e, hc⟩ := chainLoopCount_spec orient n o n first d hf hd1 hd2 hd2.le
  rw [hd3] at e
  exact ⟨c, e, hc.trans (Nat.clog_mono_right 2 hd2.le)⟩

/-- **C102.** The intersection of a line, ray or segment with a convex polygon is O(log N): at most
`8 ⌈log₂ N⌉ + 6` orientation tests. -/
theorem intersectConvex_steps [IsStrictOrderedRing F] {poly : List (Vec F 2)}
    (hc : StrictlyConvex poly) {l : Line F 2} (hv : l.vector ≠ 0) :
    ∃ ts c, intersectConvex l poly = some ts ∧ intersectConvexCount l poly = some (ts, c) ∧
      c ≤ 8 * Nat.clog 2 poly.length + 6 := by
  have h3 := hc.1
  have hv' : -l.vector ≠ 0 := neg_ne_zero.2 hv
  have hdeg : ¬ degenerate l.vector = true := by rw [degenerate_iff]; exact hv
  obtain ⟨m, em, hm, hm0, hm1, hm2⟩ := extremeVertex_correct hc hv
  obtain ⟨M, eM, hM, hM0, hM1, hM2⟩ := extremeVertex_correct hc hv'
  have hmM : M ≠ m := by
    rintro rfl
    have hall : ∀ k, area l.vector (vert poly k) = area l.vector (vert poly M) := by
      intro k
      have h1 := hm1 _ (vert_mem (by omega) k)
      have h2 := hM1 _ (vert_mem (by omega) k)
      simp only [LeftOrOn, Pi.add_apply, Pi.neg_apply] at h1 h2
      simp only [area]
      linarith
    have hin : ∀ k, inner (vert poly k) (perp l.vector) = inner (vert poly M) (perp l.vector) := by
      intro k
      rw [inner_perp, inner_perp]
      have := hall k
      simp only [area] at this ⊢
      linarith
    exact (hc.linear_local (perp_ne hv) 0).2.2 (by rw [hin, hin (0 + 1)]) (by rw [hin, hin (0 + 2)])
  obtain ⟨c1, e1, b1⟩ := extremeVertex_steps poly _ m em
  obtain ⟨c2, e2, b2⟩ := extremeVertex_steps poly _ M eM
  unfold intersectConvex intersectConvexCount
  rw [if_neg hdeg, if_neg hdeg, em, eM, e1, e2]
  simp only [Option.bind_some]
  split_ifs with ho
  · exact ⟨_, _, rfl, rfl, by omega⟩
  · obtain ⟨c3, e3, b3⟩ := chain_steps (vertexOrient l poly) poly.length (vertexOrient l poly M)
      hM hm hmM
    obtain ⟨c4, e4, b4⟩ := chain_steps (vertexOrient l poly) poly.length (vertexOrient l poly m)
      hm hM hmM.symm
    rw [e3, e4]
    exact ⟨_, _, rfl, rfl, by omega⟩

/-- A pentagon: both vertices and both chains are found with twelve tests. -/
example : (intersectConvexCount ⟨![(-2 : ℚ), 1], ![1, 0], .free⟩
    [![0, 0], ![2, 0], ![3, 2], ![1, 4], ![-1, 2]]).map Prod.snd = some 12 := by decide +kernel

/-! ### Antipodal vertices -/

theorem antipodalInner_length {poly : List (Vec F 2)} {i : Nat} :
    ∀ (k j : Nat) (out : List (Nat × Nat)) (j' : Nat) (out' : List (Nat × Nat)),
      k = poly.length - j → j ≤ poly.length →
      antipodalInner poly i k j out = some (j', out') →
      j ≤ j' ∧ j' ≤ poly.length ∧ out'.length + j ≤ out.length + j' + 1 ∧
        (j' < poly.length ∨ out'.length + j ≤ out.length + j') ∧ (k ≠ 0 → i + 1 < poly.length)
  | 0, j, out, j', out', hk, hj, h => by
    simp only [antipodalInner, Option.some.injEq, Prod.mk.injEq] at h
    obtain ⟨rfl, rfl⟩ := h
    omega
  | k + 1, j, out, j', out', hk, hj, h => by
    rw [antipodalInner] at h
    split_ifs at h with h1 h2
    · have := antipodalInner_length k (j + 1) (out ++ [(i, j)]) j' out' (by omega) (by omega) h
      simp only [List.length_append, List.length_singleton] at this
      omega
    · simp only [Option.some.injEq, Prod.mk.injEq] at h
      obtain ⟨rfl, rfl⟩ := h
      simp only [List.length_append, List.length_singleton]
      omega

theorem antipodalOuter_length {poly : List (Vec F 2)} :
    ∀ (k i j : Nat) (out pairs : List (Nat × Nat)), j ≤ poly.length → i ≤ poly.length - 1 →
      out.length + 1 ≤ i + j → antipodalOuter poly k i j out = some pairs →
      pairs.length + 1 ≤ poly.length - 1 + poly.length
  | 0, _, _, _, _, _, _, _, h => by simp [antipodalOuter] at h
  | k + 1, i, j, out, pairs, hj, hi, ho, h => by
    rw [antipodalOuter] at h
    split_ifs at h with h1
    · simp only [Option.some.injEq] at h
      subst h; omega
    · split at h
      · cases h
      · rename_i j' out' heq
        have := antipodalInner_length _ j out j' out' rfl hj heq
        exact antipodalOuter_length k (i + 1) j' out' pairs (by omega) (by omega) (by omega) h

/-- **C102.** `antipodal_vertices`, and with it `max_distance`, is O(N): for every polygon on which the
function is defined, at most `2 N - 2` pairs are written, and a distance is computed and an
orientation tested once for each of them. -/
theorem antipodalVertices_steps (poly : List (Vec F 2)) (pairs : List (Nat × Nat))
    (h : antipodalVertices poly = some pairs) : pairs.length ≤ 2 * (poly.length - 1) := by
  rw [antipodalVertices] at h
  split_ifs at h with h1
  have := antipodalOuter_length (poly.length + 1) 0 1 [] pairs (by omega) (by omega) (by simp) h
  omega

/-- A square: the bound is nearly reached. -/
example : (antipodalVertices [![(0 : ℚ), 0], ![1, 0], ![1, 1], ![0, 1]]).map List.length = some 5 := by
  decide +kernel

/-! ### The convex hull -/

theorem popLastCount_spec (points : List (Vec F 2)) (p : Vec F 2) : ∀ last,
    (popLastCount points p last).1 = popLast points p last ∧ popLast points p last ≤ last ∧
      (popLastCount points p last).2 + popLast points p last ≤ last + 1
  | 0 => by simp [popLastCount, popLast]
  | last + 1 => by
    obtain ⟨h1, h2, h3⟩ := popLastCount_spec points p last
    rw [popLastCount, popLast]
    split_ifs
    · exact ⟨rfl, le_refl _, by omega⟩
    · exact ⟨h1, by omega, by simp only; omega⟩

theorem hullLoopCount_spec (pivot : Nat) : ∀ (fuel i : Nat) (points : List (Vec F 2)) (last : Nat),
    (hullLoopCount pivot fuel i points last).1 = hullLoop pivot fuel i points last ∧
      (hullLoopCount pivot fuel i points last).2 + (hullLoop pivot fuel i points last).2 ≤
        last + 2 * fuel
  | 0, i, points, last => by simp [hullLoopCount, hullLoop]
  | fuel + 1, i, points, last => by
    rw [hullLoopCount, hullLoop]
    simp only
    generalize (if i = pivot then points.take i ++ sortPointsDown (points.drop i) else points) = pts
    obtain ⟨h1, h2, h3⟩ := popLastCount_spec pts (pointAt pts i) last
    rw [h1]
    obtain ⟨h4, h5⟩ := hullLoopCount_spec pivot fuel (i + 1)
      (pts.set (popLast pts (pointAt pts i) last + 1) (pointAt pts i))
      (popLast pts (pointAt pts i) last + 1)
    exact ⟨h4, by omega⟩

/-- **C102.** After the points are sorted, `convex_hull` makes at most `3 N - 2` orientation tests. -/
theorem convexHull_steps (points : List (Vec F 2)) :
    (convexHullCount points).1 = convexHull points ∧
      (convexHullCount points).2 ≤ 3 * points.length - 2 := by
  match points with
  | [] => exact ⟨rfl, by simp [convexHullCount]⟩
  | [x] => exact ⟨rfl, by simp [convexHullCount]⟩
  | x :: y :: rest =>
    rw [convexHullCount, convexHull]
    simp only
    generalize hcomp : (fun p : Vec F 2 => !decide (orientationLine p
      (Line.through (minPoint x (y :: rest)) (maxPoint x (y :: rest)) .free) = .right)) = comp
    have hlen : (sortPoints (List.filter comp (x :: y :: rest)) ++
        List.filter (fun p => !comp p) (x :: y :: rest)).length = rest.length + 2 := by
      rw [List.length_append, sortPoints, List.length_mergeSort]
      have := List.length_eq_length_filter_add (l := x :: y :: rest) comp
      simp only [List.length_cons] at this ⊢
      omega
    have hcomp' : ∀ p : Vec F 2, (!decide (orientationLine p
      (Line.through (minPoint x (y :: rest)) (maxPoint x (y :: rest)) .free) = .right)) = comp p :=
      fun p => congrFun hcomp p
    simp only [hcomp'] at *
    generalize (sortPoints (List.filter comp (x :: y :: rest)) ++
        List.filter (fun p => !comp p) (x :: y :: rest)) = pts at *
    obtain ⟨h1, h2⟩ := hullLoopCount_spec (List.filter comp (x :: y :: rest)).length
      (pts.length - 2) 2 pts 1
    rw [h1]
    generalize hullLoop (List.filter comp (x :: y :: rest)).length (pts.length - 2) 2 pts 1 = r at *
    obtain ⟨h3, h4, h5⟩ := popLastCount_spec r.1 (pointAt r.1 0) r.2
    rw [h3]
    refine ⟨rfl, ?_⟩
    simp only [List.length_cons]
    omega

/-- The main loop on five points: one of them leaves the hull. -/
example : (hullLoopCount 7 3 2 [![(0 : ℚ), 0], ![4, 0], ![5, 1], ![4, 4], ![0, 4]] 1).2 = 3 := by
  decide +kernel

end Actl.Geo
