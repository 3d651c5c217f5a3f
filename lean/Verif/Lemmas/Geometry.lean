import Verif.Spec.Geometry
import Mathlib.Algebra.Order.BigOperators.Group.Finset
import Mathlib.Tactic.Ring
import Mathlib.Tactic.Linarith
import Mathlib.Tactic.LinearCombination
import Mathlib.Tactic.FieldSimp

/-! Lemmas on the geometric model: dot products, cyclic positions, the polygon area loop. -/

namespace Actl.Geo

variable {F : Type*}

theorem foldl_dot [CommRing F] {n : Nat} (l r : Vec F n) (is : List (Fin n)) (a : F) :
    is.foldl (fun res i => res + l i * r i) a = a + (is.map fun i => l i * r i).sum := by
  induction is generalizing a with
  | nil => simp
  | cons i is ih => simp [ih, add_assoc]

theorem dot_eq [CommRing F] {n : Nat} (l r : Vec F n) : dot l r = inner l r := by
  rw [dot, foldl_dot, zero_add, inner, ← List.ofFn_eq_map, List.sum_ofFn]

theorem inner_comm [CommRing F] {n : Nat} (u v : Vec F n) : inner u v = inner v u := by
  simp only [inner, mul_comm]

theorem inner_add_left [CommRing F] {n : Nat} (u v w : Vec F n) :
    inner (u + v) w = inner u w + inner v w := by
  simp only [inner, Pi.add_apply, add_mul, Finset.sum_add_distrib]

theorem inner_sub_left [CommRing F] {n : Nat} (u v w : Vec F n) :
    inner (u - v) w = inner u w - inner v w := by
  simp only [inner, Pi.sub_apply, sub_mul, Finset.sum_sub_distrib]

theorem inner_smul_left [CommRing F] {n : Nat} (t : F) (u w : Vec F n) :
    inner (t • u) w = t * inner u w := by
  simp only [inner, Pi.smul_apply, smul_eq_mul, mul_assoc, Finset.mul_sum]

theorem inner_add_right [CommRing F] {n : Nat} (u v w : Vec F n) :
    inner w (u + v) = inner w u + inner w v := by
  rw [inner_comm, inner_add_left, inner_comm u, inner_comm v]

theorem inner_sub_right [CommRing F] {n : Nat} (u v w : Vec F n) :
    inner w (u - v) = inner w u - inner w v := by
  rw [inner_comm, inner_sub_left, inner_comm u, inner_comm v]

theorem inner_smul_right [CommRing F] {n : Nat} (t : F) (u w : Vec F n) :
    inner w (t • u) = t * inner w u := by
  rw [inner_comm, inner_smul_left, inner_comm u]

theorem dist2_eq [CommRing F] {n : Nat} (p q : Vec F n) : dist2 p q = inner (p - q) (p - q) := by
  simp only [dist2, inner, Pi.sub_apply, sq]

theorem degenerate_iff [Zero F] [DecidableEq F] {n : Nat} (p : Vec F n) :
    degenerate p = true ↔ p = 0 := by
  simp only [degenerate, List.all_eq_true, decide_eq_true_eq, List.mem_finRange, true_implies]
  exact ⟨fun h => funext h, fun h i => congrFun h i⟩

theorem isEqual_iff [DecidableEq F] {n : Nat} (l r : Vec F n) : isEqual l r = true ↔ l = r := by
  simp only [isEqual, List.all_eq_true, decide_eq_true_eq, List.mem_finRange, true_implies]
  exact ⟨fun h => funext h, fun h i => congrFun h i⟩

section Ordered

variable [Field F] [LinearOrder F] [IsStrictOrderedRing F]

theorem inner_self_nonneg {n : Nat} (u : Vec F n) : 0 ≤ inner u u :=
  Finset.sum_nonneg fun i _ => mul_self_nonneg (u i)

theorem inner_self_eq_zero {n : Nat} (u : Vec F n) : inner u u = 0 ↔ u = 0 := by
  rw [inner, Finset.sum_eq_zero_iff_of_nonneg fun i _ => mul_self_nonneg (u i)]
  constructor
  · intro h; funext i; exact mul_self_eq_zero.1 (h i (Finset.mem_univ i))
  · rintro rfl i -; simp

theorem inner_self_pos {n : Nat} {u : Vec F n} (h : u ≠ 0) : 0 < inner u u :=
  lt_of_le_of_ne (inner_self_nonneg u) fun e => h ((inner_self_eq_zero u).1 e.symm)

end Ordered

theorem vec2_ext {u v : Vec F 2} (h0 : u 0 = v 0) (h1 : u 1 = v 1) : u = v := by
  funext i
  match i with
  | 0 => exact h0
  | 1 => exact h1

/-! ### Cyclic positions -/

theorem cyclicAdd_eq {cycle i k : Int} (hi0 : 0 ≤ i) (hi : i < cycle) (hk0 : -cycle < k)
    (hk : k < cycle) : cyclicAdd cycle i k = (i + k) % cycle := by
  have e : ∀ x : Int, 0 ≤ x → x < cycle → x % cycle = x := fun x h0 h1 => Int.emod_eq_of_lt h0 h1
  unfold cyclicAdd
  split
  · split
    · rw [← e (i + (k - cycle)) (by omega) (by omega)]
      rw [show i + (k - cycle) = i + k - cycle by ring, Int.sub_emod_right]
    · rw [e (i + k) (by omega) (by omega)]; omega
  · split
    · rw [← e (i + (k + cycle)) (by omega) (by omega)]
      rw [show i + (k + cycle) = i + k + cycle by ring, Int.add_emod_right]
    · rw [e (i + k) (by omega) (by omega)]; omega

theorem cyclicNext_eq {cycle i : Int} (hi0 : 0 ≤ i) (hi : i < cycle) :
    cyclicNext cycle i = (i + 1) % cycle := by
  unfold cyclicNext
  split
  · next h => rw [h, Int.emod_self]
  · rw [Int.emod_eq_of_lt (by omega) (by omega)]

theorem cyclicPrev_eq {cycle i : Int} (hi0 : 0 ≤ i) (hi : i < cycle) :
    cyclicPrev cycle i = (i - 1) % cycle := by
  unfold cyclicPrev
  split
  · next h =>
    subst h
    rw [show (0 : Int) - 1 = -1 by ring, ← Int.add_emod_right, Int.emod_eq_of_lt] <;> omega
  · rw [Int.emod_eq_of_lt (by omega) (by omega)]

theorem cyclicDist_eq {cycle i j : Int} (hi0 : 0 ≤ i) (hi : i < cycle) (hj0 : 0 ≤ j)
    (hj : j < cycle) : cyclicDist cycle i j = (i - j) % cycle := by
  unfold cyclicDist
  split
  · rw [Int.emod_eq_of_lt] <;> omega
  · rw [← Int.add_emod_right, Int.emod_eq_of_lt] <;> omega

/-! ### The polygon area loop -/

/-- The vertex with a position taken modulo the number of vertices. -/
def vert [Zero F] (poly : List (Vec F 2)) (i : Nat) : Vec F 2 :=
  (poly[i % poly.length]?).getD 0

theorem vert_add [Zero F] (poly : List (Vec F 2)) (i : Nat) :
    vert poly (i + poly.length) = vert poly i := by simp [vert]

theorem cyclicAt_zero [Zero F] (poly : List (Vec F 2)) {i : Nat} (h : i < poly.length) :
    cyclicAt poly i 0 = vert poly i := by
  rw [cyclicAt, cyclicAdd_eq (by omega) (by omega) (by omega) (by omega), vert]
  congr 2

theorem cyclicAt_one [Zero F] (poly : List (Vec F 2)) {i : Nat} (h : i < poly.length) :
    cyclicAt poly i 1 = vert poly (i + 1) := by
  have : cyclicAdd poly.length i 1 = ((i : Int) + 1) % poly.length := by
    by_cases h1 : poly.length = 1
    · have : i = 0 := by omega
      subst this
      rw [h1]; rfl
    · exact cyclicAdd_eq (by omega) (by omega) (by omega) (by omega)
  rw [cyclicAt, this, vert]
  congr 2

theorem cyclicAt_neg_one [Zero F] (poly : List (Vec F 2)) {i : Nat} (h : i < poly.length) :
    cyclicAt poly i (-1) = vert poly (i + poly.length - 1) := by
  have : cyclicAdd poly.length i (-1) = ((i : Int) + poly.length - 1) % poly.length := by
    by_cases h1 : poly.length = 1
    · have : i = 0 := by omega
      subst this
      rw [h1]; rfl
    · rw [cyclicAdd_eq (by omega) (by omega) (by omega) (by omega),
        show (i : Int) + poly.length - 1 = i + -1 + poly.length by ring, Int.add_emod_right]
  rw [cyclicAt, this, vert]
  congr 2
  have : ((i + poly.length - 1 : Nat) : Int) = (i : Int) + poly.length - 1 := by omega
  rw [← this, ← Int.natCast_mod, Int.toNat_natCast]

theorem polyAreaLoop_eq [CommRing F] (poly : List (Vec F 2)) (n : Nat) : ∀ (i : Nat) (res : F),
    i + n = poly.length → i < poly.length ∨ n = 0 →
    polyAreaLoop poly n (i % poly.length : Nat) res = res + ∑ j ∈ Finset.range n,
      vert poly (i + j) 0 * (vert poly (i + j + 1) 1 - vert poly (i + j + poly.length - 1) 1) := by
  induction n with
  | zero => intro i res _ _; simp [polyAreaLoop]
  | succ n ih =>
    intro i res h _
    have hi : i < poly.length := by omega
    rw [polyAreaLoop, Nat.mod_eq_of_lt hi, cyclicAt_zero poly hi, cyclicAt_one poly hi,
      cyclicAt_neg_one poly hi]
    have e : cyclicNext (poly.length : Int) (i : Int) = ((i + 1) % poly.length : Nat) := by
      rw [cyclicNext_eq (by omega) (by omega)]; simp
    rw [e, ih (i + 1) _ (by omega) (by omega), Finset.sum_range_succ', add_assoc]
    congr 1
    rw [add_comm]
    simp only [add_zero]
    congr 1
    refine Finset.sum_congr rfl fun j _ => ?_
    rw [show i + 1 + j = i + (j + 1) by omega]

theorem polyArea_eq_sum [CommRing F] (poly : List (Vec F 2)) :
    polyArea poly = ∑ j ∈ Finset.range poly.length,
      vert poly j 0 * (vert poly (j + 1) 1 - vert poly (j + poly.length - 1) 1) := by
  have h := polyAreaLoop_eq poly poly.length 0 0 (by omega) (by omega)
  rw [Nat.zero_mod, zero_add] at h
  simp only [zero_add] at h
  exact h

theorem sum_shift [AddCommGroup F] (h : Nat → F) (n : Nat) (hp : h n = h 0) :
    ∑ j ∈ Finset.range n, h (j + 1) = ∑ j ∈ Finset.range n, h j := by
  have := Finset.sum_range_succ' h n
  rw [Finset.sum_range_succ, hp] at this
  exact (add_right_cancel this).symm

theorem polyArea_eq_pairs [CommRing F] (poly : List (Vec F 2)) :
    polyArea poly = ∑ j ∈ Finset.range poly.length,
      (vert poly j 0 * vert poly (j + 1) 1 - vert poly j 1 * vert poly (j + 1) 0) := by
  rw [polyArea_eq_sum, Finset.sum_sub_distrib]
  simp only [mul_sub, Finset.sum_sub_distrib]
  congr 1
  by_cases hz : poly.length = 0
  · simp [hz]
  rw [← sum_shift (fun j => vert poly j 0 * vert poly (j + poly.length - 1) 1)]
  · refine Finset.sum_congr rfl fun j _ => ?_
    rw [show j + 1 + poly.length - 1 = j + poly.length by omega, vert_add, mul_comm]
  · have := vert_add poly 0
    have h2 := vert_add poly (poly.length - 1)
    rw [zero_add] at this
    rw [this, show poly.length + poly.length - 1 = poly.length - 1 + poly.length by omega, h2,
      zero_add]

theorem chainSum_eq [CommRing F] (l : List (Vec F 2)) : ∀ n, l.length = n + 1 →
    chainSum l = ∑ j ∈ Finset.range n,
      ((l[j]?.getD 0) 0 * (l[j + 1]?.getD 0) 1 - (l[j]?.getD 0) 1 * (l[j + 1]?.getD 0) 0) := by
  induction l with
  | nil => intro n h; simp at h
  | cons a l ih =>
    intro n h
    cases l with
    | nil =>
      have : n = 0 := by simpa using h.symm
      subst this; simp [chainSum]
    | cons b l =>
      obtain ⟨m, rfl⟩ : ∃ m, n = m + 1 := ⟨l.length, by simpa using h.symm⟩
      rw [chainSum, Finset.sum_range_succ', ih m (by simpa using h), add_comm]
      simp

theorem polyArea_eq_shoelace [CommRing F] (poly : List (Vec F 2)) :
    polyArea poly = shoelace poly := by
  rw [polyArea_eq_pairs]
  cases poly with
  | nil => simp [shoelace]
  | cons a rest =>
    rw [shoelace, chainSum_eq _ (rest.length + 1) (by simp)]
    refine Finset.sum_congr (by simp) fun j hj => ?_
    have hj : j < rest.length + 1 := by simpa using hj
    have e1 : vert (a :: rest) j = ((a :: rest ++ [a])[j]?).getD 0 := by
      rw [vert, Nat.mod_eq_of_lt (by simpa using hj), List.getElem?_append_left (by simpa using hj)]
    have e2 : vert (a :: rest) (j + 1) = ((a :: rest ++ [a])[j + 1]?).getD 0 := by
      rw [vert]
      by_cases h : j + 1 < rest.length + 1
      · rw [Nat.mod_eq_of_lt (by simpa using h), List.getElem?_append_left (by simpa using h)]
      · have : j + 1 = (a :: rest).length := by simp; omega
        rw [this, Nat.mod_self, List.getElem?_append_right (le_refl _)]
        simp
    rw [e1, e2]

end Actl.Geo
