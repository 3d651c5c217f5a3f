import Verif.Model.Extreme
import Mathlib.Data.Finset.Max

/-!
# Binary search for the minimum of a cyclic sequence that descends and ascends once
-/

namespace Actl.Geo

variable {K : Type*} [LinearOrder K]

/-- From position `m` the sequence ascends to position `M` and descends back to position `m + n`;
equal neighbours only at the minimum and at the maximum. -/
structure Unimodal (h : Nat → K) (n m M : Nat) : Prop where
  lt : m < M
  lt' : M < m + n
  min : h m ≤ h (m + 1)
  up : ∀ k, m < k → k < M → h k < h (k + 1)
  max : h (M + 1) ≤ h M
  down : ∀ k, M < k → k < m + n → h (k + 1) < h k
  last : h (m + n) < h (m + n - 1)

/-- The comparison of two positions by their values. -/
structure Compares (cmp : Nat → Nat → Turn) (h : Nat → K) (n : Nat) : Prop where
  left : ∀ i j, i < n → j < n → (cmp i j = .left ↔ h i < h j)
  right : ∀ i j, i < n → j < n → (cmp i j = .right ↔ h j < h i)

variable {cmp : Nat → Nat → Turn} {h : Nat → K} {n m M : Nat}

theorem Unimodal.mono_up (u : Unimodal h n m M) {p q : Nat} (hp : m < p) (hpq : p < q) (hq : q ≤ M) :
    h p < h q := by
  obtain ⟨d, rfl⟩ : ∃ d, q = p + 1 + d := ⟨q - (p + 1), by omega⟩
  induction d with
  | zero => exact u.up p hp (by omega)
  | succ d ih => exact (ih (by omega) (by omega)).trans (u.up (p + 1 + d) (by omega) (by omega))

theorem Unimodal.mono_down (u : Unimodal h n m M) {p q : Nat} (hp : M < p) (hpq : p < q)
    (hq : q ≤ m + n) : h q < h p := by
  obtain ⟨d, rfl⟩ : ∃ d, q = p + 1 + d := ⟨q - (p + 1), by omega⟩
  induction d with
  | zero => exact u.down p hp (by omega)
  | succ d ih => exact (u.down (p + 1 + d) (by omega) (by omega)).trans (ih (by omega) (by omega))

/-- The unique representative of a position after the minimum. -/
def lift (n m i : Nat) : Nat := if i ≤ m then i + n else i

theorem turn_cases (t : Turn) : t = .left ∨ t = .collinear ∨ t = .right := by cases t <;> simp

variable (hper : ∀ k, h (k + n) = h k)

include hper in
theorem next_eq {i : Nat} (hi : i < n) : h (nextAt n i) = h (i + 1) := by
  rw [nextAt]
  split_ifs with e
  · rw [e, ← hper 0, zero_add]
  · rfl

include hper in
theorem prev_eq {i : Nat} (hi : i < n) : h (prevAt n i) = h (i + n - 1) := by
  rw [prevAt]
  split_ifs with e
  · rw [e, zero_add]
  · rw [← hper (i - 1), show i - 1 + n = i + n - 1 by omega]

theorem nextAt_lt {i : Nat} (hi : i < n) : nextAt n i < n := by rw [nextAt]; split_ifs <;> omega

theorem prevAt_lt {i : Nat} (hi : i < n) : prevAt n i < n := by rw [prevAt]; split_ifs <;> omega

include hper in
theorem lift_eq (i : Nat) : h (lift n m i) = h i := by
  rw [lift]; split_ifs
  · exact hper i
  · rfl

include hper in
theorem lift_next (i : Nat) : h (lift n m i + 1) = h (i + 1) := by
  rw [lift]; split_ifs
  · rw [show i + n + 1 = i + 1 + n by omega]; exact hper _
  · rfl

include hper in
theorem sgn_spec (hcmp : Compares cmp h n) {i : Nat} (hi : i < n) :
    ((isExtreme cmp n i).2 = .left ↔ h (i + 1) < h i) ∧
      ((isExtreme cmp n i).2 = .right ↔ h i < h (i + 1)) := by
  refine ⟨?_, ?_⟩
  · rw [isExtreme, hcmp.left _ _ (nextAt_lt hi) hi, next_eq hper hi]
  · rw [isExtreme, hcmp.right _ _ (nextAt_lt hi) hi, next_eq hper hi]

include hper in
theorem isExtreme_iff (hcmp : Compares cmp h n) (u : Unimodal h n m M) (hm : m < n) {i : Nat}
    (hi : i < n) : (isExtreme cmp n i).1 = true ↔ i = m := by
  have hs := (sgn_spec hper hcmp hi).1
  have e : (isExtreme cmp n i).1 = true ↔ h i ≤ h (i + 1) ∧ h i < h (i + n - 1) := by
    rw [isExtreme] at hs ⊢
    simp only [Bool.and_eq_true, decide_eq_true_eq]
    rw [hcmp.left _ _ hi (prevAt_lt hi), prev_eq hper hi, Ne, hs, not_lt]
  rw [e]
  constructor
  · rintro ⟨h1, h2⟩
    by_contra hne
    rw [← lift_eq (m := m) hper i, ← lift_next (m := m) hper i] at h1
    have h3 : h (i + n - 1) = h (lift n m i - 1) := by
      rw [lift]
      split_ifs with hle
      · rfl
      · rw [show i + n - 1 = i - 1 + n by omega, hper]
    rw [← lift_eq (m := m) hper i, h3] at h2
    have hl : m < lift n m i ∧ lift n m i < m + n := by rw [lift]; split_ifs <;> omega
    generalize lift n m i = q at *
    rcases Nat.lt_or_ge M q with hq | hq
    · exact absurd (u.down q hq hl.2) (not_lt.2 h1)
    · rcases Nat.eq_or_lt_of_le (show m + 1 ≤ q by omega) with rfl | hq'
      · exact absurd u.min (not_le.2 h2)
      · have := u.up (q - 1) (by omega) (by omega)
        rw [show q - 1 + 1 = q by omega] at this
        exact absurd this (not_lt.2 h2.le)
  · rintro rfl
    refine ⟨u.min, ?_⟩
    rw [← hper i]; exact u.last

theorem Unimodal.sgn (u : Unimodal h n m M) {q : Nat} {t : Turn} (hq : m < q) (hq' : q < m + n)
    (t1 : t = .left ↔ h (q + 1) < h q) (t2 : t = .right ↔ h q < h (q + 1)) :
    (t = .right ∧ q < M) ∨ (t = .collinear ∧ q = M) ∨ (t = .left ∧ M ≤ q) := by
  rcases Nat.lt_trichotomy q M with h1 | rfl | h1
  · exact Or.inl ⟨t2.2 (u.up q hq h1), h1⟩
  · rcases turn_cases t with rfl | rfl | rfl
    · exact Or.inr (Or.inr ⟨rfl, le_refl _⟩)
    · exact Or.inr (Or.inl ⟨rfl, rfl⟩)
    · exact absurd u.max (not_le.2 (t2.1 rfl))
  · exact Or.inr (Or.inr ⟨t1.2 (u.down q h1 hq'), h1.le⟩)

/-- The test of the loop finds out on which side of the middle the minimum is. -/
theorem Unimodal.side (u : Unimodal h n m M) {p q : Nat} {s t : Turn} (hp : m < p) (hp' : p < m + n)
    (hq : m < q) (hq' : q < m + n) (hpq : p < q)
    (s1 : s = .left ↔ h (p + 1) < h p) (s2 : s = .right ↔ h p < h (p + 1))
    (t1 : t = .left ↔ h (q + 1) < h q) (t2 : t = .right ↔ h q < h (q + 1)) :
    (s ≠ t ∧ t.value < s.value) ∨ (s = t ∧ s = .right ∧ h p < h q) ∨
      (s = t ∧ s = .left ∧ h q < h p) := by
  rcases u.sgn hp hp' s1 s2 with ⟨rfl, h1⟩ | ⟨rfl, h1⟩ | ⟨rfl, h1⟩ <;>
    rcases u.sgn hq hq' t1 t2 with ⟨rfl, h2⟩ | ⟨rfl, h2⟩ | ⟨rfl, h2⟩
  · exact Or.inr (Or.inl ⟨rfl, rfl, u.mono_up hp hpq h2.le⟩)
  · exact Or.inl ⟨by simp, by simp [Turn.value]⟩
  · exact Or.inl ⟨by simp, by simp [Turn.value]⟩
  · omega
  · omega
  · exact Or.inl ⟨by simp, by simp [Turn.value]⟩
  · omega
  · omega
  · refine Or.inr (Or.inr ⟨rfl, rfl, ?_⟩)
    rcases Nat.eq_or_lt_of_le h1 with rfl | h1
    · rcases Nat.eq_or_lt_of_le (show M + 1 ≤ q by omega) with rfl | h3
      · exact s1.1 rfl
      · exact (u.mono_down (by omega) h3 hq'.le).trans (s1.1 rfl)
    · exact u.mono_down h1 hpq hq'.le

include hper in
/-- The search keeps the minimum strictly between its bounds. -/
theorem extremeLoop_eq (hcmp : Compares cmp h n) (u : Unimodal h n m M) (hm : m < n) :
    ∀ (k first last : Nat), last ≤ first + k → first < m → m < last → last ≤ n →
      extremeLoop cmp n k first last (isExtreme cmp n first).2 = m
  | 0, first, last, hk, h1, h2, _ => by omega
  | k + 1, first, last, hk, h1, h2, h3 => by
    rw [extremeLoop, if_neg (by omega)]
    simp only
    have hmid : first < first + (last - first) / 2 ∧ first + (last - first) / 2 < last := by omega
    generalize first + (last - first) / 2 = mid at *
    have hfn : first < n := by omega
    have hmn : mid < n := by omega
    by_cases hext : (isExtreme cmp n mid).1 = true
    · rw [if_pos hext]
      exact (isExtreme_iff hper hcmp u hm hmn).1 hext
    rw [if_neg hext]
    have hne : mid ≠ m := fun e => hext ((isExtreme_iff hper hcmp u hm hmn).2 e)
    obtain ⟨f1, f2⟩ := sgn_spec hper hcmp hfn
    obtain ⟨g1, g2⟩ := sgn_spec hper hcmp hmn
    have c1 := hcmp.left first mid hfn hmn
    have c2 := hcmp.right first mid hfn hmn
    rw [← lift_eq (m := m) hper first, ← lift_next (m := m) hper first] at f1 f2
    rw [← lift_eq (m := m) hper mid, ← lift_next (m := m) hper mid] at g1 g2
    rw [← lift_eq (m := m) hper mid, ← lift_eq (m := m) hper first] at c1 c2
    have hQ : lift n m first = first + n := if_pos h1.le
    rcases Nat.lt_or_gt_of_ne hne with hlt | hgt
    · have hP : lift n m mid = mid + n := if_pos hlt.le
      have hd : ¬(if (isExtreme cmp n first).2 ≠ (isExtreme cmp n mid).2 then
          (isExtreme cmp n first).2.value < (isExtreme cmp n mid).2.value
          else (isExtreme cmp n first).2 = cmp first mid) := by
        rcases u.side (by omega) (by omega) (by omega) (by omega)
          (show lift n m first < lift n m mid by omega) f1 f2 g1 g2 with
          ⟨h4, h5⟩ | ⟨h4, h5, h6⟩ | ⟨h4, h5, h6⟩
        · rw [if_pos h4]; omega
        · rw [if_neg (not_not.2 h4), h5, c1.2 h6]; simp
        · rw [if_neg (not_not.2 h4), h5, c2.2 h6]; simp
      rw [if_neg hd]
      exact extremeLoop_eq hcmp u hm k mid last (by omega) hlt h2 h3
    · have hP : lift n m mid = mid := if_neg (by omega)
      have hd : (if (isExtreme cmp n first).2 ≠ (isExtreme cmp n mid).2 then
          (isExtreme cmp n first).2.value < (isExtreme cmp n mid).2.value
          else (isExtreme cmp n first).2 = cmp first mid) := by
        rcases u.side (by omega) (by omega) (by omega) (by omega)
          (show lift n m mid < lift n m first by omega) g1 g2 f1 f2 with
          ⟨h4, h5⟩ | ⟨h4, h5, h6⟩ | ⟨h4, h5, h6⟩
        · rw [if_pos h4.symm]; exact h5
        · rw [if_neg (not_not.2 h4.symm), ← h4, h5, c2.2 h6]
        · rw [if_neg (not_not.2 h4.symm), ← h4, h5, c1.2 h6]
      rw [if_pos hd]
      exact extremeLoop_eq hcmp u hm k first mid (by omega) h1 hgt (by omega)

include hper in
/-- The whole search finds the minimum. -/
theorem extremeSearch_eq (hcmp : Compares cmp h n) (u : Unimodal h n m M) (hm : m < n) :
    (if (isExtreme cmp n 0).1 then 0 else extremeLoop cmp n n 0 n (isExtreme cmp n 0).2) = m := by
  split_ifs with h0
  · exact (isExtreme_iff hper hcmp u hm (by omega)).1 h0
  · have : m ≠ 0 := fun e => h0 ((isExtreme_iff hper hcmp u hm (by omega)).2 e.symm)
    exact extremeLoop_eq hper hcmp u hm n 0 n (by omega) (by omega) hm (le_refl _)

/-- A cyclic sequence in which a position that is not less than its neighbours is greater than all
the rest, a position that is not greater than its neighbours is less than all the rest, and no three
neighbours are equal, ascends and descends once. -/
theorem exists_unimodal (h3 : 3 ≤ n) (hper : ∀ k, h (k + n) = h k)
    (hmax : ∀ k j, h k ≤ h (k + 1) → h (k + 2) ≤ h (k + 1) → k + 2 < j → j < k + n → h j < h (k + 1))
    (hmin : ∀ k j, h (k + 1) ≤ h k → h (k + 1) ≤ h (k + 2) → k + 2 < j → j < k + n → h (k + 1) < h j)
    (heq : ∀ k, h k = h (k + 1) → h (k + 1) = h (k + 2) → False) :
    ∃ m M, m < n ∧ Unimodal h n m M ∧ ∀ k, h m ≤ h k := by
  have hmod : ∀ k, h (k % n) = h k := by
    intro k
    conv_rhs => rw [← Nat.mod_add_div k n]
    generalize k / n = q
    induction q with
    | zero => simp
    | succ q ih => rw [ih, Nat.mul_succ, ← add_assoc, hper]
  -- the extreme positions, the first of two neighbours
  obtain ⟨m, hm, mmin, mlast⟩ : ∃ m, m < n ∧ (∀ k, h m ≤ h k) ∧ h (m + n) < h (m + n - 1) := by
    obtain ⟨m, hm, hmn⟩ := Finset.exists_min_image (Finset.range n) h ⟨0, by simp; omega⟩
    rw [Finset.mem_range] at hm
    have hall : ∀ k, h m ≤ h k := fun k => by
      rw [← hmod k]
      exact hmn _ (Finset.mem_range.2 (Nat.mod_lt _ (by omega)))
    by_cases hl : h (m + n) < h (m + n - 1)
    · exact ⟨m, hm, hall, hl⟩
    have e1 : h (m + n - 1) = h (m + n) :=
      le_antisymm (not_lt.1 hl) (by rw [hper]; exact hall _)
    have e2 : h (m + n - 1) < h (m + n - 2) := by
      refine lt_of_le_of_ne (by rw [e1, hper]; exact hall _) fun e => ?_
      have := heq (m + n - 2)
      rw [show m + n - 2 + 1 = m + n - 1 by omega, show m + n - 2 + 2 = m + n by omega] at this
      exact this e.symm e1
    rcases Nat.eq_zero_or_pos m with rfl | hpos
    · refine ⟨n - 1, by omega, fun k => ?_, ?_⟩
      · rw [zero_add] at e1
        rw [e1, ← zero_add n, hper]; exact hall k
      · rw [hper, show n - 1 + n - 1 = n - 2 + n by omega, hper]
        simpa using e2
    · refine ⟨m - 1, by omega, fun k => ?_, ?_⟩
      · rw [← hper (m - 1), show m - 1 + n = m + n - 1 by omega, e1, hper]; exact hall k
      · rw [show m - 1 + n = m + n - 1 by omega, show m + n - 1 - 1 = m + n - 2 by omega]
        exact e2
  obtain ⟨M, hM1, hM2, Mmax, Mfirst⟩ : ∃ M, m < M ∧ M < m + n ∧ (∀ k, h k ≤ h M) ∧
      h (M - 1) < h M := by
    obtain ⟨M, hM, hMn⟩ := Finset.exists_max_image (Finset.range n) h ⟨0, by simp; omega⟩
    rw [Finset.mem_range] at hM
    have hall : ∀ k, h k ≤ h (lift n m M) := fun k => by
      rw [← hmod k, lift_eq hper]
      exact hMn _ (Finset.mem_range.2 (Nat.mod_lt _ (by omega)))
    have hl : m < lift n m M ∧ lift n m M ≤ m + n := by rw [lift]; split_ifs <;> omega
    generalize lift n m M = M at *
    have hne : h m < h M := by
      refine lt_of_le_of_ne (mmin _) fun e => ?_
      have : ∀ k, h k = h m := fun k => le_antisymm ((hall k).trans e.ge) (mmin k)
      exact heq 0 ((this 0).trans (this 1).symm) ((this 1).trans (this 2).symm)
    have hlt : M < m + n := by
      rcases Nat.eq_or_lt_of_le hl.2 with rfl | h'
      · rw [hper] at hne; exact absurd hne (lt_irrefl _)
      · exact h'
    by_cases hf : h (M - 1) < h M
    · exact ⟨M, hl.1, hlt, hall, hf⟩
    have e1 : h (M - 1) = h M := le_antisymm (hall _) (not_lt.1 hf)
    have hm1 : m < M - 1 := by
      rcases Nat.eq_or_lt_of_le (show m ≤ M - 1 by omega) with h' | h'
      · rw [← h'] at e1; exact absurd e1 hne.ne
      · exact h'
    refine ⟨M - 1, hm1, by omega, fun k => by rw [e1]; exact hall k, ?_⟩
    refine lt_of_le_of_ne (by rw [e1]; exact hall _) fun e => ?_
    have := heq (M - 2)
    rw [show M - 2 + 1 = M - 1 by omega, show M - 2 + 2 = M by omega] at this
    exact this (by rw [← e]; congr 1) e1
  refine ⟨m, M, hm, ⟨hM1, hM2, mmin _, ?_, Mmax _, ?_, mlast⟩, mmin⟩
  · intro k hk hkM
    obtain ⟨d, rfl⟩ : ∃ d, k = m + 1 + d := ⟨k - (m + 1), by omega⟩
    induction d using Nat.strong_induction_on with
    | _ d ih =>
      by_contra hn
      rw [not_lt] at hn
      have h0 : h (m + d) ≤ h (m + d + 1) := by
        rcases Nat.eq_zero_or_pos d with rfl | hd
        · exact mmin _
        · have := ih (d - 1) (by omega) (by omega) (by omega)
          rw [show m + 1 + (d - 1) = m + d by omega] at this
          exact this.le
      rw [show m + 1 + d = m + d + 1 by omega] at hn hkM
      rcases Nat.eq_or_lt_of_le (show m + d + 2 ≤ M by omega) with rfl | hlt
      · exact absurd Mfirst (not_lt.2 hn)
      · exact absurd (hmax (m + d) M h0 hn hlt (by omega)) (not_lt.2 (Mmax _))
  · intro k hk hkm
    obtain ⟨d, rfl⟩ : ∃ d, k = M + 1 + d := ⟨k - (M + 1), by omega⟩
    induction d using Nat.strong_induction_on with
    | _ d ih =>
      by_contra hn
      rw [not_lt] at hn
      have h0 : h (M + d + 1) ≤ h (M + d) := by
        rcases Nat.eq_zero_or_pos d with rfl | hd
        · exact Mmax _
        · have := ih (d - 1) (by omega) (by omega) (by omega)
          rw [show M + 1 + (d - 1) = M + d by omega] at this
          exact this.le
      rw [show M + 1 + d = M + d + 1 by omega] at hn hkm
      rcases Nat.eq_or_lt_of_le (show M + d + 2 ≤ m + n by omega) with e | hlt
      · rw [← e] at mlast
        exact absurd mlast (not_lt.2 hn)
      · have := hmin (M + d) (m + n) h0 hn hlt (by omega)
        rw [hper] at this
        exact absurd this (not_lt.2 (mmin _))

end Actl.Geo
