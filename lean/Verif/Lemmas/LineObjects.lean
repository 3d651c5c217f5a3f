import Verif.Spec.LineObjects
import Mathlib.Tactic.Ring
import Mathlib.Tactic.Linarith
import Mathlib.Tactic.FieldSimp
import Mathlib.Tactic.IntervalCases

/-!
# Integer types and the kinds of lines
-/

namespace Actl.Geo

open Ints (IntT)

variable {n m : Nat}

theorem hi_lo {t : IntT} (h : Builtin t) : t.hi = t.lo + 2 ^ t.width := by
  have hw : 1 ≤ t.width := by rcases h with h | h <;> omega
  obtain ⟨s, w⟩ := t
  obtain ⟨w, rfl⟩ : ∃ v, w = v + 1 := ⟨w - 1, by simp only at hw; omega⟩
  cases s
  · simp [IntT.hi, IntT.lo]
  · simp only [IntT.hi, IntT.lo, if_true, Nat.add_sub_cancel]
    rw [pow_succ]; ring

theorem lo_hi_zero {t : IntT} (h : Builtin t) : t.lo ≤ 0 ∧ 0 < t.hi := by
  obtain ⟨s, w⟩ := t
  cases s
  · simp [IntT.hi, IntT.lo]
  · simp [IntT.hi, IntT.lo]

theorem cast_has {t : IntT} (h : Builtin t) (x : Int) : t.Has (t.cast x) := by
  have hp : (0 : Int) < 2 ^ t.width := by positivity
  have h1 := Int.emod_nonneg (x - t.lo) hp.ne'
  have h2 := Int.emod_lt_of_pos (x - t.lo) hp
  unfold IntT.Has IntT.cast
  rw [hi_lo h]
  omega

theorem cast_eq {t : IntT} (h : Builtin t) {x : Int} (hx : t.Has x) : t.cast x = x := by
  unfold IntT.Has at hx
  rw [hi_lo h] at hx
  unfold IntT.cast
  rw [Int.emod_eq_of_lt (by omega) (by omega)]
  omega

/-- A conversion changes a value by a multiple of the number of values. -/
theorem cast_mod (t : IntT) (x : Int) : ∃ k : Int, t.cast x = x + k * 2 ^ t.width := by
  refine ⟨-((x - t.lo) / 2 ^ t.width), ?_⟩
  unfold IntT.cast
  have := Int.emod_add_mul_ediv (x - t.lo) (2 ^ t.width)
  linarith

theorem cast_unique {t : IntT} (h : Builtin t) {x y : Int} (hy : t.Has y) (k : Int) (e : x = y + k * 2 ^ t.width) : t.cast x = y := by
  have hc := cast_eq h hy
  rw [← hc]
  unfold IntT.cast
  rw [e, show y + k * 2 ^ t.width - t.lo = y - t.lo + k * 2 ^ t.width by ring, Int.add_mul_emod_self_right]

theorem promote_wide (t : IntT) : 32 ≤ t.promote.width := by
  unfold IntT.promote
  split
  · exact le_refl _
  · omega

theorem promote_builtin (t : IntT) : Builtin t.promote := Or.inr (promote_wide t)

theorem usual_wide {a b : IntT} (ha : 32 ≤ a.width) (hb : 32 ≤ b.width) : 32 ≤ (usual a b).width := by
  obtain ⟨sa, wa⟩ := a
  obtain ⟨sb, wb⟩ := b
  simp only at ha hb
  cases sa <;> cases sb <;> simp [usual] <;> (try split) <;> (try simp) <;> omega

theorem arithTy_wide (a b : IntT) : 32 ≤ (arithTy a b).width := usual_wide (promote_wide a) (promote_wide b)

theorem arithTy_builtin (a b : IntT) : Builtin (arithTy a b) := Or.inr (arithTy_wide a b)

theorem arithTy_comm (a b : IntT) : arithTy a b = arithTy b a := by
  unfold arithTy
  generalize a.promote = a
  generalize b.promote = b
  obtain ⟨sa, wa⟩ := a
  obtain ⟨sb, wb⟩ := b
  cases sa <;> cases sb <;> simp [usual, Nat.max_comm]

theorem arithTy_self (a : IntT) : arithTy a a = a.promote := by simp [arithTy, usual]

theorem scalarTy_comm (a b : IntT) : scalarTy a b = scalarTy b a := by
  unfold scalarTy
  by_cases h : a = b
  · rw [if_pos h, if_pos h.symm, h]
  · rw [if_neg h, if_neg (Ne.symm h), arithTy_comm]

/-- The common type of the coordinates is a narrow type, the same for both points, or the type in which the differences are computed. -/
theorem scalarTy_cases {a b : IntT} (ha : Builtin a) :
    (a = b ∧ 8 ≤ a.width ∧ a.width ≤ 16 ∧ scalarTy a b = a ∧ arithTy a b = ⟨true, 32⟩) ∨ scalarTy a b = arithTy a b := by
  by_cases h : a = b
  · subst h
    rcases ha with ha | ha
    · refine Or.inl ⟨rfl, ha.1, ha.2, by simp [scalarTy], ?_⟩
      rw [arithTy_self]
      unfold IntT.promote
      rw [if_pos (by omega)]
    · right
      rw [arithTy_self]
      unfold scalarTy IntT.promote
      rw [if_pos rfl, if_neg (by omega)]
  · right
    unfold scalarTy
    rw [if_neg h]

theorem scalarTy_builtin {a b : IntT} (ha : Builtin a) : Builtin (scalarTy a b) := by
  rcases scalarTy_cases (b := b) ha with h | h
  · rw [h.2.2.2.1]; exact ha
  · rw [h]; exact arithTy_builtin a b

/-- The values of a narrow type. -/
theorem narrow_bounds {t : IntT} (h : t.width ≤ 16) {x : Int} (hx : t.Has x) : -2 ^ 16 ≤ x ∧ x < 2 ^ 16 := by
  obtain ⟨s, w⟩ := t
  simp only at h
  have h1 : (2 : Int) ^ w ≤ 2 ^ 16 := by exact_mod_cast Nat.pow_le_pow_right (by norm_num) h
  have h2 : (2 : Int) ^ (w - 1) ≤ 2 ^ 16 := by exact_mod_cast Nat.pow_le_pow_right (n := 2) (by norm_num) (by omega)
  cases s
  · simp only [IntT.Has, IntT.lo, IntT.hi] at hx
    simp at hx
    constructor
    · norm_num; omega
    · omega
  · simp only [IntT.Has, IntT.lo, IntT.hi, if_true] at hx
    omega

theorem int_has {x : Int} (h : -2 ^ 18 ≤ x ∧ x < 2 ^ 18) : (⟨true, 32⟩ : IntT).Has x := by
  simp only [IntT.Has, IntT.lo, IntT.hi, if_true]
  norm_num at h ⊢
  omega

theorem wide_builtin_has {a b : IntT} (ha : Builtin a) {x : Int} (hx : (scalarTy a b).Has x) : (arithTy a b).Has x := by
  rcases scalarTy_cases (b := b) ha with ⟨-, -, h2, h3, h4⟩ | h
  · rw [h3] at hx
    rw [h4]
    have := narrow_bounds h2 hx
    refine int_has ?_
    norm_num at this ⊢
    omega
  · rw [h] at hx; exact hx

theorem allCoords_iff {p : Fin n → Option Int} {v : Vec Int n} : allCoords p = some v ↔ ∀ i, p i = some (v i) := by
  unfold allCoords
  by_cases h : ∀ i, (p i).isSome
  · rw [dif_pos h]
    constructor
    · rintro e i
      have e := Option.some.inj e
      rw [← e]
      simp
    · intro e
      congr 1
      funext i
      simp [e i]
  · rw [dif_neg h]
    constructor
    · intro e; cases e
    · intro e
      exact absurd (fun i => by rw [e i]; rfl) h

theorem arith_cases {t : IntT} {x y : Int} (h : t.arith x = some y) : y = x ∧ t.Has x ∨ t.signed = false ∧ y = t.cast x := by
  unfold IntT.arith at h
  split at h
  · split at h
    · next _ hh => exact Or.inl ⟨(Option.some.inj h).symm, hh⟩
    · cases h
  · next hs => exact Or.inr ⟨by simpa using hs, (Option.some.inj h).symm⟩

theorem arith_has {t : IntT} (h : Builtin t) {x : Int} (hx : t.Has x) : t.arith x = some x := by
  unfold IntT.arith
  rw [cast_eq h hx, if_pos hx]
  split <;> rfl

/-- The arithmetic of a type, when it is defined, gives the value of the type that differs by a multiple of the number of values. -/
theorem arith_cast {t : IntT} (h : Builtin t) {x y : Int} (e : t.arith x = some y) : y = t.cast x := by
  rcases arith_cases e with ⟨rfl, hx⟩ | ⟨-, hy⟩
  · exact (cast_eq h hx).symm
  · exact hy

/-! ### Kinds -/

theorem valid_iff (x : Nat) : isValidKind x = true ↔ ∃ k : LineKind, x = k.val := by
  constructor
  · intro h
    simp only [isValidKind, Bool.and_eq_true, decide_eq_true_eq] at h
    have h1 : x >>> 2 = x / 4 := Nat.shiftRight_eq_div_pow x 2
    have h2 : x &&& 3 = x % 4 := Nat.and_two_pow_sub_one_eq_mod x 2
    rw [h1, h2] at h
    have : x < 16 := by omega
    interval_cases x <;> first
      | exact ⟨.free, rfl⟩ | exact ⟨.closedRay, rfl⟩ | exact ⟨.openRay, rfl⟩ | exact ⟨.closedSegment, rfl⟩
      | exact ⟨.halfOpenSegment, rfl⟩ | exact ⟨.openSegment, rfl⟩ | (exfalso; omega)
  · rintro ⟨k, rfl⟩
    cases k <;> decide

theorem val_inj {k k' : LineKind} (h : k.val = k'.val) : k = k' := by
  cases k <;> cases k' <;> first | rfl | (exact absurd h (by decide))

theorem setKind_admits {t : KindTy} {k : LineKind} (h : Admits t k) : setKind t k.val = some k.val := by
  cases t with
  | fixed k' => cases h; simp [setKind]
  | any => simp only [setKind]; rw [if_pos ((valid_iff _).2 ⟨k, rfl⟩)]

theorem setKind_some {t : KindTy} {x y : Nat} (h : setKind t x = some y) : ∃ k : LineKind, x = k.val ∧ y = k.val ∧ Admits t k := by
  cases t with
  | fixed k =>
    simp only [setKind] at h
    split at h
    · next e => exact ⟨k, e.symm, (Option.some.inj h).symm, rfl⟩
    · cases h
  | any =>
    simp only [setKind] at h
    split at h
    · next e =>
      obtain ⟨k, rfl⟩ := (valid_iff x).1 e
      exact ⟨k, rfl, (Option.some.inj h).symm, trivial⟩
    · cases h

theorem defaultKind_val (t : KindTy) : defaultKind t = (initialKind t).val ∧ Admits t (initialKind t) := by
  cases t <;> exact ⟨rfl, by trivial⟩

theorem getD_val (t : KindTy) (kind : Option LineKind) :
    (kind.map LineKind.val).getD (defaultKind t) = (kind.getD (initialKind t)).val := by
  cases kind with
  | none => exact (defaultKind_val t).1
  | some k => rfl

end Actl.Geo
