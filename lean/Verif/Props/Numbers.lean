import Verif.Spec.Numbers
import Verif.Props.FloatAngle
import Mathlib.Tactic.Linarith
import Mathlib.Tactic.Positivity
import Mathlib.Tactic.NormNum
import Mathlib.Tactic.FieldSimp
import Mathlib.Tactic.Ring

/-! # C127: comparisons of numbers of the built-in types -/

namespace Actl.Numbers

open Equality (IntTy Elem promote common convert)
open Algebra (builtinArith castTo)

/-! ## The values -/

theorem ofRat_lt {x y : ℚ} : ofRat x < ofRat y ↔ x < y := by
  unfold ofRat; rw [WithBot.coe_lt_coe, WithTop.coe_lt_coe]

theorem ofRat_inj {x y : ℚ} : ofRat x = ofRat y ↔ x = y := by
  unfold ofRat; rw [WithBot.coe_inj, WithTop.coe_inj]

theorem ofRat_lt_top (x : ℚ) : ofRat x < ⊤ := by
  unfold ofRat
  exact WithBot.coe_lt_coe.2 (WithTop.coe_lt_top x)

theorem bot_lt_ofRat (x : ℚ) : ⊥ < ofRat x := WithBot.bot_lt_coe _

theorem lt_value {v w : FVal} {a b : Ext} (hv : v.value = some a) (hw : w.value = some b) : v.lt w = true ↔ a < b := by
  have h : (⊥ : Ext) < ⊤ := WithBot.bot_lt_coe _
  cases v with
  | nan => simp [FVal.value] at hv
  | inf s =>
    cases w with
    | nan => simp [FVal.value] at hw
    | inf t =>
      cases s <;> cases t <;> simp only [FVal.value, Option.some.injEq] at hv hw <;> subst hv <;> subst hw <;>
        simp [FVal.lt, h, h.not_gt, h.le]
    | fin y =>
      cases s <;> simp only [FVal.value, Option.some.injEq] at hv hw <;> subst hv <;> subst hw <;>
        simp [FVal.lt, bot_lt_ofRat, (ofRat_lt_top y).not_gt]
  | fin x =>
    cases w with
    | nan => simp [FVal.value] at hw
    | inf t =>
      cases t <;> simp only [FVal.value, Option.some.injEq] at hv hw <;> subst hv <;> subst hw <;>
        simp [FVal.lt, ofRat_lt_top, (bot_lt_ofRat x).not_gt]
    | fin y =>
      simp only [FVal.value, Option.some.injEq] at hv hw
      subst hv; subst hw
      simp [FVal.lt, ofRat_lt]

theorem eq_value {v w : FVal} {a b : Ext} (hv : v.value = some a) (hw : w.value = some b) : v.eq w = true ↔ a = b := by
  have h : (⊥ : Ext) < ⊤ := WithBot.bot_lt_coe _
  cases v with
  | nan => simp [FVal.value] at hv
  | inf s =>
    cases w with
    | nan => simp [FVal.value] at hw
    | inf t =>
      cases s <;> cases t <;> simp only [FVal.value, Option.some.injEq] at hv hw <;> subst hv <;> subst hw <;>
        simp [FVal.eq, h.ne, h.ne']
    | fin y =>
      cases s <;> simp only [FVal.value, Option.some.injEq] at hv hw <;> subst hv <;> subst hw <;>
        simp [FVal.eq, (bot_lt_ofRat y).ne, (ofRat_lt_top y).ne']
  | fin x =>
    cases w with
    | nan => simp [FVal.value] at hw
    | inf t =>
      cases t <;> simp only [FVal.value, Option.some.injEq] at hv hw <;> subst hv <;> subst hw <;>
        simp [FVal.eq, (ofRat_lt_top x).ne, (bot_lt_ofRat x).ne']
    | fin y =>
      simp only [FVal.value, Option.some.injEq] at hv hw
      subst hv; subst hw
      simp [FVal.eq, ofRat_inj]

/-! ## Integer types -/

theorem promote_bits (t : IntTy) : (promote t).bits = max t.bits 32 := by
  unfold promote; split
  · simp; omega
  · omega

theorem promote_signed (t : IntTy) : (promote t).signed = true ↔ t.signed = true ∨ t.bits < 32 := by
  unfold promote; split
  · simp [*]
  · simp [*]

theorem common_bits (a b : IntTy) (h : (common a b).signed = false) :
    a.bits ≤ (common a b).bits ∧ b.bits ≤ (common a b).bits := by
  obtain ⟨m, s⟩ := a
  obtain ⟨n, t⟩ := b
  cases s <;> cases t <;> simp only [common] at h ⊢
  · simp
  · by_cases hc : n ≤ m <;> simp_all
  · by_cases hc : m ≤ n <;> simp_all
  · simp at h

theorem common_unsigned (a b : IntTy) (h : (common a b).signed = false) :
    (a.signed = false ∨ b.signed = false) ∧ (a.signed = true → a.bits ≤ b.bits) ∧ (b.signed = true → b.bits ≤ a.bits) := by
  obtain ⟨m, s⟩ := a
  obtain ⟨n, t⟩ := b
  cases s <;> cases t <;> simp only [common] at h ⊢
  · simp
  · by_cases hc : n ≤ m <;> simp_all
  · by_cases hc : m ≤ n <;> simp_all
  · simp at h

theorem common_comm (a b : IntTy) : common a b = common b a := by
  obtain ⟨m, s⟩ := a
  obtain ⟨n, t⟩ := b
  cases s <;> cases t <;> simp [common, Nat.max_comm]

variable {round : Nat → ℚ → ℚ}

theorem ok_bounds {e : Elem} (h : (Num.int e).Ok round) :
    -(2 ^ ((promote e.ty).bits - 1)) ≤ e.val ∧ e.val < 2 ^ (promote e.ty).bits ∧
      ((promote e.ty).signed = false → 0 ≤ e.val) := by
  obtain ⟨h0, -, h⟩ := h
  have hb := promote_bits e.ty
  have hs := promote_signed e.ty
  have m1 : (2 : Int) ^ (e.ty.bits - 1) ≤ 2 ^ ((promote e.ty).bits - 1) := pow_le_pow_right₀ (by norm_num) (by omega)
  have m2 : (2 : Int) ^ e.ty.bits ≤ 2 ^ (promote e.ty).bits := pow_le_pow_right₀ (by norm_num) (by omega)
  have m3 : (2 : Int) ^ (e.ty.bits - 1) ≤ 2 ^ e.ty.bits := pow_le_pow_right₀ (by norm_num) (by omega)
  have m4 : (0 : Int) < 2 ^ ((promote e.ty).bits - 1) := by positivity
  split at h
  · rename_i hsg
    refine ⟨by omega, by omega, fun hc => ?_⟩
    have := hs.2 (Or.inl hsg)
    rw [hc] at this; simp at this
  · exact ⟨by omega, by omega, fun _ => h.1⟩

/-- The conversion of an integer that is not negative keeps its value. -/
theorem convert_nonneg {a : Elem} (ha : (Num.int a).Ok round) (h0 : 0 ≤ a.val) {t : IntTy}
    (ht : t.signed = false → (promote a.ty).bits ≤ t.bits) : convert t a.val = a.val := by
  unfold convert
  split
  · rfl
  · rename_i hs
    have hb := ht (by simpa using hs)
    have m : (2 : Int) ^ (promote a.ty).bits ≤ 2 ^ t.bits := pow_le_pow_right₀ (by norm_num) hb
    exact Int.emod_eq_of_lt h0 (lt_of_lt_of_le (ok_bounds ha).2.1 m)

/-- The conversion of a negative integer to an unsigned type adds the number of values of the type. -/
theorem convert_neg {a : Elem} (ha : (Num.int a).Ok round) (h0 : a.val < 0) {t : IntTy} (hs : t.signed = false)
    (ht : (promote a.ty).bits ≤ t.bits) : convert t a.val = a.val + 2 ^ t.bits := by
  unfold convert
  rw [hs]
  simp only [Bool.false_eq_true, if_false]
  have m : (2 : Int) ^ ((promote a.ty).bits - 1) ≤ 2 ^ t.bits := pow_le_pow_right₀ (by norm_num) (by omega)
  have := (ok_bounds ha).1
  rw [← Int.add_emod_right]
  exact Int.emod_eq_of_lt (by omega) (by omega)

theorem convert_comparable {a b : Elem} (ha : (Num.int a).Ok round) (hb : (Num.int b).Ok round)
    (h : Comparable (.int a) (.int b)) :
    convert (common (promote a.ty) (promote b.ty)) a.val = a.val ∧
      convert (common (promote a.ty) (promote b.ty)) b.val = b.val := by
  by_cases hs : (common (promote a.ty) (promote b.ty)).signed = true
  · simp [convert, hs]
  · have hs : (common (promote a.ty) (promote b.ty)).signed = false := by simpa using hs
    have hbits := common_bits _ _ hs
    have hnn : 0 ≤ a.val ∧ 0 ≤ b.val := by
      rcases h with h | h
      · have hu := common_unsigned _ _ hs
        have pa := promote_signed a.ty
        have pb := promote_signed b.ty
        have ba := promote_bits a.ty
        have bb := promote_bits b.ty
        have both : (promote a.ty).signed = false ∧ (promote b.ty).signed = false := by
          simp only [SameSign, ← pa, ← pb, ← ba, ← bb] at h
          rcases hc : (promote a.ty).signed <;> rcases hd : (promote b.ty).signed <;> simp_all <;> omega
        exact ⟨(ok_bounds ha).2.2 both.1, (ok_bounds hb).2.2 both.2⟩
      · exact h
    exact ⟨convert_nonneg ha hnn.1 fun _ => hbits.1, convert_nonneg hb hnn.2 fun _ => hbits.2⟩

/-! ## Conversion to floating point -/

theorem Nearest.int (R : Nearest round) {p : Nat} (hp : 0 < p) {k : Int} (hk : |k| ≤ 2 ^ p) : round p k = k := by
  have := R.has p hp k 0 hk
  simpa using this

theorem ok_int_abs {e : Elem} (h : (Num.int e).Ok round) : |(e.val : ℚ)| ≤ 2 ^ 64 := by
  obtain ⟨h0, h64, h⟩ := h
  have m1 : (2 : Int) ^ (e.ty.bits - 1) ≤ 2 ^ 64 := pow_le_pow_right₀ (by norm_num) (by omega)
  have m2 : (2 : Int) ^ e.ty.bits ≤ 2 ^ 64 := pow_le_pow_right₀ (by norm_num) h64
  have : |e.val| ≤ 2 ^ 64 := by
    rw [abs_le]
    split at h <;> constructor <;> omega
  exact_mod_cast this

theorem Nearest.abs_bound (R : Nearest round) {p : Nat} (hp : 0 < p) {x y : ℚ} (hy : round p y = y) (h : |x| ≤ y) :
    |round p x| ≤ y := by
  rw [abs_le] at *
  constructor
  · have := R.mono p hp h.1
    rw [R.neg p hp, hy] at this
    exact this
  · have := R.mono p hp h.2
    rwa [hy] at this

theorem Nearest.pow (R : Nearest round) {p : Nat} (hp : 0 < p) : round p (2 ^ 64) = 2 ^ 64 := by
  have := R.has p hp 1 64 (by simpa using one_le_pow₀ (by norm_num))
  norm_num at this ⊢
  exact this

theorem toFloat_int (R : Nearest round) {t : FloatTy} (hp : 0 < t.prec) (hl : 2 ^ 64 ≤ t.limit) {e : Elem}
    (h : (Num.int e).Ok round) : toFloat round t (.int e) = .fin (round t.prec e.val) := by
  have := R.abs_bound hp (R.pow hp) (ok_int_abs h)
  simp only [toFloat, fit]
  rw [if_neg (by linarith)]

theorem toFloat_small (R : Nearest round) {t : FloatTy} (hp : 0 < t.prec) (hl : 2 ^ 64 ≤ t.limit) {e : Elem}
    (h : (Num.int e).Ok round) (hs : |e.val| ≤ 2 ^ t.prec) : toFloat round t (.int e) = .fin e.val := by
  rw [toFloat_int R hp hl h, R.int hp hs]

/-! ## Without a tolerance -/

theorem less_iff (R : Nearest round) {l r : Num} (hl : l.Ok round) (hr : r.Ok round) (hc : Comparable l r) {a b : Ext}
    (ha : l.value = some a) (hb : r.value = some b) : isLess round l r = true ↔ a < b := by
  cases l with
  | int x =>
    cases r with
    | int y =>
      obtain ⟨h1, h2⟩ := convert_comparable hl hr hc
      simp only [Num.value, Option.some.injEq] at ha hb
      subst ha; subst hb
      simp only [isLess, Algebra.isLess, h1, h2, decide_eq_true_eq, ofRat_lt, Int.cast_lt]
    | float t w =>
      simp only [isLess, floatCommon]
      refine lt_value ?_ hb
      rw [toFloat_small R hr.1 hr.2.1 hl hc]
      exact ha
  | float t v =>
    cases r with
    | int y =>
      simp only [isLess, floatCommon]
      refine lt_value ha ?_
      rw [toFloat_small R hl.1 hl.2.1 hr hc]
      exact hb
    | float s w => exact lt_value ha hb

theorem equal_iff (R : Nearest round) {l r : Num} (hl : l.Ok round) (hr : r.Ok round) (hc : Comparable l r) {a b : Ext}
    (ha : l.value = some a) (hb : r.value = some b) : isEqual round l r = true ↔ a = b := by
  cases l with
  | int x =>
    cases r with
    | int y =>
      obtain ⟨h1, h2⟩ := convert_comparable hl hr hc
      simp only [Num.value, Option.some.injEq] at ha hb
      subst ha; subst hb
      simp only [isEqual, Equality.eqOp, h1, h2, beq_iff_eq, ofRat_inj, Int.cast_inj]
    | float t w =>
      simp only [isEqual, floatCommon]
      refine eq_value ?_ hb
      rw [toFloat_small R hr.1 hr.2.1 hl hc]
      exact ha
  | float t v =>
    cases r with
    | int y =>
      simp only [isEqual, floatCommon]
      refine eq_value ha ?_
      rw [toFloat_small R hl.1 hl.2.1 hr hc]
      exact hb
    | float s w => exact eq_value ha hb

theorem comparable_symm {l r : Num} (h : Comparable l r) : Comparable r l := by
  cases l <;> cases r <;> simp only [Comparable] at h ⊢
  · rcases h with h | h
    · left
      simp only [SameSign] at h ⊢
      rcases h with h | h | h
      · exact Or.inl h.symm
      · exact Or.inr (Or.inr h)
      · exact Or.inr (Or.inl h)
    · exact Or.inr h.symm
  · exact h
  · exact h

/-- **C127**: numbers that keep their values in the common type are compared as the numbers they stand for, the infinities
included. -/
theorem comparisons_exact (R : Nearest round) {l r : Num} (hl : l.Ok round) (hr : r.Ok round) (hc : Comparable l r) {a b : Ext}
    (ha : l.value = some a) (hb : r.value = some b) :
    isLess round l r = decide (a < b) ∧ isEqual round l r = decide (a = b) ∧ isGreater round l r = decide (b < a) ∧
    isLessOrEqual round l r = decide (a ≤ b) ∧ isGreaterOrEqual round l r = decide (b ≤ a) ∧
    isNotEqual round l r = decide (a ≠ b) ∧ compare3way round l r = (if a < b then -1 else if a = b then 0 else 1) := by
  have h1 : isLess round l r = decide (a < b) := by rw [Bool.eq_iff_iff, less_iff R hl hr hc ha hb, decide_eq_true_eq]
  have h2 : isLess round r l = decide (b < a) := by
    rw [Bool.eq_iff_iff, less_iff R hr hl (comparable_symm hc) hb ha, decide_eq_true_eq]
  have h3 : isEqual round l r = decide (a = b) := by rw [Bool.eq_iff_iff, equal_iff R hl hr hc ha hb, decide_eq_true_eq]
  refine ⟨h1, h3, h2, ?_, ?_, ?_, ?_⟩
  · unfold isLessOrEqual isGreater; rw [h2]; simp [← not_lt]
  · unfold isGreaterOrEqual; rw [h1]; simp [← not_lt]
  · unfold isNotEqual; rw [h3]; simp
  · unfold compare3way isGreater
    rw [h1, h2]
    rcases lt_trichotomy a b with h | h | h
    · simp [h, h.not_gt]
    · simp [h]
    · simp [h, h.not_gt, h.ne']

/-- **C127**: a negative number against one of an unsigned type that has as many bits: the negative number counts as the larger
one of `n` bits that is congruent. -/
theorem mixed_signs {a b : Elem} (ha : (Num.int a).Ok round) (hb : (Num.int b).Ok round) (hn : a.val < 0) (h0 : 0 ≤ b.val)
    (hu : b.ty.signed = false) (hw : 32 ≤ b.ty.bits) (hle : a.ty.bits ≤ b.ty.bits) :
    isLess round (.int a) (.int b) = decide (a.val + 2 ^ b.ty.bits < b.val) ∧
    isEqual round (.int a) (.int b) = decide (a.val + 2 ^ b.ty.bits = b.val) ∧
    isGreater round (.int a) (.int b) = decide (b.val < a.val + 2 ^ b.ty.bits) := by
  have pb : promote b.ty = b.ty := by unfold promote; rw [if_neg (by omega)]
  have ps : (promote a.ty).signed = true := by
    rcases h : (promote a.ty).signed
    · have := (ok_bounds ha).2.2 h
      omega
    · rfl
  have hbits := promote_bits a.ty
  have hc : common (promote a.ty) (promote b.ty) = b.ty := by
    rw [pb]
    unfold common
    rw [ps, hu]
    simp
    intro h
    omega
  have h1 : convert b.ty a.val = a.val + 2 ^ b.ty.bits := convert_neg ha hn hu (by omega)
  have h2 : convert b.ty b.val = b.val := convert_nonneg hb h0 fun _ => by rw [pb]
  refine ⟨?_, ?_, ?_⟩
  · simp only [isLess, Algebra.isLess, hc, h1, h2]
  · simp only [isEqual, Equality.eqOp, hc, h1, h2]
    rw [Bool.eq_iff_iff]; simp
  · simp only [isGreater, isLess, Algebra.isLess, common_comm (promote b.ty), hc, h1, h2]

/-- **C127**: whatever the types, exactly one of less, equal and greater, unless one is NaN. -/
theorem comparisons_trichotomy (R : Nearest round) {l r : Num} (hl : l.Ok round) (hr : r.Ok round)
    (ha : l.value ≠ none) (hb : r.value ≠ none) :
    (isLess round l r = true ∧ isEqual round l r = false ∧ isGreater round l r = false ∧ compare3way round l r = -1) ∨
    (isLess round l r = false ∧ isEqual round l r = true ∧ isGreater round l r = false ∧ compare3way round l r = 0) ∨
    (isLess round l r = false ∧ isEqual round l r = false ∧ isGreater round l r = true ∧ compare3way round l r = 1) := by
  have key : ∀ v w : FVal, v.value ≠ none → w.value ≠ none →
      (v.lt w = true ∧ v.eq w = false ∧ w.lt v = false) ∨ (v.lt w = false ∧ v.eq w = true ∧ w.lt v = false) ∨
      (v.lt w = false ∧ v.eq w = false ∧ w.lt v = true) := by
    intro v w hv hw
    obtain ⟨a, ha⟩ := Option.ne_none_iff_exists'.1 hv
    obtain ⟨b, hb⟩ := Option.ne_none_iff_exists'.1 hw
    have h1 := lt_value ha hb
    have h2 := lt_value hb ha
    have h3 := eq_value ha hb
    simp only [Bool.eq_false_iff, ne_eq, h1, h2, h3]
    rcases lt_trichotomy a b with h | h | h
    · simp [h, h.not_gt, h.ne]
    · simp [h]
    · simp [h, h.not_gt, h.ne']
  have fin : ∀ t : FloatTy, 0 < t.prec → 2 ^ 64 ≤ t.limit → ∀ e, (Num.int e).Ok round → (toFloat round t (.int e)).value ≠ none := by
    intro t hp hlim e he
    rw [toFloat_int R hp hlim he]
    simp [FVal.value]
  have h : (isLess round l r = true ∧ isEqual round l r = false ∧ isLess round r l = false) ∨
      (isLess round l r = false ∧ isEqual round l r = true ∧ isLess round r l = false) ∨
      (isLess round l r = false ∧ isEqual round l r = false ∧ isLess round r l = true) := by
    cases l with
    | int x =>
      cases r with
      | int y =>
        simp only [isLess, isEqual, Algebra.isLess, Equality.eqOp, common_comm (promote y.ty)]
        rcases lt_trichotomy (convert (common (promote x.ty) (promote y.ty)) x.val)
          (convert (common (promote x.ty) (promote y.ty)) y.val) with h | h | h
        · simp [h, h.not_gt, h.ne, h.le]
        · simp [h]
        · simp [h, h.not_gt, h.ne', h.le]
      | float t w => exact key _ _ (fin t hr.1 hr.2.1 x hl) hb
    | float t v =>
      cases r with
      | int y => exact key _ _ ha (fin t hl.1 hl.2.1 y hr)
      | float s w => exact key _ _ ha hb
  unfold isGreater compare3way isGreater
  rcases h with ⟨h1, h2, h3⟩ | ⟨h1, h2, h3⟩ | ⟨h1, h2, h3⟩ <;> simp [h1, h2, h3]

/-- **C127**: NaN is neither less than, equal to nor greater than anything; nevertheless `is_less_or_equal` and
`is_greater_or_equal` hold, and `compare3way` is 0. -/
theorem comparisons_nan (t : FloatTy) (x : Num) :
    (isLess round (.float t .nan) x = false ∧ isEqual round (.float t .nan) x = false ∧ isGreater round (.float t .nan) x = false ∧
      isLessOrEqual round (.float t .nan) x = true ∧ isGreaterOrEqual round (.float t .nan) x = true ∧
      isNotEqual round (.float t .nan) x = true ∧ compare3way round (.float t .nan) x = 0) ∧
    (isLess round x (.float t .nan) = false ∧ isEqual round x (.float t .nan) = false ∧ isGreater round x (.float t .nan) = false ∧
      isLessOrEqual round x (.float t .nan) = true ∧ isGreaterOrEqual round x (.float t .nan) = true ∧
      isNotEqual round x (.float t .nan) = true ∧ compare3way round x (.float t .nan) = 0) := by
  have lt1 : ∀ v : FVal, FVal.nan.lt v = false := fun v => by cases v <;> rfl
  have lt2 : ∀ v : FVal, v.lt .nan = false := fun v => by rcases v with _ | _ | _ <;> rfl
  have e1 : ∀ v : FVal, FVal.nan.eq v = false := fun v => by cases v <;> rfl
  have e2 : ∀ v : FVal, v.eq .nan = false := fun v => by rcases v with _ | _ | _ <;> rfl
  have h1 : isLess round (.float t .nan) x = false := by cases x <;> simp [isLess, floatCommon, toFloat, lt1]
  have h2 : isLess round x (.float t .nan) = false := by cases x <;> simp [isLess, floatCommon, toFloat, lt2]
  have h3 : isEqual round (.float t .nan) x = false := by cases x <;> simp [isEqual, floatCommon, toFloat, e1]
  have h4 : isEqual round x (.float t .nan) = false := by cases x <;> simp [isEqual, floatCommon, toFloat, e2]
  simp [isGreater, isLessOrEqual, isGreaterOrEqual, isNotEqual, compare3way, h1, h2, h3, h4]

/-- **C127**: an integer and a floating point number, the integer too large to be one of the type: it is rounded first, so less
and greater are right when they are found, but numbers that are close can be found equal. -/
theorem int_float (R : Nearest round) {e : Elem} {t : FloatTy} {x : ℚ} (he : (Num.int e).Ok round) (hx : (float t x).Ok round) :
    (isLess round (.int e) (float t x) = true → (e.val : ℚ) < x) ∧ (isGreater round (.int e) (float t x) = true → x < e.val) ∧
    (isEqual round (.int e) (float t x) = true → |(e.val : ℚ) - x| ≤ ((2 : ℚ) ^ t.prec)⁻¹ * |(e.val : ℚ)|) := by
  obtain ⟨hp, hlim, hv⟩ := hx
  obtain ⟨hr, -⟩ := hv x rfl
  have hm := R.mono t.prec hp
  have e1 : isLess round (.int e) (float t x) = decide (round t.prec e.val < x) := by
    simp only [isLess, float, floatCommon]; rw [toFloat_int R hp hlim he]; rfl
  have e2 : isGreater round (.int e) (float t x) = decide (x < round t.prec e.val) := by
    simp only [isGreater, isLess, float, floatCommon]; rw [toFloat_int R hp hlim he]; rfl
  have e3 : isEqual round (.int e) (float t x) = decide (round t.prec e.val = x) := by
    simp only [isEqual, float, floatCommon]; rw [toFloat_int R hp hlim he]; rfl
  rw [e1, e2, e3]
  simp only [decide_eq_true_eq]
  refine ⟨fun h => ?_, fun h => ?_, fun h => ?_⟩
  · by_contra hc
    have := hm (not_lt.1 hc)
    rw [hr] at this
    linarith
  · by_contra hc
    have := hm (not_lt.1 hc)
    rw [hr] at this
    linarith
  · have := R.near t.prec hp e.val
    rwa [h, abs_sub_comm] at this

/-- **C127**: the sign. -/
theorem sgn_exact (R : Nearest round) {x : Num} (hx : x.Ok round) {a : Ext} (ha : x.value = some a) :
    sgn round x = (if a < ofRat 0 then -1 else if a = ofRat 0 then 0 else 1) := by
  have h0 : (Num.int ⟨⟨32, true⟩, 0⟩).Ok round := by simp [Num.Ok]
  have hc : Comparable x (.int ⟨⟨32, true⟩, 0⟩) := by
    cases x with
    | int e =>
      by_cases hs : e.ty.signed = true
      · left
        simp [SameSign, hs]
      · right
        have := hx.2.2
        rw [if_neg hs] at this
        exact ⟨this.1, le_refl _⟩
    | float t v => simp [Comparable]
  have hb : (Num.int ⟨⟨32, true⟩, 0⟩).value = some (ofRat 0) := by simp [Num.value]
  exact (comparisons_exact R hx h0 hc ha hb).2.2.2.2.2.2

/-- **C127**: the absolute value.  The lowest number of a type has none: the call is undefined for `int` and wider types, and gives
the number itself for narrower ones. -/
theorem abs_exact {e : Elem} (he : (Num.int e).Ok round) (h1 : 1 < e.ty.bits) :
    absN (.int e) =
      (if e.ty.signed = true ∧ e.val = -(2 ^ (e.ty.bits - 1)) then
        if 32 ≤ e.ty.bits then none else some (.int e)
      else some (.int ⟨e.ty, |e.val|⟩)) := by
  obtain ⟨h0, -, hv⟩ := he
  obtain ⟨t, x⟩ := e
  simp only at h0 hv h1 ⊢
  have hpow : (2 : Int) ^ t.bits = 2 * 2 ^ (t.bits - 1) := by
    conv_lhs => rw [show t.bits = (t.bits - 1) + 1 by omega, pow_succ]
    ring
  have hpos : (0 : Int) < 2 ^ (t.bits - 1) := by positivity
  rcases hs : t.signed
  · simp only [absN, hs, Bool.false_eq_true, false_and, if_true, if_false]
    rw [hs] at hv
    simp only [Bool.false_eq_true, if_false] at hv
    rw [abs_of_nonneg hv.1]
  · simp only [absN, hs, if_true] at hv ⊢
    simp only [Bool.true_eq_false, if_false, true_and]
    have hcast : ∀ y : Int, -(2 ^ (t.bits - 1)) ≤ y → y < 2 ^ (t.bits - 1) → castTo t y = y := by
      intro y hy1 hy2
      unfold castTo
      rw [if_neg (by omega), hs]
      simp only [if_true]
      rw [Int.emod_eq_of_lt (by omega) (by omega)]
      omega
    by_cases hx : x = -(2 ^ (t.bits - 1))
    · rw [if_pos hx]
      by_cases h32 : 32 ≤ t.bits
      · have : promote t = t := by unfold promote; rw [if_neg (by omega)]
        rw [this, if_pos hx, if_pos h32]
      · have : promote t = ⟨32, true⟩ := by unfold promote; rw [if_pos (by omega)]
        rw [this, if_neg h32]
        have m : (2 : Int) ^ (t.bits - 1) < 2 ^ 31 := pow_lt_pow_right₀ (by norm_num) (by omega)
        rw [if_neg (by norm_num at m ⊢; omega)]
        have : castTo t |x| = x := by
          rw [hx, abs_neg, abs_of_pos hpos]
          unfold castTo
          rw [if_neg (by omega), hs]
          simp only [if_true]
          rw [show (2 : Int) ^ (t.bits - 1) + 2 ^ (t.bits - 1) = 2 ^ t.bits by omega, Int.emod_self]
          omega
        rw [this]
    · rw [if_neg hx]
      have hb := promote_bits t
      have m : (2 : Int) ^ (t.bits - 1) ≤ 2 ^ ((promote t).bits - 1) := pow_le_pow_right₀ (by norm_num) (by omega)
      rw [if_neg (by omega), hcast _ (by have := abs_nonneg x; omega) (by rw [abs_lt]; omega)]

/-- **C127**: the absolute value of floating point numbers. -/
theorem abs_float (t : FloatTy) : absN (.float t .nan) = some (.float t .nan) ∧
    (∀ s, absN (.float t (.inf s)) = some (.float t (.inf false))) ∧ ∀ x, absN (float t x) = some (float t |x|) :=
  ⟨rfl, fun _ => rfl, fun _ => rfl⟩

/-- **C127**: `max` is the maximum of numbers that keep their values in the common type. -/
theorem max_exact (R : Nearest round) {l r : Num} (hl : l.Ok round) (hr : r.Ok round) (hc : Comparable l r) {a b : Ext}
    (ha : l.value = some a) (hb : r.value = some b) : ∃ m, maxN round l r = some m ∧ m.value = some (max a b) := by
  have hless := less_iff R hl hr hc ha hb
  have hmax : ∀ (c : Bool) (hcc : c = true ↔ a < b), (if c then b else a) = max a b := by
    intro c hcc
    cases c with
    | true => simp [max_eq_right (hcc.1 rfl).le]
    | false =>
      have : ¬ a < b := fun h => by simpa using hcc.2 h
      simp [max_eq_left (not_lt.1 this)]
  cases l with
  | int x =>
    cases r with
    | int y =>
      refine ⟨_, rfl, ?_⟩
      obtain ⟨h1, h2⟩ := convert_comparable hl hr hc
      rw [← hmax _ hless]
      simp only [Num.value, Option.some.injEq] at ha hb
      subst ha; subst hb
      simp only [isLess]
      unfold Algebra.lmax Algebra.ifElse
      by_cases hq : Algebra.isLess x y = true
      · split
        · simp [Num.value, hq]
        · rw [common_comm]; simp [Num.value, h2, hq]
      · split
        · simp [Num.value, hq]
        · rw [common_comm]; simp [Num.value, h1, hq]
    | float t w =>
      refine ⟨_, rfl, ?_⟩
      rw [← hmax _ hless]
      rcases isLess round (.int x) (.float t w) with _ | _
      · simp only [Bool.false_eq_true, if_false, Num.value]
        rw [toFloat_small R hr.1 hr.2.1 hl hc]
        exact ha
      · simpa [Num.value, toFloat] using hb
  | float t v =>
    cases r with
    | int y =>
      refine ⟨_, rfl, ?_⟩
      rw [← hmax _ hless]
      rcases isLess round (.float t v) (.int y) with _ | _
      · simpa [Num.value, toFloat] using ha
      · simp only [if_true, Num.value]
        rw [toFloat_small R hl.1 hl.2.1 hr hc]
        exact hb
    | float s w =>
      refine ⟨_, rfl, ?_⟩
      rw [← hmax _ hless]
      rcases isLess round (.float t v) (.float s w) with _ | _
      · simpa [Num.value, toFloat] using ha
      · simpa [Num.value, toFloat] using hb

/-- **C127**: `max` with NaN is the left number, so it is not commutative. -/
theorem max_nan (s t : FloatTy) (v : FVal) :
    (maxN round (.float t .nan) (.float s v)).map Num.value = some none ∧
    (maxN round (.float s v) (.float t .nan)).map Num.value = some v.value := by
  have h1 := (comparisons_nan (round := round) t (.float s v)).1.1
  have h2 := (comparisons_nan (round := round) t (.float s v)).2.1
  constructor
  · simp [maxN, floatCommon, h1, toFloat, Num.value, FVal.value]
  · simp [maxN, floatCommon, h2, toFloat, Num.value]

/-! ## With a tolerance -/

theorem common_signed {a b : IntTy} (ha : a.signed = true) (hb : b.signed = true) :
    common (promote a) (promote b) = ⟨max (max a.bits b.bits) 32, true⟩ := by
  have pa := (promote_signed a).2 (Or.inl ha)
  have pb := (promote_signed b).2 (Or.inl hb)
  unfold common
  rw [if_pos (by rw [pa, pb]), promote_bits, promote_bits, pa]
  congr 1
  omega

theorem subtract_signed {a b : Elem} (ha : a.ty.signed = true) (hb : b.ty.signed = true) :
    subtract round (.int a) (.int b) =
      if -(2 ^ (max (max a.ty.bits b.ty.bits) 32 - 1)) ≤ a.val - b.val ∧ a.val - b.val < 2 ^ (max (max a.ty.bits b.ty.bits) 32 - 1)
      then some (.int ⟨⟨max (max a.ty.bits b.ty.bits) 32, true⟩, a.val - b.val⟩) else none := by
  simp only [subtract, builtinArith, common_signed ha hb, convert, if_true]
  split <;> simp

theorem less_signed {a b : Elem} (ha : a.ty.signed = true) (hb : b.ty.signed = true) :
    isLess round (.int a) (.int b) = decide (a.val < b.val) := by
  simp only [isLess, Algebra.isLess, common_signed ha hb, convert, if_true]

/-- **C127**: integers of signed types with a tolerance of a signed type, `n` bits after the conversions: less and greater are
exact where the difference is a number of `n` bits, equality where its absolute value is; otherwise they are undefined. -/
theorem tolerant_ints {e a b : Elem} (he : e.ty.signed = true) (ha : a.ty.signed = true) (hb : b.ty.signed = true) (n : Nat)
    (hn : n = max (max a.ty.bits b.ty.bits) 32) :
    isLessTol round (.int e) (.int a) (.int b) =
      (if -(2 ^ (n - 1)) ≤ b.val - a.val ∧ b.val - a.val < 2 ^ (n - 1) then some (decide (e.val < b.val - a.val)) else none) ∧
    isGreaterTol round (.int e) (.int a) (.int b) =
      (if -(2 ^ (n - 1)) ≤ a.val - b.val ∧ a.val - b.val < 2 ^ (n - 1) then some (decide (e.val < a.val - b.val)) else none) ∧
    isEqualTol round (.int e) (.int a) (.int b) =
      (if |a.val - b.val| < 2 ^ (n - 1) then some (decide (|a.val - b.val| ≤ e.val)) else none) := by
  have hless : ∀ x y : Elem, x.ty.signed = true → y.ty.signed = true → n = max (max x.ty.bits y.ty.bits) 32 →
      isLessTol round (.int e) (.int x) (.int y) =
      (if -(2 ^ (n - 1)) ≤ y.val - x.val ∧ y.val - x.val < 2 ^ (n - 1) then some (decide (e.val < y.val - x.val)) else none) := by
    intro x y hx hy hxy
    unfold isLessTol
    rw [subtract_signed hy hx, Nat.max_comm y.ty.bits, ← hxy]
    split
    · rw [Option.map_some, less_signed he rfl]
    · rfl
  refine ⟨hless a b ha hb hn, hless b a hb ha (by rw [hn, Nat.max_comm b.ty.bits]), ?_⟩
  unfold isEqualTol
  rw [subtract_signed ha hb, ← hn]
  have hpos : (0 : Int) < 2 ^ (n - 1) := by positivity
  have hpow : (2 : Int) ^ n = 2 * 2 ^ (n - 1) := by
    conv_lhs => rw [show n = (n - 1) + 1 by omega, pow_succ]
    ring
  have hpr : promote ⟨n, true⟩ = ⟨n, true⟩ := by unfold promote; rw [if_neg (by simp only; omega)]
  by_cases h : |a.val - b.val| < 2 ^ (n - 1)
  · have h' := abs_lt.1 h
    rw [if_pos h, if_pos ⟨by omega, h'.2⟩]
    simp only [Option.bind_some, absN, Bool.true_eq_false, if_false, hpr]
    rw [if_neg (by omega)]
    have : castTo ⟨n, true⟩ |a.val - b.val| = |a.val - b.val| := by
      unfold castTo
      rw [if_neg (by simp only; omega)]
      simp only [if_true]
      have := abs_nonneg (a.val - b.val)
      rw [Int.emod_eq_of_lt (by omega) (by omega)]
      omega
    rw [this, Option.map_some]
    unfold isLessOrEqual isGreater
    rw [less_signed he rfl]
    by_cases hq : e.val < |a.val - b.val|
    · simp only [hq, decide_true, Bool.not_true, not_le.2 hq, decide_false]
    · simp only [hq, decide_false, Bool.not_false, not_lt.1 hq, decide_true]
  · rw [if_neg h]
    split
    · rename_i hc
      have : a.val - b.val = -(2 ^ (n - 1)) := by
        rw [abs_lt] at h
        omega
      simp [absN, hpr, this]
    · rfl

/-- **C127 fails** for a tolerance of an unsigned type: a negative difference counts as a large one, so a number is less than
one that is smaller, and also greater. -/
theorem tolerance_unsigned_fails {e a b : Elem} (he : e.ty.signed = false) (ha : a.ty.signed = true) (hb : b.ty.signed = true)
    (hoe : (Num.int e).Ok round) (hw : max (max a.ty.bits b.ty.bits) 32 ≤ e.ty.bits)
    (h1 : e.val < a.val - b.val) (h2 : e.val + (a.val - b.val) < 2 ^ e.ty.bits)
    (h3 : a.val - b.val < 2 ^ (max (max a.ty.bits b.ty.bits) 32 - 1)) :
    isLessTol round (.int e) (.int a) (.int b) = some true ∧ isGreaterTol round (.int e) (.int a) (.int b) = some true := by
  have h0 : 0 ≤ e.val := by
    have := hoe.2.2
    rw [he] at this
    simpa using this.1
  have hpe : promote e.ty = e.ty := by unfold promote; rw [if_neg (by omega)]
  have hpos : (0 : Int) < 2 ^ (max (max a.ty.bits b.ty.bits) 32 - 1) := by positivity
  have hpow : (2 : Int) ^ (max (max a.ty.bits b.ty.bits) 32 - 1) < 2 ^ e.ty.bits :=
    pow_lt_pow_right₀ (by norm_num) (by omega)
  have hcommon : common e.ty ⟨max (max a.ty.bits b.ty.bits) 32, true⟩ = e.ty := by
    unfold common
    rw [if_neg (by rw [he]; simp)]
    simp only [he, Bool.false_eq_true, if_false]
    rw [if_pos hw]
  have hpd : promote ⟨max (max a.ty.bits b.ty.bits) 32, true⟩ = ⟨max (max a.ty.bits b.ty.bits) 32, true⟩ := by
    unfold promote; rw [if_neg (by simp only; omega)]
  have hconv : ∀ x : Int, 0 ≤ x → x < 2 ^ e.ty.bits → convert e.ty x = x := by
    intro x hx0 hx1
    unfold convert
    rw [he]
    exact Int.emod_eq_of_lt hx0 hx1
  have hconvn : ∀ x : Int, x < 0 → -(2 ^ e.ty.bits) ≤ x → convert e.ty x = x + 2 ^ e.ty.bits := by
    intro x hx0 hx1
    unfold convert
    rw [he]
    simp only [Bool.false_eq_true, if_false]
    rw [← Int.add_emod_right]
    exact Int.emod_eq_of_lt (by omega) (by omega)
  constructor
  · unfold isLessTol
    rw [subtract_signed hb ha, Nat.max_comm b.ty.bits, if_pos (by omega), Option.map_some]
    simp only [isLess, Algebra.isLess, hpe, hpd, hcommon]
    rw [hconv e.val h0 (by omega), hconvn _ (by omega) (by omega)]
    simp only [Option.some.injEq, decide_eq_true_eq]
    omega
  · unfold isGreaterTol isLessTol
    rw [subtract_signed ha hb, if_pos (by omega), Option.map_some]
    simp only [isLess, Algebra.isLess, hpe, hpd, hcommon]
    rw [hconv e.val h0 (by omega), hconv _ (by omega) (by omega)]
    simp only [Option.some.injEq, decide_eq_true_eq]
    omega

/-- The value with the other sign. -/
def opposite : FVal → FVal
  | .nan => .nan
  | .inf s => .inf !s
  | .fin x => .fin (-x)

theorem Nearest.zero (R : Nearest round) {p : Nat} (hp : 0 < p) : round p 0 = 0 := by
  have := R.has p hp 0 0 (by simp)
  simpa using this

theorem fit_neg (R : Nearest round) {t : FloatTy} (hp : 0 < t.prec) (hl : 0 ≤ t.limit) (z : ℚ) :
    fit round t (-z) = opposite (fit round t z) := by
  unfold fit
  rw [R.neg _ hp, abs_neg]
  split
  · rename_i h
    have hz : z ≠ 0 := by
      rintro rfl
      rw [R.zero hp] at h
      simp at h
      linarith
    simp only [opposite, FVal.inf.injEq]
    rcases lt_or_gt_of_ne hz with h | h
    · simp [h, h.le]
    · simp [h, h.le]
  · rfl

theorem sub_neg (R : Nearest round) {t : FloatTy} (hp : 0 < t.prec) (hl : 0 ≤ t.limit) (v w : FVal) :
    FVal.sub round t w v = opposite (FVal.sub round t v w) := by
  rcases v with _ | a | x <;> rcases w with _ | b | y
  · rfl
  · rfl
  · rfl
  · rfl
  · cases a <;> cases b <;> rfl
  · rfl
  · rfl
  · simp [FVal.sub, opposite]
  · simp only [FVal.sub]
    rw [← neg_sub, fit_neg R hp hl]

/-- The type of a difference. -/
def wide (s t : FloatTy) : FloatTy := if s.prec < t.prec then t else s

theorem wide_comm {s t : FloatTy} (h : s.prec = t.prec → s = t) : wide s t = wide t s := by
  unfold wide
  rcases lt_trichotomy s.prec t.prec with hc | hc | hc
  · rw [if_pos hc, if_neg (by omega)]
  · rw [h hc]
  · rw [if_neg (by omega), if_pos hc]

theorem wide_ok {s t : FloatTy} (P : FloatTy → Prop) (hs : P s) (ht : P t) : P (wide s t) := by
  unfold wide; split <;> assumption

/-- The absolute value. -/
def magnitude : FVal → FVal
  | .nan => .nan
  | .inf _ => .inf false
  | .fin x => .fin |x|

theorem tol_forms (R : Nearest round) {s t u : FloatTy} (hs : 0 < s.prec) (ht : 0 < t.prec) (hls : 0 ≤ s.limit) (hlt : 0 ≤ t.limit)
    (hst : s.prec = t.prec → s = t) (e : ℚ) (v w : FVal) :
    isLessTol round (float u e) (.float s v) (.float t w) =
      some (FVal.lt (.fin e) (opposite (FVal.sub round (wide s t) v w))) ∧
    isGreaterTol round (float u e) (.float s v) (.float t w) = some (FVal.lt (.fin e) (FVal.sub round (wide s t) v w)) ∧
    isEqualTol round (float u e) (.float s v) (.float t w) =
      some (!FVal.lt (.fin e) (magnitude (FVal.sub round (wide s t) v w))) := by
  refine ⟨?_, ?_, ?_⟩
  · rw [← sub_neg R (wide_ok (fun x => 0 < x.prec) hs ht) (wide_ok (fun x => 0 ≤ x.limit) hls hlt), wide_comm hst]
    rfl
  · rfl
  · rfl

/-- **C127**: floating point numbers with a finite tolerance: exactly one of less, equal and greater, also for infinities and
NaN. -/
theorem tolerant_floats_trichotomy (R : Nearest round) {s t u : FloatTy} {v w : FVal} {e : ℚ} (he : 0 ≤ e)
    (hl : (Num.float s v).Ok round) (hr : (Num.float t w).Ok round) (hst : s.prec = t.prec → s = t) :
    (isLessTol round (float u e) (.float s v) (.float t w) = some true ∧
      isEqualTol round (float u e) (.float s v) (.float t w) = some false ∧
      isGreaterTol round (float u e) (.float s v) (.float t w) = some false ∧
      compare3wayTol round (float u e) (.float s v) (.float t w) = some (-1)) ∨
    (isLessTol round (float u e) (.float s v) (.float t w) = some false ∧
      isEqualTol round (float u e) (.float s v) (.float t w) = some true ∧
      isGreaterTol round (float u e) (.float s v) (.float t w) = some false ∧
      compare3wayTol round (float u e) (.float s v) (.float t w) = some 0) ∨
    (isLessTol round (float u e) (.float s v) (.float t w) = some false ∧
      isEqualTol round (float u e) (.float s v) (.float t w) = some false ∧
      isGreaterTol round (float u e) (.float s v) (.float t w) = some true ∧
      compare3wayTol round (float u e) (.float s v) (.float t w) = some 1) := by
  have h64 : (0 : ℚ) ≤ 2 ^ 64 := by positivity
  obtain ⟨h1, h2, h3⟩ := tol_forms (u := u) R hl.1 hr.1 (h64.trans hl.2.1) (h64.trans hr.2.1) hst e v w
  unfold compare3wayTol
  rw [h1, h2, h3]
  generalize FVal.sub round (wide s t) v w = D
  rcases D with _ | a | d
  · right; left; simp [opposite, magnitude, FVal.lt]
  · cases a
    · right; right; simp [opposite, magnitude, FVal.lt]
    · left; simp [opposite, magnitude, FVal.lt]
  · simp only [opposite, magnitude, FVal.lt]
    rcases lt_or_ge e d with h | h
    · right; right
      have : ¬ e < -d := by linarith
      have : e < |d| := lt_of_lt_of_le h (le_abs_self d)
      simp [*]
    · rcases lt_or_ge e (-d) with h' | h'
      · left
        have : ¬ e < d := by linarith
        have : e < |d| := lt_of_lt_of_le h' (neg_le_abs d)
        simp [*]
      · right; left
        have : ¬ e < d := by linarith
        have : ¬ e < -d := by linarith
        have : ¬ e < |d| := not_lt.2 (abs_le.2 ⟨by linarith, h⟩)
        simp [*]

/-- What rounding does to comparisons with a number of the type. -/
theorem fit_lt (R : Nearest round) {t : FloatTy} (hp : 0 < t.prec) {e : ℚ} (he : 0 ≤ e) (hr : round t.prec e = e)
    (hlim : e ≤ t.limit) (z : ℚ) :
    (FVal.lt (.fin e) (fit round t z) = true → e < z) ∧
    (e < (1 - ((2 : ℚ) ^ t.prec)⁻¹) * z → FVal.lt (.fin e) (fit round t z) = true) := by
  have hm := R.mono t.prec hp
  have hu : ((2 : ℚ) ^ t.prec)⁻¹ < 1 := inv_lt_one_of_one_lt₀ (one_lt_pow₀ (by norm_num) hp.ne')
  constructor
  · intro h
    by_contra hc
    have hz := hm (not_lt.1 hc)
    rw [hr] at hz
    unfold fit at h
    split at h
    · rename_i hov
      by_cases hneg : z < 0
      · simp [hneg, FVal.lt] at h
      · have h0 := hm (not_lt.1 hneg)
        rw [R.zero hp] at h0
        rw [abs_of_nonneg h0] at hov
        linarith
    · simp only [FVal.lt, decide_eq_true_eq] at h
      linarith
  · intro h
    have hzpos : 0 < z := by
      by_contra hc
      have : (1 - ((2 : ℚ) ^ t.prec)⁻¹) * z ≤ 0 := mul_nonpos_of_nonneg_of_nonpos (by linarith) (not_lt.1 hc)
      linarith
    have hn := (abs_le.1 (R.near t.prec hp z)).1
    rw [abs_of_pos hzpos] at hn
    have hgt : e < round t.prec z := by linarith
    unfold fit
    split
    · simp [not_lt.2 hzpos.le, FVal.lt]
    · simpa [FVal.lt] using hgt

/-- **C127**: finite floating point numbers with a tolerance that the type has: less and greater are right when they are found,
and are found where the distance is larger than the tolerance by more than the rounding; numbers within the tolerance are
equal. -/
theorem tolerant_floats (R : Nearest round) {s t u : FloatTy} {x y e : ℚ} (he : 0 ≤ e)
    (hl : (float s x).Ok round) (hr : (float t y).Ok round) (hst : s.prec = t.prec → s = t)
    (hu : 0 < u.prec ∧ round u.prec e = e) (hus : u.prec ≤ s.prec ∨ u.prec ≤ t.prec) (h1 : e ≤ s.limit) (h2 : e ≤ t.limit) :
    (isLessTol round (float u e) (float s x) (float t y) = some true → e < y - x) ∧
    (isGreaterTol round (float u e) (float s x) (float t y) = some true → e < x - y) ∧
    (|x - y| ≤ e → isEqualTol round (float u e) (float s x) (float t y) = some true) ∧
    (e < (1 - ((2 : ℚ) ^ (max s.prec t.prec))⁻¹) * (y - x) → isLessTol round (float u e) (float s x) (float t y) = some true) ∧
    (e < (1 - ((2 : ℚ) ^ (max s.prec t.prec))⁻¹) * (x - y) → isGreaterTol round (float u e) (float s x) (float t y) = some true) ∧
    (isEqualTol round (float u e) (float s x) (float t y) = some true →
      (1 - ((2 : ℚ) ^ (max s.prec t.prec))⁻¹) * |x - y| ≤ e) := by
  have h64 : (0 : ℚ) ≤ 2 ^ 64 := by positivity
  have hp : 0 < (wide s t).prec := wide_ok (fun x => 0 < x.prec) hl.1 hr.1
  have hlim : e ≤ (wide s t).limit := wide_ok (fun x => e ≤ x.limit) h1 h2
  have hl0 : 0 ≤ (wide s t).limit := he.trans hlim
  have hprec : (wide s t).prec = max s.prec t.prec := by unfold wide; split <;> omega
  have hre : round (wide s t).prec e = e := by
    have := R.wider u.prec (wide s t).prec hu.1 (by omega) e
    rwa [hu.2] at this
  obtain ⟨f1, f2, -⟩ := tol_forms (u := u) R hl.1 hr.1 (h64.trans hl.2.1) (h64.trans hr.2.1) hst e (.fin x) (.fin y)
  have tri := tolerant_floats_trichotomy (u := u) R he hl hr hst
  simp only [float] at f1 f2 tri ⊢
  simp only [FVal.sub, ← fit_neg R hp hl0, neg_sub] at f1 f2
  obtain ⟨g1, g2⟩ := fit_lt R hp he hre hlim (y - x)
  obtain ⟨g3, g4⟩ := fit_lt R hp he hre hlim (x - y)
  rw [hprec] at g2 g4
  have s1 : isLessTol round (.float u (.fin e)) (.float s (.fin x)) (.float t (.fin y)) = some true → e < y - x := by
    rw [f1, Option.some.injEq]; exact g1
  have s2 : isGreaterTol round (.float u (.fin e)) (.float s (.fin x)) (.float t (.fin y)) = some true → e < x - y := by
    rw [f2, Option.some.injEq]; exact g3
  have s3 : e < (1 - ((2 : ℚ) ^ (max s.prec t.prec))⁻¹) * (y - x) →
      isLessTol round (.float u (.fin e)) (.float s (.fin x)) (.float t (.fin y)) = some true := by
    rw [f1, Option.some.injEq]; exact g2
  have s4 : e < (1 - ((2 : ℚ) ^ (max s.prec t.prec))⁻¹) * (x - y) →
      isGreaterTol round (.float u (.fin e)) (.float s (.fin x)) (.float t (.fin y)) = some true := by
    rw [f2, Option.some.injEq]; exact g4
  refine ⟨s1, s2, fun h => ?_, s3, s4, fun h => ?_⟩
  · rcases tri with ⟨c, -⟩ | ⟨-, c, -⟩ | ⟨-, -, c, -⟩
    · have := s1 c
      have := neg_abs_le (x - y)
      linarith
    · exact c
    · have := s2 c
      have := le_abs_self (x - y)
      linarith
  · by_contra hc
    rw [not_le] at hc
    rcases abs_cases (x - y) with ⟨ha, -⟩ | ⟨ha, -⟩
    · rw [ha] at hc
      have := s4 hc
      rcases tri with ⟨-, c, -⟩ | ⟨-, -, c, -⟩ | ⟨-, c, -⟩ <;> simp_all
    · rw [ha, neg_sub] at hc
      have := s3 hc
      rcases tri with ⟨-, c, -⟩ | ⟨c, -⟩ | ⟨-, c, -⟩ <;> simp_all

/-- **C127**: infinities and NaN with a finite tolerance: an infinity is equal to itself and apart from everything else, NaN is
equal to everything. -/
theorem tolerant_floats_special (u s t : FloatTy) (e : ℚ) (v : FVal) :
    isEqualTol round (float u e) (.float s .nan) (.float t v) = some true ∧
    isEqualTol round (float u e) (.float s v) (.float t .nan) = some true ∧
    (∀ b, isEqualTol round (float u e) (.float s (.inf b)) (.float t (.inf b)) = some true) ∧
    (v.value ≠ none → v ≠ .inf true → isLessTol round (float u e) (.float s (.inf true)) (.float t v) = some true) ∧
    (v.value ≠ none → v ≠ .inf false → isLessTol round (float u e) (.float s v) (.float t (.inf false)) = some true) := by
  refine ⟨?_, ?_, fun b => ?_, fun h1 h2 => ?_, fun h1 h2 => ?_⟩
  · cases v <;> rfl
  · rcases v with _ | _ | _ <;> rfl
  · cases b <;> rfl
  · rcases v with _ | b | x
    · simp [FVal.value] at h1
    · cases b
      · rfl
      · simp at h2
    · rfl
  · rcases v with _ | b | x
    · simp [FVal.value] at h1
    · cases b
      · simp at h2
      · rfl
    · rfl

/-- **C127**: less with a tolerance is transitive on the numbers of a floating point type. -/
theorem tolerant_floats_trans (R : Nearest round) {t u : FloatTy} {x y z : FVal} {e : ℚ} (he : 0 ≤ e)
    (hx : (Num.float t x).Ok round) (hu : 0 < u.prec ∧ round u.prec e = e) (hut : u.prec ≤ t.prec) (hlim : e ≤ t.limit)
    (h1 : isLessTol round (float u e) (.float t x) (.float t y) = some true)
    (h2 : isLessTol round (float u e) (.float t y) (.float t z) = some true) :
    isLessTol round (float u e) (.float t x) (.float t z) = some true := by
  have hw : wide t t = t := by unfold wide; split <;> rfl
  have hp := hx.1
  have hre : round t.prec e = e := by
    have := R.wider u.prec t.prec hu.1 hut e
    rwa [hu.2] at this
  have form : ∀ v w : FVal, isLessTol round (float u e) (.float t v) (.float t w) = some (FVal.lt (.fin e) (FVal.sub round t w v)) := by
    intro v w
    change some (FVal.lt (.fin e) (FVal.sub round (wide t t) w v)) = _
    rw [hw]
  rw [form, Option.some.injEq] at *
  have mono : ∀ a b : ℚ, a ≤ b → FVal.lt (.fin e) (fit round t a) = true → FVal.lt (.fin e) (fit round t b) = true := by
    intro a b hab h
    have ha := (fit_lt R hp he hre hlim a).1 h
    have hb : ¬ b < 0 := by linarith
    have hm := R.mono t.prec hp hab
    have ha0 := R.mono t.prec hp (show (0 : ℚ) ≤ a by linarith)
    rw [R.zero hp] at ha0
    unfold fit at h ⊢
    split
    · simp [hb, FVal.lt]
    · rename_i hov
      rw [abs_of_nonneg (by linarith)] at hov
      rw [if_neg (by rw [abs_of_nonneg ha0]; linarith)] at h
      simp only [FVal.lt, decide_eq_true_eq] at h ⊢
      linarith
  rcases x with _ | a | x <;> rcases y with _ | b | y <;> rcases z with _ | c | z <;>
    simp only [FVal.sub] at h1 h2 ⊢
  all_goals first
    | (simp [FVal.lt] at h1; done)
    | (simp [FVal.lt] at h2; done)
    | skip
  all_goals first
    | (cases a <;> cases b <;> cases c <;> simp_all [FVal.lt]; done)
    | (cases a <;> cases b <;> simp_all [FVal.lt]; done)
    | (cases a <;> cases c <;> simp_all [FVal.lt]; done)
    | (cases b <;> cases c <;> simp_all [FVal.lt]; done)
    | (cases a <;> simp_all [FVal.lt]; done)
    | (cases b <;> simp_all [FVal.lt]; done)
    | (cases c <;> simp_all [FVal.lt]; done)
    | skip
  have := (fit_lt R hp he hre hlim (z - y)).1 h2
  exact mono (y - x) (z - x) (by linarith) h1

/-! ## Rounding to nearest -/

theorem roundSigned_neg (p : Nat) (x : ℚ) : Geo.roundSigned p (-x) = -Geo.roundSigned p x := by
  unfold Geo.roundSigned
  rcases lt_trichotomy x 0 with h | h | h
  · rw [if_neg (by linarith), if_pos h, neg_neg]
  · subst h
    simp [IntText.roundBinary]
  · rw [if_pos (by linarith), if_neg (by linarith), neg_neg]

theorem roundBinary_form (p : Nat) {x : ℚ} (hx : 0 ≤ x) :
    ∃ k e : Int, |k| ≤ 2 ^ p ∧ IntText.roundBinary p x = k * 2 ^ e := by
  refine ⟨_, _, ?_, rfl⟩
  rcases hx.eq_or_lt with rfl | hpos
  · simp
  · have h2 : (0 : ℚ) < 2 ^ (Int.log 2 x + 1 - (p : Int)) := zpow_pos (by norm_num) _
    have hlt : x < (2 : ℚ) ^ (Int.log 2 x + 1) := Int.lt_zpow_succ_log_self (b := 2) (by norm_num) x
    have hq : x / 2 ^ (Int.log 2 x + 1 - (p : Int)) ≤ ((2 ^ p : Int) : ℚ) := by
      rw [div_le_iff₀ h2]
      push_cast
      rw [← zpow_natCast, ← zpow_add₀ (by norm_num)]
      rw [show (p : Int) + (Int.log 2 x + 1 - p) = Int.log 2 x + 1 by ring]
      exact hlt.le
    have hq0 : ((0 : Int) : ℚ) ≤ x / 2 ^ (Int.log 2 x + 1 - (p : Int)) := by
      push_cast
      exact div_nonneg hx h2.le
    have a1 := Geo.roundQ_mono hq
    have a2 := Geo.roundQ_mono hq0
    rw [round_intCast] at a1 a2
    rw [abs_of_nonneg a2]
    exact a1

/-- **C127**: rounding to the nearest number of `p` digits, halves away from zero, is such a rounding. -/
theorem nearest_roundSigned : Nearest Geo.roundSigned where
  mono _ hp := Geo.roundSigned_mono hp
  neg p _ x := roundSigned_neg p x
  near _ hp := (Geo.roundSigned_signed hp).near
  has _ hp k e hk := Geo.roundSigned_int hp hk e
  wider p q hp hpq x := by
    have key : ∀ y : ℚ, 0 ≤ y → Geo.roundSigned q (IntText.roundBinary p y) = IntText.roundBinary p y := by
      intro y hy
      obtain ⟨k, e, hk, h⟩ := roundBinary_form p hy
      rw [h]
      exact Geo.roundSigned_int (by omega) (hk.trans (pow_le_pow_right₀ (by norm_num) hpq)) e
    by_cases hx : x < 0
    · have : Geo.roundSigned p x = -IntText.roundBinary p (-x) := by unfold Geo.roundSigned; rw [if_pos hx]
      rw [this, roundSigned_neg, key _ (by linarith)]
    · have : Geo.roundSigned p x = IntText.roundBinary p x := by unfold Geo.roundSigned; rw [if_neg hx]
      rw [this, key _ (by linarith)]

/-! ## What is lost -/

/-- The numbers of the type `int` and so on. -/
private def i32 (x : Int) : Num := .int ⟨⟨32, true⟩, x⟩
private def u32 (x : Int) : Num := .int ⟨⟨32, false⟩, x⟩
private def i64 (x : Int) : Num := .int ⟨⟨64, true⟩, x⟩

/-- `double` -/
private def double : FloatTy := ⟨53, 2 ^ 1023⟩

/-- **C127 fails** across types: less and equal are not transitive, integers beyond the digits of the floating point type are equal
to others, and NaN is less or equal and greater or equal to everything although it is equal to nothing. -/
theorem comparisons_fail :
    (isLess Geo.roundSigned (i32 (-1)) (i32 0) = true ∧ isLess Geo.roundSigned (i32 0) (u32 1) = true ∧
      isLess Geo.roundSigned (i32 (-1)) (u32 1) = false) ∧
    (isEqual Geo.roundSigned (i32 (-1)) (u32 4294967295) = true ∧
      isEqual Geo.roundSigned (u32 4294967295) (i64 4294967295) = true ∧
      isEqual Geo.roundSigned (i32 (-1)) (i64 4294967295) = false) ∧
    (isEqual Geo.roundSigned (i64 (2 ^ 53 + 1)) (float double (2 ^ 53 + 2)) = true) ∧
    (isLessOrEqual Geo.roundSigned (.float double .nan) (i32 0) = true ∧
      isGreaterOrEqual Geo.roundSigned (.float double .nan) (i32 0) = true ∧
      isEqual Geo.roundSigned (.float double .nan) (i32 0) = false) := by
  refine ⟨⟨?_, ?_, ?_⟩, ⟨?_, ?_, ?_⟩, ?_, ?_, ?_, ?_⟩ <;> decide +kernel

/-- The hypotheses are met: an `int` and a `double`. -/
example : (i32 (-7)).Ok Geo.roundSigned ∧ (float double (1 / 4)).Ok Geo.roundSigned ∧
    Comparable (i32 (-7)) (float double (1 / 4)) ∧ compare3way Geo.roundSigned (i32 (-7)) (float double (1 / 4)) = -1 := by
  refine ⟨by simp [i32, Num.Ok], ⟨by decide, by decide +kernel, fun x hx => ?_⟩, by simp [Comparable, double, float, i32],
    by decide +kernel⟩
  have : x = 1 / 4 := by simpa using hx.symm
  subst this
  exact ⟨by decide +kernel, by decide +kernel⟩

/-- `-1` against `4294967295u`: equal. -/
example : isEqual Geo.roundSigned (i32 (-1)) (u32 4294967295) = true ∧ isGreater Geo.roundSigned (i32 (-1)) (u32 1) = true := by
  decide +kernel

/-- The differences `-2 ^ 31` and `2 ^ 31 - 1` of numbers of type `int`. -/
example : isLessTol Geo.roundSigned (i32 3) (i32 1) (i32 (-(2 ^ 31) + 1)) = some false ∧
    isGreaterTol Geo.roundSigned (i32 3) (i32 1) (i32 (-(2 ^ 31) + 1)) = none ∧
    isEqualTol Geo.roundSigned (i32 3) (i32 1) (i32 (-(2 ^ 31) + 1)) = none ∧
    isEqualTol Geo.roundSigned (i32 3) (i32 0) (i32 3) = some true := by decide +kernel

/-- Five is less than two, with the tolerance `1u`, and greater. -/
example : isLessTol Geo.roundSigned (u32 1) (i32 5) (i32 2) = some true ∧
    isGreaterTol Geo.roundSigned (u32 1) (i32 5) (i32 2) = some true := by decide +kernel

/-- Tolerance `1 / 1024` of type `double`. -/
example : isEqualTol Geo.roundSigned (float double (1 / 1024)) (float double 1) (float double (1 + 1 / 1024)) = some true ∧
    isLessTol Geo.roundSigned (float double (1 / 1024)) (float double 1) (float double (1 + 1 / 512)) = some true ∧
    isEqualTol Geo.roundSigned (float double 0) (float double 1) (.float double .nan) = some true := by decide +kernel

/-- `abs` of the lowest `short`, and of the lowest `int`. -/
example : absN (.int ⟨⟨16, true⟩, -(2 ^ 15)⟩) = some (.int ⟨⟨16, true⟩, -(2 ^ 15)⟩) ∧
    absN (.int ⟨⟨32, true⟩, -(2 ^ 31)⟩) = none ∧ absN (.int ⟨⟨16, true⟩, -5⟩) = some (.int ⟨⟨16, true⟩, 5⟩) := by decide +kernel

end Actl.Numbers
