import Verif.Model.Random
import Mathlib.Logic.Function.Basic
import Mathlib.Logic.Function.Iterate

namespace Actl.Random

/-- `x ↦ x ^ (x >> k)` loses nothing: bits are recovered from the top. -/
theorem xorShiftRight_inj {w k : Nat} (hk : 0 < k) {x y : BitVec w}
    (h : x ^^^ (x >>> k) = y ^^^ (y >>> k)) : x = y := by
  have key : ∀ n, ∀ i, w - i ≤ n → x.getLsbD i = y.getLsbD i := by
    intro n
    induction n with
    | zero =>
      intro i hi
      rw [BitVec.getLsbD_of_ge _ _ (by omega), BitVec.getLsbD_of_ge _ _ (by omega)]
    | succ n ih =>
      intro i hi
      have hb := congrArg (fun v => v.getLsbD i) h
      simp only [BitVec.getLsbD_xor, BitVec.getLsbD_ushiftRight] at hb
      by_cases hiw : i < w
      · rw [ih (k + i) (by omega)] at hb
        exact (Bool.xor_left_inj).mp hb
      · rw [BitVec.getLsbD_of_ge _ _ (by omega), BitVec.getLsbD_of_ge _ _ (by omega)]
  apply BitVec.eq_of_getLsbD_eq
  intro i hi
  exact key (w - i) i (Nat.le_refl _)

/-- Multiplication by an invertible constant is injective. -/
theorem mul_inj_of_inverse {w : Nat} {c d : BitVec w} (hcd : c * d = 1#w) {x y : BitVec w}
    (h : x * c = y * c) : x = y := by
  have := congrArg (· * d) h
  simpa [BitVec.mul_assoc, hcd] using this

theorem splitmixNext_injective : Function.Injective splitmixNext := by
  intro x y h
  unfold splitmixNext at h
  have h1 := xorShiftRight_inj (by decide) h
  have h2 := mul_inj_of_inverse (d := 0x319642b2d24d8ec3#64) (by decide +kernel) h1
  have h3 := xorShiftRight_inj (by decide) h2
  have h4 := mul_inj_of_inverse (d := 0x96de1b173f119089#64) (by decide +kernel) h3
  have h5 := xorShiftRight_inj (by decide) h4
  exact (BitVec.add_left_inj _).mp h5

/-- A rotation, written with shifts, loses nothing. -/
theorem rot_inj {w a b : Nat} (hab : a + b = w) {x y : BitVec w}
    (h : (x <<< a) ^^^ (x >>> b) = (y <<< a) ^^^ (y >>> b)) : x = y := by
  apply BitVec.eq_of_getLsbD_eq
  intro i hi
  by_cases hib : i < b
  · -- bit i goes to position i + a
    have hb := congrArg (fun v => v.getLsbD (i + a)) h
    simp only [BitVec.getLsbD_xor, BitVec.getLsbD_ushiftRight, BitVec.getLsbD_shiftLeft] at hb
    rw [BitVec.getLsbD_of_ge x (b + (i + a)) (by omega),
      BitVec.getLsbD_of_ge y (b + (i + a)) (by omega)] at hb
    simpa [show i + a < w by omega, show ¬ (i + a < a) by omega] using hb
  · have hb := congrArg (fun v => v.getLsbD (i - b)) h
    simp only [BitVec.getLsbD_xor, BitVec.getLsbD_ushiftRight, BitVec.getLsbD_shiftLeft] at hb
    simpa [show i - b < a by omega, show b + (i - b) = i by omega] using hb

theorem xoroNext_injective : Function.Injective (fun s => (xoroNext s).1) := by
  intro s t h
  simp only [xoroNext, Xoro.mk.injEq] at h
  obtain ⟨hx, hy⟩ := h
  have hy' := rot_inj (by decide) hy
  rw [hy'] at hx
  have hx1 := (BitVec.xor_left_inj _).mp ((BitVec.xor_left_inj _).mp hx)
  have hx2 := rot_inj (by decide) hx1
  rw [hx2] at hy'
  have hy2 := (BitVec.xor_left_inj _).mp hy'
  cases s; cases t
  simp_all

theorem xoroNext_zero : (xoroNext ⟨0, 0⟩).1 = ⟨0, 0⟩ := by decide +kernel

theorem xoroIter_injective (n : Nat) : Function.Injective (xoroIter n) := by
  induction n with
  | zero => intro a b h; exact h
  | succ n ih => intro a b h; exact xoroNext_injective (ih h)

theorem xoroIter_zero (n : Nat) : xoroIter n ⟨0, 0⟩ = ⟨0, 0⟩ := by
  induction n with
  | zero => rfl
  | succ n ih => rw [xoroIter, xoroNext_zero, ih]

theorem hashCombine_inj (seed : W) {h k : W} (e : hashCombine seed h = hashCombine seed k) :
    h = k := by
  unfold hashCombine at e
  exact (BitVec.add_right_inj _).mp ((BitVec.xor_right_inj _).mp e)

end Actl.Random
