import Verif.Model.Ints
import Mathlib.Tactic.Linarith
import Mathlib.Tactic.Ring

/-!
Facts on integer types.
-/

namespace Actl.Ints

theorem cast_of_has (t : IntT) (x : Int) (h : t.Has x) (hw : 0 < t.width) : t.cast x = x := by
  unfold IntT.Has at h
  have h2 : t.hi - t.lo = 2 ^ t.width := by
    unfold IntT.hi IntT.lo
    split
    · obtain ⟨n, hn⟩ : ∃ n, t.width = n + 1 := ⟨t.width - 1, by omega⟩
      rw [hn, Nat.add_sub_cancel, pow_succ]; ring
    · ring
  unfold IntT.cast
  rw [Int.emod_eq_of_lt (by omega) (by omega)]
  omega

theorem promote_has (K : IntT) (hK : 0 < K.width) (x : Int) (hx : K.Has x) :
    K.promote.Has x ∧ 0 < K.promote.width := by
  unfold IntT.promote
  split
  · rename_i h32
    refine ⟨?_, by decide⟩
    unfold IntT.Has IntT.lo IntT.hi at hx ⊢
    have h31 : (2 : Int) ^ K.width ≤ 2 ^ 31 := pow_le_pow_right₀ (by decide) (by omega)
    have h30 : (2 : Int) ^ (K.width - 1) ≤ 2 ^ 31 := pow_le_pow_right₀ (by decide) (by omega)
    simp only [if_true] at hx ⊢
    split at hx
    · simp at hx ⊢; omega
    · simp at hx ⊢; omega
  · exact ⟨hx, hK⟩

theorem arith_of_has (t : IntT) (ht : 0 < t.width) (x : Int) (hx : t.Has x) : t.arith x = some x := by
  unfold IntT.arith
  rw [if_pos hx, cast_of_has _ _ hx ht, ite_self]

theorem arith_promote (K : IntT) (hK : 0 < K.width) (x : Int) (hx : K.Has x) :
    K.promote.arith x = some x :=
  arith_of_has _ (promote_has K hK x hx).2 x (promote_has K hK x hx).1

theorem promote_wide (K : IntT) (h : 32 ≤ K.width) : K.promote = K := by
  unfold IntT.promote; rw [if_neg (by omega)]

end Actl.Ints
