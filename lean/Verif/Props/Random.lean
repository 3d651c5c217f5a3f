import Verif.Lemmas.Random
import Mathlib.Data.Finite.Prod
import Mathlib.Data.Fintype.EquivFin

/-!
C05, C06, C58 and C61: the mixing functions lose no information.
-/

namespace Actl.Random

/-- **C05**: `splitmix64::next` is a bijection of the 64-bit words. -/
theorem splitmix_bijective : Function.Bijective splitmixNext := by
  have : Finite W := Finite.of_injective BitVec.toFin (fun a b h => by
    cases a; cases b; simpa using h)
  exact Finite.injective_iff_bijective.mp splitmixNext_injective

/-- **C05**: the hash of a 64-bit integer never collides, whatever the process seed. -/
theorem hash64_injective (seed : W) : Function.Injective (hashCompute seed) := by
  intro x y h
  exact (BitVec.add_left_inj _).mp (splitmixNext_injective h)

/-- **C05/C58**: `hash_value` of an arithmetic value of any size from 0 to 8 bytes never
collides with that of another value of that size. -/
theorem hashArith_injective (seed : W) {n : Nat} (hn : n ≤ 8) :
    Function.Injective (hashArith seed n) := by
  intro x y h
  have h := hash64_injective seed h
  apply BitVec.eq_of_getLsbD_eq
  intro i hi
  have hb := congrArg (fun v => v.getLsbD (i + (64 - 8 * n))) h
  simp only [BitVec.getLsbD_shiftLeft, BitVec.getLsbD_setWidth] at hb
  have e1 : i + (64 - 8 * n) < 64 := by omega
  have e2 : ¬ (i + (64 - 8 * n) < 64 - 8 * n) := by omega
  have e3 : i + (64 - 8 * n) - (64 - 8 * n) = i := by omega
  have e4 : i < 64 := by omega
  simpa [e1, e2, e3, e4] using hb

/-- **C05**: two `splitmix64` generators with different states produce different outputs at
every step. -/
theorem splitmix_streams_differ (s t : W) (hst : s ≠ t) (n : Nat) :
    splitmixNext^[n + 1] s ≠ splitmixNext^[n + 1] t :=
  fun h => hst (splitmixNext_injective.iterate _ h)

/-- **C06**: two generators in different states are still in different states after any number
of calls. -/
theorem xoro_states_stay_distinct (n : Nat) {s t : Xoro} (h : s ≠ t) :
    xoroIter n s ≠ xoroIter n t :=
  fun e => h (xoroIter_injective n e)

/-- **C06**: the state transition is a bijection. -/
theorem xoro_bijective : Function.Bijective (fun s => (xoroNext s).1) := by
  have : Finite W := Finite.of_injective BitVec.toFin (fun a b h => by
    cases a; cases b; simpa using h)
  have : Finite Xoro := Finite.of_injective (fun s : Xoro => (s.s0, s.s1)) (fun a b h => by
    cases a; cases b; simpa using h)
  exact Finite.injective_iff_bijective.mp xoroNext_injective

/-- **C06**: a generator whose state is not all zero never gets there. -/
theorem xoro_never_zero (n : Nat) {s : Xoro} (h : s ≠ ⟨0, 0⟩) : xoroIter n s ≠ ⟨0, 0⟩ := by
  have := xoro_states_stay_distinct n h
  rwa [xoroIter_zero] at this

/-- **C06**: in particular a default-constructed generator never degenerates. -/
theorem xoro_default_never_zero (n : Nat) : xoroIter n Xoro.default ≠ ⟨0, 0⟩ :=
  xoro_never_zero n (by decide +kernel)

/-- **C06**: why it matters: from the zero state every output is zero. -/
theorem xoro_zero_outputs_zero (n : Nat) : (xoroNext (xoroIter n ⟨0, 0⟩)).2 = 0 := by
  rw [xoroIter_zero]; decide +kernel

/-- **C61**: seeding with any string never leaves the generator in the degenerate state. -/
theorem seed_nonzero (value : List W) (fuel : Nat) {s : Xoro} (h : seed value fuel = some s) :
    s ≠ ⟨0, 0⟩ := by
  have key : ∀ fuel d, seedLoop value fuel d = some s → s ≠ ⟨0, 0⟩ := by
    intro fuel
    induction fuel with
    | zero => intro d h; simp [seedLoop] at h
    | succ fuel ih =>
      intro d h
      unfold seedLoop at h
      simp only at h
      split at h
      · exact ih _ h
      · rename_i hne
        simp only [Option.some.injEq] at h
        subst h
        intro hz
        apply hne
        have h1 : (xoroNext (addChars (xoroNext d).1 value)).1 = ⟨0, 0⟩ := by
          apply xoroNext_injective; simp only [hz, xoroNext_zero]
        have h2 : addChars (xoroNext d).1 value = ⟨0, 0⟩ := by
          apply xoroNext_injective; simp only [h1, xoroNext_zero]
        rw [h2]
        decide +kernel
  exact key fuel _ h

/-- **C61**: once an attempt succeeds, allowing more attempts does not change the result, so
`seed` is a function of the string (the bound on the attempts is a modelling device only). -/
theorem seed_fuel_irrelevant (value : List W) (a b : Nat) {s t : Xoro}
    (ha : seed value a = some s) (hb : seed value b = some t) : s = t := by
  have mono : ∀ fuel d s, seedLoop value fuel d = some s → ∀ k, seedLoop value (fuel + k) d = some s := by
    intro fuel
    induction fuel with
    | zero => intro d s h; simp [seedLoop] at h
    | succ fuel ih =>
      intro d s h k
      rw [Nat.add_right_comm]
      unfold seedLoop at h ⊢
      simp only at h ⊢
      split at h
      · rename_i e; rw [if_pos e]; exact ih _ _ h k
      · rename_i e; rw [if_neg e]; exact h
  have h1 := mono a _ _ ha b
  have h2 := mono b _ _ hb a
  rw [Nat.add_comm b a, h1] at h2
  exact Option.some.inj h2

/-- **C61**, a limitation of the seeding: only the sum of the characters matters, so two
strings with the same character sum (e.g. permutations of each other) give the same generator. -/
theorem seed_depends_on_sum (v1 v2 : List W) (h : v1.foldl (· + ·) 0 = v2.foldl (· + ·) 0)
    (fuel : Nat) : seed v1 fuel = seed v2 fuel := by
  have fold_shift : ∀ (v : List W) (a : W), v.foldl (· + ·) a = a + v.foldl (· + ·) 0 := by
    intro v
    induction v with
    | nil => intro a; simp
    | cons c cs ih => intro a; simp only [List.foldl_cons]; rw [ih, ih (0 + c)]; simp [BitVec.add_assoc]
  have hadd : ∀ s, addChars s v1 = addChars s v2 := by
    intro s; unfold addChars; rw [fold_shift v1, fold_shift v2, h]
  have key : ∀ fuel d, seedLoop v1 fuel d = seedLoop v2 fuel d := by
    intro fuel
    induction fuel with
    | zero => intro d; rfl
    | succ fuel ih =>
      intro d
      unfold seedLoop
      simp only [hadd, ih]
  exact key fuel _

/-- **C58**: two sequences that differ only in their last element hash differently, when the
hashes of these elements differ (for integers: when the integers differ, `hashArith_injective`). -/
theorem hashRange_last_injective (pre : List W) {h k : W}
    (e : hashRange (pre ++ [h]) = hashRange (pre ++ [k])) : h = k := by
  simp only [hashRange, List.foldl_append, List.foldl_cons, List.foldl_nil] at e
  exact hashCombine_inj _ e

/-- **C58**: same for tuples, whose first element seeds the combination. -/
theorem hashTuple_last_injective (first : W) (pre : List W) {h k : W}
    (e : hashTuple first (pre ++ [h]) = hashTuple first (pre ++ [k])) : h = k := by
  simp only [hashTuple, List.foldl_append, List.foldl_cons, List.foldl_nil] at e
  exact hashCombine_inj _ e

/-- **C58**: two integer sequences equal but for the last element never collide. -/
theorem hashRange_ints_last_injective (seed : W) {n : Nat} (hn : n ≤ 8)
    (pre : List (BitVec (8 * n))) {x y : BitVec (8 * n)}
    (e : hashRange ((pre ++ [x]).map (hashArith seed n)) =
         hashRange ((pre ++ [y]).map (hashArith seed n))) : x = y := by
  simp only [List.map_append, List.map_cons, List.map_nil] at e
  exact hashArith_injective seed hn (hashRange_last_injective _ e)

/-- Bit patterns of the `double` values `+0.0` and `-0.0` (IEEE 754 binary64), which compare
equal. -/
def plusZero : BitVec (8 * 8) := 0x0000000000000000#64
def minusZero : BitVec (8 * 8) := 0x8000000000000000#64

/-- **C58 fails for floating-point values**: `0.0 == -0.0`, but `hash_value` hashes the bytes, so
the two equal values hash differently under *every* seed. -/
theorem hash_double_zeros_differ (seed : W) : hashArith seed 8 plusZero ≠ hashArith seed 8 minusZero :=
  fun h => absurd (hashArith_injective seed (Nat.le_refl 8) h) (by decide)

/-! Concrete cases. -/

example : splitmixNext 0 = 0xe220a8397b1dcdaf#64 := by decide +kernel
example : (⟨1, 2⟩ : Xoro) ≠ ⟨0, 0⟩ ∧ xoroIter 3 ⟨1, 2⟩ ≠ xoroIter 3 ⟨2, 1⟩ :=
  ⟨by decide, xoro_states_stay_distinct 3 (by decide)⟩
/-- Seeding with `"ab"` succeeds at the first attempt, and equals seeding with `"ba"`. -/
example : (seed [0x61, 0x62] 1).isSome ∧ seed [0x61, 0x62] 1 = seed [0x62, 0x61] 1 := by
  refine ⟨by decide +kernel, seed_depends_on_sum _ _ (by decide) _⟩
example : hashRange ([1, 2] ++ [3]) ≠ hashRange ([1, 2] ++ [4]) :=
  fun h => absurd (hashRange_last_injective _ h) (by decide)
example : hashArith 7 4 5#32 ≠ hashArith 7 4 6#32 :=
  fun h => absurd (hashArith_injective 7 (by decide) h) (by decide)

end Actl.Random
