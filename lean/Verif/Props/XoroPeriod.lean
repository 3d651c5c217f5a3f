import Verif.Lemmas.XoroPeriod
import Verif.Props.Random

/-!
**C106**: the period of `xoroshiro128cplus`, and its consequences for seeding.
-/

namespace Actl.Random

/-- **C106**: a generator that is not in the zero state is back in its state after exactly the
multiples of `2 ^ 128 - 1` calls. -/
theorem xoro_full_period {s : Xoro} (hs : s ≠ ⟨0, 0⟩) (n : Nat) :
    xoroIter n s = s ↔ 2 ^ 128 - 1 ∣ n := by
  rw [xoroIter_eq]
  have h := xoroStep_minimalPeriod (s := s) hs
  constructor
  · intro e
    have := Function.IsPeriodicPt.minimalPeriod_dvd (f := xoroStep) (x := s) (n := n) e
    rwa [h] at this
  · rintro ⟨k, rfl⟩
    exact (show Function.IsPeriodicPt xoroStep (2 ^ 128 - 1) s from xoroStep_iter_N s).mul_const k

/-- **C106**: whatever its state, zero or not, a generator is back in it after `2 ^ 128 - 1`
calls. -/
theorem xoro_period (s : Xoro) : xoroIter (2 ^ 128 - 1) s = s := by
  rw [xoroIter_eq]; exact xoroStep_iter_N s

/-- **C106**: from every state other than zero, every state other than zero is reached, and
reached for the first time within `2 ^ 128 - 1` calls. -/
theorem xoro_reaches_every_state {s t : Xoro} (hs : s ≠ ⟨0, 0⟩) (ht : t ≠ ⟨0, 0⟩) :
    ∃! n, n < 2 ^ 128 - 1 ∧ xoroIter n s = t := by
  obtain ⟨n, hn, e⟩ := xoroStep_orbit hs ht
  refine ⟨n, ⟨hn, by rw [xoroIter_eq]; exact e⟩, ?_⟩
  rintro m ⟨hm, e'⟩
  rw [xoroIter_eq] at e'
  have h := xoroStep_minimalPeriod (s := s) hs
  exact (Function.iterate_eq_iterate_iff_of_lt_minimalPeriod (f := xoroStep) (x := s)
    (by rw [h]; exact hm) (by rw [h]; exact hn)).mp (e'.trans e.symm)

/-- The values returned by the calls, in order. -/
def xoroOut (s : Xoro) (n : Nat) : W := (xoroNext (xoroIter n s)).2

theorem xoroIter_add (m n : Nat) (s : Xoro) : xoroIter (m + n) s = xoroIter n (xoroIter m s) := by
  rw [xoroIter_eq, xoroIter_eq, xoroIter_eq, Nat.add_comm, Function.iterate_add_apply]

/-- **C106**: the sequence of the returned values repeats itself from some call on with a shift
of `p` calls exactly when `p` is a multiple of `2 ^ 128 - 1`. -/
theorem xoro_output_period {s : Xoro} (hs : s ≠ ⟨0, 0⟩) (p : Nat) :
    (∃ m, ∀ n, m ≤ n → xoroOut s (n + p) = xoroOut s n) ↔ 2 ^ 128 - 1 ∣ p := by
  constructor
  · rintro ⟨m, hm⟩
    let shift : (Nat → W) → Nat → W := fun f n => f (n + 1)
    have hshift : ∀ k (f : Nat → W), shift^[k] f = fun n => f (n + k) := by
      intro k
      induction k with
      | zero => intro f; rfl
      | succ k ih =>
        intro f
        rw [Function.iterate_succ_apply, ih]
        funext n
        show f (n + k + 1) = _
        rw [Nat.add_assoc]
    have hNper : ∀ n k, xoroOut s (n + xoroN * k) = xoroOut s n := by
      intro n k
      unfold xoroOut
      rw [Nat.add_comm, xoroIter_add, (xoro_full_period hs (xoroN * k)).mpr ⟨k, rfl⟩]
    have hall : ∀ n, xoroOut s (n + p) = xoroOut s n := by
      intro n
      have hle : m ≤ n + xoroN * m := by
        have : 0 < xoroN := by decide
        have := Nat.le_mul_of_pos_left m this
        omega
      have := hm (n + xoroN * m) hle
      rwa [Nat.add_right_comm, hNper, hNper] at this
    have hmin : Function.minimalPeriod shift (xoroOut s) = xoroN := by
      apply minimalPeriod_eq_xoroN
      · rw [hshift]; funext n; simpa using hNper n 1
      · intro q hq h
        rw [hshift] at h
        obtain ⟨n, _, e⟩ := xoroStep_orbit (s := s) (t := ⟨1, 0⟩) hs (by decide)
        have hn := congrFun h n
        refine xoroOut_prime hq ?_
        unfold xoroOut at hn
        rw [xoroIter_add, xoroIter_eq n, e, xoroIter_eq] at hn
        exact hn
    have hp : Function.IsPeriodicPt shift p (xoroOut s) := by
      show shift^[p] _ = _
      rw [hshift]; funext n; exact hall n
    have := hp.minimalPeriod_dvd
    rwa [hmin] at this
  · rintro ⟨k, rfl⟩
    refine ⟨0, fun n _ => ?_⟩
    unfold xoroOut
    rw [Nat.add_comm, xoroIter_add, (xoro_full_period hs _).mpr ⟨k, rfl⟩]

/-- **C106**: two generators that are not in the zero state produce, up to a shift of less than
`2 ^ 128 - 1` calls, the same values. -/
theorem xoro_streams_shifted {s t : Xoro} (hs : s ≠ ⟨0, 0⟩) (ht : t ≠ ⟨0, 0⟩) :
    ∃ d, d < 2 ^ 128 - 1 ∧ ∀ n, xoroOut t n = xoroOut s (d + n) := by
  obtain ⟨d, hd, e⟩ := xoroStep_orbit hs ht
  refine ⟨d, hd, fun n => ?_⟩
  unfold xoroOut
  rw [xoroIter_add, xoroIter_eq d, e]

/-- **C61**: seeding ends: for every string some number of attempts suffices. -/
theorem seed_terminates (value : List W) : ∃ fuel s, seed value fuel = some s := by
  have fold_shift : ∀ (v : List W) (a : W), v.foldl (· + ·) a = a + v.foldl (· + ·) 0 := by
    intro v
    induction v with
    | nil => intro a; simp
    | cons c cs ih => intro a; simp only [List.foldl_cons]; rw [ih, ih (0 + c)]; simp [BitVec.add_assoc]
  have hd0 : Xoro.default ≠ Xoro.zero := by decide
  have hne : xoroStep Xoro.default ≠ Xoro.zero := by decide +kernel
  have hb : (⟨0 - value.foldl (· + ·) 0, 1⟩ : Xoro) ≠ Xoro.zero := by
    intro h; have : (1 : W) = 0 := congrArg Xoro.s1 h; exact absurd this (by decide)
  obtain ⟨n, _, e⟩ := xoroStep_orbit hne hb
  rw [← Function.iterate_succ_apply] at e
  have key : ∀ n d, xoroStep^[n + 1] d = ⟨0 - value.foldl (· + ·) 0, 1⟩ →
      ∃ s, seedLoop value (n + 1) d = some s := by
    intro n
    induction n with
    | zero =>
      intro d hd
      have hd : (xoroNext d).1 = ⟨0 - value.foldl (· + ·) 0, 1⟩ := hd
      have hbase : addChars (xoroNext d).1 value = ⟨0, 1⟩ := by
        rw [hd]
        unfold addChars
        rw [fold_shift]
        simp
      unfold seedLoop
      simp only [hbase]
      exact ⟨(xoroNext (xoroNext ⟨0, 1⟩).1).1, if_neg (by decide +kernel)⟩
    | succ n ih =>
      intro d hd
      rw [Function.iterate_succ_apply] at hd
      obtain ⟨s, hs⟩ := ih (xoroStep d) hd
      unfold seedLoop
      simp only
      split
      · exact ⟨s, hs⟩
      · exact ⟨_, rfl⟩
  obtain ⟨s, hs⟩ := key n _ e
  exact ⟨n + 1, s, hs⟩

/-- The default generator is not in the zero state, and after three calls is not back. -/
example : Xoro.default ≠ ⟨0, 0⟩ ∧ xoroIter 3 Xoro.default ≠ Xoro.default := by
  refine ⟨by decide, fun h => ?_⟩
  have := (xoro_full_period (by decide) 3).mp h
  exact absurd (Nat.le_of_dvd (by omega) this) (by decide)

/-- The generators seeded by `"a"` and by nothing end in different states. -/
example : seed [97#64] 1 ≠ seed [] 1 ∧ (seed [97#64] 1).isSome := by decide +kernel

end Actl.Random
