import Verif.Lemmas.RealWrite
import Mathlib.Data.Rat.Floor

/-!
# Output of real numbers

C70.
-/

namespace Actl.IntText

open Actl.Text

variable {F : Type*} [Field F] [LinearOrder F] [IsStrictOrderedRing F] [FloorSemiring F]

omit [IsStrictOrderedRing F] in
theorem encodeReal_finite (fl : F → F) (f : Fmt) (showpoint : Bool) (p : Nat) (negative : Bool)
    (x : F) : encodeReal fl f showpoint p negative (.finite x) =
      (realParts fl (basePower f.base p) x).bind fun parts =>
        (realText f showpoint p parts).bind fun out =>
          realPut f negative (realCapacity f.base p) out := rfl

theorem truncate_eq {y : F} (h0 : 0 ≤ y) (h1 : y < 2 ^ 64) : truncate y = some ⌊y⌋₊ := by
  rw [truncate, if_pos ⟨by linarith, h1⟩]

theorem floor_bounds {y : F} (h0 : 0 ≤ y) : (⌊y⌋₊ : F) ≤ y ∧ y < ⌊y⌋₊ + 1 :=
  ⟨Nat.floor_le h0, Nat.lt_floor_add_one y⟩

/-- The two numbers that are written are those of a multiple of `1 / P` next to `x`. -/
theorem realParts_eq {fl : F → F} {ε : F} {P : Nat} {x : F} (ha : Accurate fl ε P x) (hP : 0 < P)
    (hP' : P < 2 ^ 64) (h0 : 0 ≤ x) (h1 : x < 2 ^ 64 - 1) :
    ∃ I R, realParts fl P x = some (I, R) ∧ R < P ∧ (I : F) ≤ x + 1 ∧
      |x * P - (I * P + R : Nat)| ≤ 1 / 2 + 2 * ε := by
  obtain ⟨l1, l2⟩ := floor_bounds h0
  set f := x - (⌊x⌋₊ : F) with hf
  have f0 : 0 ≤ f := by linarith
  have f1 : f < 1 := by linarith
  have hPF : (0 : F) < P := by exact_mod_cast hP
  have hPF1 : (1 : F) ≤ P := by exact_mod_cast hP
  have hPF' : (P : F) + 1 ≤ 2 ^ 64 := by exact_mod_cast hP'
  have g0 : 0 ≤ f * P := by positivity
  have g1 : f * P < P := by nlinarith
  have e1 := abs_le.1 (ha.near (f * P) g0 (by linarith))
  have e0 := ha.nonneg
  have e4 := ha.small
  have hhalf : (2⁻¹ : F) = 1 / 2 := by norm_num
  set y := fl (f * P) with hy
  have e2 := abs_le.1 (ha.near (y + 2⁻¹) (by rw [hhalf]; linarith) (by rw [hhalf]; linarith))
  set z := fl (y + 2⁻¹) with hz
  rw [hhalf] at e2
  have z0 : 0 ≤ z := by linarith
  have z1 : z < 2 ^ 64 := by linarith
  obtain ⟨m1, m2⟩ := floor_bounds z0
  have hparts : realParts fl P x = some (if P ≤ ⌊z⌋₊ then ((⌊x⌋₊ + 1) % 2 ^ 64, 0)
      else (⌊x⌋₊, ⌊z⌋₊)) := by
    unfold realParts
    rw [truncate_eq h0 (by linarith)]
    simp only [Option.bind_eq_bind, Option.bind_some]
    rw [ha.integer, ← hf, ha.fraction, ha.scale, ← hy, ← hz, truncate_eq z0 z1]
    rfl
  rw [hparts]
  by_cases hc : P ≤ ⌊z⌋₊
  · have hc' : (P : F) ≤ ⌊z⌋₊ := by exact_mod_cast hc
    have hI : ⌊x⌋₊ + 1 < 2 ^ 64 := by
      have : ((⌊x⌋₊ + 1 : Nat) : F) < (2 ^ 64 : Nat) := by push_cast; linarith
      exact_mod_cast this
    refine ⟨⌊x⌋₊ + 1, 0, by rw [if_pos hc, Nat.mod_eq_of_lt hI], hP, by push_cast; linarith, ?_⟩
    push_cast
    rw [abs_le]
    have e : x * (P : F) = f * P + ⌊x⌋₊ * P := by rw [hf]; ring
    rw [e]
    constructor <;> linarith
  · have hlt : ⌊z⌋₊ < P := by omega
    refine ⟨⌊x⌋₊, ⌊z⌋₊, by rw [if_neg hc], hlt, by linarith, ?_⟩
    push_cast
    rw [abs_le]
    have e : x * (P : F) = f * P + ⌊x⌋₊ * P := by rw [hf]; ring
    rw [e]
    constructor <;> linarith

theorem realPut_eq {f : Fmt} {negative : Bool} {cap : Nat} {out : List Byte}
    (h : (realSignText f.showpos negative).length + out.length ≤ cap) :
    realPut f negative cap out = some (realSignText f.showpos negative ++ out) := by
  unfold realPut realSign
  unfold realSignText at *
  cases negative <;> cases hs : f.showpos <;> simp [hs] at h ⊢ <;> exact push_eq (by omega)

/-- C70. The text of a finite number: a sign, and the fixed point text with the given number of
digits of a number next to it; the error is at most half a unit of the last digit plus twice the
error of the floating point operations.

Partial: no base prefix is asked for (bases 8 and 16), the base is not 0, the power of the base fits
in 64 bits, the number is less than 2^64 - 1, and less than 2^63 - 1 if both a sign and a point are
written.  The code fails in these cases, see below. -/
theorem encodeReal_correct_partial {fl : F → F} {ε : F} {f : Fmt} (showpoint : Bool) {p : Nat}
    (negative : Bool) {x : F} (hb : 2 ≤ f.base) (hb' : f.base ≤ 36)
    (hn : f.showbase = false ∨ (f.base ≠ 8 ∧ f.base ≠ 16)) (hP : f.base ^ p < 2 ^ 64)
    (ha : Accurate fl ε (f.base ^ p) x) (h0 : 0 ≤ x) (h1 : x < 2 ^ 64 - 1)
    (hs : negative = true ∨ f.showpos = true → 0 < p ∨ showpoint = true → x < 2 ^ 63 - 1) :
    ∃ n t, encodeReal fl f showpoint p negative (.finite x) =
        some (realSignText f.showpos negative ++ t) ∧
      FixedPoint f.base f.uppercase showpoint p n t ∧
      |x * (f.base : F) ^ p - n| ≤ 1 / 2 + 2 * ε := by
  have hPpos : 0 < f.base ^ p := Nat.pow_pos (by omega)
  obtain ⟨I, R, e, hR, hI, herr⟩ := realParts_eq ha hPpos hP h0 h1
  have hI64 : I < 2 ^ 64 := by
    have : (I : F) < (2 ^ 64 : Nat) := by push_cast; linarith
    exact_mod_cast this
  have hlen : (realSignText f.showpos negative).length + (dgs f.base I).length +
      (pointText showpoint p).length ≤ (if f.base < 10 then 64 else 20) + 1 := by
    have hsl : (realSignText f.showpos negative).length ≤ 1 := by
      unfold realSignText; split_ifs <;> simp
    have hpl : (pointText showpoint p).length ≤ 1 := by
      unfold pointText; split_ifs <;> simp
    have hfull : (dgs f.base I).length ≤ if f.base < 10 then 64 else 20 := by
      split_ifs with h10
      · exact dgs_length_le hb (by omega) (hI64.trans_le (Nat.pow_le_pow_left hb 64))
      · exact dgs_length_le hb (by omega)
          (hI64.trans_le (le_trans (by norm_num) (Nat.pow_le_pow_left (show 10 ≤ f.base by omega) 20)))
    by_cases hsg : negative = true ∨ f.showpos = true
    · by_cases hpt : 0 < p ∨ showpoint = true
      · have hI63 : I < 2 ^ 63 := by
          have : (I : F) < (2 ^ 63 : Nat) := by push_cast; linarith [hs hsg hpt]
          exact_mod_cast this
        have : (dgs f.base I).length ≤ if f.base < 10 then 63 else 19 := by
          split_ifs with h10
          · exact dgs_length_le hb (by omega) (hI63.trans_le (Nat.pow_le_pow_left hb 63))
          · exact dgs_length_le hb (by omega)
              (hI63.trans_le (le_trans (by norm_num) (Nat.pow_le_pow_left (show 10 ≤ f.base by omega) 19)))
        split_ifs at this ⊢ <;> omega
      · have : pointText showpoint p = [] := by
          unfold pointText
          rw [if_pos]
          refine ⟨by omega, ?_⟩
          cases showpoint
          · rfl
          · simp at hpt
        rw [this]; simp only [List.length_nil]; omega
    · have : realSignText f.showpos negative = [] := by
        unfold realSignText
        cases negative
        · cases hh : f.showpos
          · rfl
          · simp [hh] at hsg
        · simp at hsg
      rw [this]; simp only [List.length_nil]; omega
  refine ⟨I * f.base ^ p + R, digitText f.base f.uppercase I ++ pointText showpoint p ++
        fracText f.base f.uppercase p R, ?_, ⟨_, _, rfl, ?_, ?_, ?_, ?_⟩, ?_⟩
  · rw [encodeReal_finite, basePower_eq (by omega), Nat.mod_eq_of_lt hP, e]
    simp only [Option.bind_some]
    rw [realText_eq hn hb (by omega) hR]
    simp only [Option.bind_some]
    refine realPut_eq ?_
    rw [realCapacity_eq]
    simp only [List.length_append, fracText_length f.uppercase hb hR, length_digitText]
    omega
  · rw [Nat.mul_comm, Nat.mul_add_div hPpos, Nat.div_eq_of_lt hR, Nat.add_zero]
    exact digitText_canonical hb hb' _ _
  · exact fracText_length _ hb hR
  · exact fracText_digits _ hb hb' _ _
  · rw [Nat.mul_comm, Nat.mul_add_mod, Nat.mod_eq_of_lt hR]
    exact fracText_value _ hb hb' hR
  · exact_mod_cast herr

/-- Exact arithmetic is accurate. -/
theorem accurate_id (P : Nat) (x : F) : Accurate (id : F → F) 0 P x where
  nonneg := le_refl _
  small := by norm_num
  scale := rfl
  integer := rfl
  fraction := rfl
  near := by intro y _ _; simp

/-- C70. Not a number and infinity. -/
theorem encodeReal_special (fl : F → F) (f : Fmt) (showpoint : Bool) (p : Nat) (negative : Bool) :
    encodeReal fl f showpoint p negative .nan =
        some (realSignText f.showpos negative ++ bytes (if f.uppercase then "NAN" else "nan")) ∧
      encodeReal fl f showpoint p negative .inf =
        some (realSignText f.showpos negative ++ bytes (if f.uppercase then "INF" else "inf")) := by
  have hsl : (realSignText f.showpos negative).length ≤ 1 := by
    unfold realSignText; split_ifs <;> simp
  constructor
  · refine realPut_eq ?_
    have : (bytes (if f.uppercase then "NAN" else "nan")).length = 3 := by split_ifs <;> rfl
    omega
  · refine realPut_eq ?_
    have : (bytes (if f.uppercase then "INF" else "inf")).length = 3 := by split_ifs <;> rfl
    omega

omit [IsStrictOrderedRing F] in
/-- C70, negation: base 0 (`detect_base`) is not replaced by 10 as for integers: division by zero for
every finite number. -/
theorem encodeReal_base_zero_ub (fl : F → F) {f : Fmt} (hb : f.base = 0) (showpoint : Bool) (p : Nat)
    (negative : Bool) (x : F) : encodeReal fl f showpoint p negative (.finite x) = none := by
  have hu : ∀ cap y out, uitoa cap f y f.base out = none := by
    intro cap y out
    unfold uitoa
    simp only [hb, Nat.zero_le, if_true]
    unfold digitLoop
    simp
  have ht : ∀ parts, realText f showpoint p parts = none := by
    intro parts
    unfold realText
    cases realFraction f p parts.2 with
    | none => rfl
    | some o =>
      simp only [Option.bind_eq_bind, Option.bind_some]
      cases realPoint f showpoint p o with
      | none => rfl
      | some o => simp only [Option.bind_some, hu]
  rw [encodeReal_finite]
  cases realParts fl (basePower f.base p) x with
  | none => rfl
  | some q => simp only [Option.bind_some, ht]; rfl

/-- C70, negation: a number of 20 decimal (64 binary) digits with a sign and a point does not fit in
the buffer: the sign is written before its start. -/
theorem encodeReal_sign_ub {fl : F → F} {ε : F} {f : Fmt} {showpoint : Bool} {p : Nat}
    {negative : Bool} {x : F} (hb : f.base = 10 ∧ 10 ^ 19 ≤ x ∨ f.base = 2 ∧ 2 ^ 63 ≤ x)
    (hP : f.base ^ p < 2 ^ 64) (ha : Accurate fl ε (f.base ^ p) x) (h1 : x < 2 ^ 64 - 1)
    (hs : negative = true ∨ f.showpos = true) (hp : 0 < p ∨ showpoint = true) :
    encodeReal fl f showpoint p negative (.finite x) = none := by
  have hb2 : 2 ≤ f.base := by rcases hb with h | h <;> omega
  have hn : NoPrefix f := by right; rcases hb with h | h <;> omega
  have h0 : 0 ≤ x := by rcases hb with ⟨-, h⟩ | ⟨-, h⟩ <;> exact le_trans (by positivity) h
  have hPpos : 0 < f.base ^ p := Nat.pow_pos (by omega)
  obtain ⟨I, R, e, hR, hI, -⟩ := realParts_eq ha hPpos hP h0 h1
  have hI64 : I < 2 ^ 64 := by
    have : (I : F) < (2 ^ 64 : Nat) := by push_cast; linarith
    exact_mod_cast this
  have hfl : ⌊x⌋₊ ≤ I := by
    unfold realParts at e
    rw [truncate_eq h0 (by linarith)] at e
    simp only [Option.bind_eq_bind, Option.bind_some] at e
    cases ht : truncate (fl (fl (fl (x - fl ⌊x⌋₊) * fl (f.base ^ p : Nat)) + 2⁻¹)) with
    | none => rw [ht] at e; simp at e
    | some z =>
      rw [ht] at e
      simp only [Option.bind_some, Option.pure_def, Option.some.injEq] at e
      have hx1 : ⌊x⌋₊ + 1 < 2 ^ 64 := by
        have := (floor_bounds h0).1
        have : ((⌊x⌋₊ + 1 : Nat) : F) < (2 ^ 64 : Nat) := by push_cast; linarith
        exact_mod_cast this
      split_ifs at e
      · have := congrArg Prod.fst e
        simp only [Nat.mod_eq_of_lt hx1] at this
        omega
      · exact (congrArg Prod.fst e).le
  have hlen : (dgs f.base I).length = if f.base < 10 then 64 else 20 := by
    rcases hb with ⟨h, hx⟩ | ⟨h, hx⟩
    · have : 10 ^ 19 ≤ ⌊x⌋₊ := Nat.le_floor (by exact_mod_cast hx)
      have a := dgs_length_gt (base := 10) (k := 19) (x := I) (by omega) (by omega)
      have b := dgs_length_le (base := 10) (k := 20) (x := I) (by omega) (by omega) (by omega)
      rw [h, if_neg (by omega)]; omega
    · have : 2 ^ 63 ≤ ⌊x⌋₊ := Nat.le_floor (by exact_mod_cast hx)
      have a := dgs_length_gt (base := 2) (k := 63) (x := I) (by omega) (by omega)
      have b := dgs_length_le (base := 2) (k := 64) (x := I) (by omega) (by omega) (by omega)
      rw [h, if_pos (by omega)]; omega
  have hpt : pointText showpoint p = [lit '.'] := by
    unfold pointText
    rw [if_neg]
    rintro ⟨h2, h3⟩
    rcases hp with h | h
    · omega
    · rw [h3] at h; cases h
  rw [encodeReal_finite, basePower_eq (by rcases hb with h | h <;> omega), Nat.mod_eq_of_lt hP, e]
  simp only [Option.bind_some]
  rw [realText_eq hn hb2 (by rw [hlen, hpt]; simp) hR]
  simp only [Option.bind_some]
  have hfullout : ¬ (digitText f.base f.uppercase I ++ pointText showpoint p ++
      fracText f.base f.uppercase p R).length < realCapacity f.base p := by
    rw [realCapacity_eq]
    simp only [List.length_append, fracText_length f.uppercase hb2 hR, length_digitText, hpt, hlen,
      List.length_singleton]
    omega
  have hsg : ∃ c, realSign f negative = some c := by
    unfold realSign
    rcases hs with h | h
    · exact ⟨_, by rw [h]; rfl⟩
    · cases negative
      · exact ⟨_, by rw [h]; rfl⟩
      · exact ⟨_, rfl⟩
  obtain ⟨c, hc⟩ := hsg
  unfold realPut
  simp only [hc, push, if_neg hfullout]

theorem digitLoop_length {cap base : Nat} (hb : 2 ≤ base) {ch : Nat → Byte} {x : Nat}
    {out t : List Byte} (ho : out.length ≤ cap) (h : digitLoop cap base ch x out = some t) :
    t.length = (dgs base x).length + out.length := by
  by_cases hc : (dgs base x).length + out.length ≤ cap
  · rw [digitLoop_eq ch hb _ _ hc] at h
    rw [← Option.some.inj h]; simp
  · rw [digitLoop_none ch _ _ (by omega) ho] at h; cases h

theorem push_length {cap : Nat} {c : Byte} {out t : List Byte} (h : push cap c out = some t) :
    t.length = out.length + 1 := by
  unfold push at h
  split_ifs at h
  rw [← Option.some.inj h]; simp

/-- With the base prefix, more characters than digits are written. -/
theorem uitoa_prefix_length {cap : Nat} {f : Fmt} (hs : f.showbase = true)
    (hb : f.base = 8 ∨ f.base = 16) {x : Nat} (hx : x ≠ 0) {t : List Byte}
    (h : uitoa cap f x f.base [] = some t) : (dgs f.base x).length < t.length := by
  unfold uitoa at h
  rcases hb with hb | hb
  · have h8 : (f.showbase && x != 0 && f.base == 8) = true := by simp [hs, hx, hb]
    rw [if_pos (by omega)] at h
    simp only [h8, if_true] at h
    cases hd : digitLoop cap f.base digitChar10 x [] with
    | none => rw [hd] at h; cases h
    | some o =>
      rw [hd] at h
      have := push_length h
      have := digitLoop_length (by omega) (by simp) hd
      simp at this; omega
  · have h16 : (f.showbase && x != 0 && f.base == 16) = true := by simp [hs, hx, hb]
    rw [if_neg (by omega)] at h
    simp only [h16, if_true] at h
    cases hd : digitLoop cap f.base (digitChar36 f.uppercase) x [] with
    | none => rw [hd] at h; cases h
    | some o =>
      rw [hd] at h
      simp only at h
      have := digitLoop_length (by omega) (by simp) hd
      simp at this
      generalize hq : push cap ((if f.uppercase then lit 'A' else lit 'a') - lit 'a' + lit 'x') o = q at h
      cases q with
      | none => cases h
      | some o' =>
        have := push_length h
        have := push_length hq
        omega

/-- C70, negation: with the base prefix asked for in base 8 or 16, the prefix is written before the
digits of the fraction, too.  If the first digit of the fraction is not zero there is no room for
it, and the zeros are filled in from a start that is after the end. -/
theorem encodeReal_prefix_ub {f : Fmt} (hs : f.showbase = true) (hb : f.base = 8 ∨ f.base = 16)
    (showpoint : Bool) {p : Nat} (hp : 0 < p) (hP : f.base ^ p < 2 ^ 64) (negative : Bool) {x : F}
    (h0 : 0 ≤ x) (h1 : x < 2 ^ 64 - 1) (hf : 1 ≤ (x - ⌊x⌋₊) * f.base)
    (hr : (x - ⌊x⌋₊) * (f.base : F) ^ p + 1 / 2 < (f.base : F) ^ p) :
    encodeReal id f showpoint p negative (.finite x) = none := by
  have hhalf : (2⁻¹ : F) = 1 / 2 := by norm_num
  have hPF : ((f.base ^ p : Nat) : F) < (2 ^ 64 : Nat) := by exact_mod_cast hP
  push_cast at hPF
  have hbF : (0 : F) < f.base := by
    have : 0 < f.base := by omega
    exact_mod_cast this
  have hk : (f.base : F) ^ (p - 1) ≤ (x - ⌊x⌋₊) * (f.base : F) ^ p := by
    conv => rhs; rw [show p = (p - 1) + 1 by omega, pow_succ]
    have : 0 < (f.base : F) ^ (p - 1) := by positivity
    nlinarith
  set y := (x - (⌊x⌋₊ : F)) * (f.base : F) ^ p + 1 / 2 with hy
  have hpow : (0 : F) < (f.base : F) ^ (p - 1) := by positivity
  have y0 : 0 ≤ y := by linarith
  have hR1 : f.base ^ (p - 1) ≤ ⌊y⌋₊ := Nat.le_floor (by push_cast; linarith)
  have hR2 : ¬ f.base ^ p ≤ ⌊y⌋₊ := by
    rw [not_le]
    exact (Nat.floor_lt y0).2 (by push_cast; exact hr)
  have hparts : realParts id (f.base ^ p) x = some (⌊x⌋₊, ⌊y⌋₊) := by
    unfold realParts
    rw [truncate_eq h0 (by linarith)]
    simp only [Option.bind_eq_bind, Option.bind_some, id, hhalf]
    push_cast
    rw [← hy, truncate_eq y0 (by linarith)]
    simp only [Option.bind_some, if_neg hR2]
    rfl
  have hlen : p ≤ (dgs f.base ⌊y⌋₊).length := by
    have := dgs_length_gt (by omega) hR1; omega
  have hne : ⌊y⌋₊ ≠ 0 := by
    have := Nat.pow_pos (n := p - 1) (show 0 < f.base by omega); omega
  have hfrac : realFraction f p ⌊y⌋₊ = none := by
    unfold realFraction
    rw [if_pos hp]
    cases ht : uitoa (realCapacity f.base p) f ⌊y⌋₊ f.base [] with
    | none => rfl
    | some t =>
      have := uitoa_prefix_length hs hb hne ht
      simp only [Option.bind_eq_bind, Option.bind_some]
      rw [if_neg (by omega)]
  rw [encodeReal_finite, basePower_eq (by omega), Nat.mod_eq_of_lt hP, hparts]
  simp only [Option.bind_some, realText, hfrac]
  rfl

/-- C70, negation: 64 digits or more of an even base: the power of the base is 0 in 64 bits, and
every number is written as the next integer. -/
theorem encodeReal_precision_fails {f : Fmt} (hb : 2 ≤ f.base) (hb' : f.base ≤ 36)
    (hn : f.showbase = false ∨ (f.base ≠ 8 ∧ f.base ≠ 16)) (heven : f.base % 2 = 0)
    (showpoint : Bool) {p : Nat} (hp : 64 ≤ p) (negative : Bool) {x : F} (h0 : 0 ≤ x)
    (h1 : x < 2 ^ 63 - 1) :
    ∃ t, encodeReal id f showpoint p negative (.finite x) =
        some (realSignText f.showpos negative ++ t) ∧
      FixedPoint f.base f.uppercase showpoint p ((⌊x⌋₊ + 1) * f.base ^ p) t := by
  have hpow : basePower f.base p = 0 := by
    rw [basePower_eq (by omega)]
    have h2 : 2 ^ 64 ∣ f.base ^ p :=
      (pow_dvd_pow 2 hp).trans (pow_dvd_pow_of_dvd (Nat.dvd_of_mod_eq_zero heven) p)
    exact Nat.mod_eq_zero_of_dvd h2
  obtain ⟨l1, l2⟩ := floor_bounds h0
  have hI : ⌊x⌋₊ + 1 < 2 ^ 63 := by
    have : ((⌊x⌋₊ + 1 : Nat) : F) < (2 ^ 63 : Nat) := by push_cast; linarith
    exact_mod_cast this
  have hhalf : (2⁻¹ : F) = 1 / 2 := by norm_num
  have hparts : realParts id 0 x = some (⌊x⌋₊ + 1, 0) := by
    unfold realParts
    rw [truncate_eq h0 (by linarith)]
    simp only [Option.bind_eq_bind, Option.bind_some, id, hhalf, Nat.cast_zero, mul_zero, zero_add]
    rw [truncate_eq (by positivity) (by norm_num)]
    simp only [Option.bind_some, Nat.zero_le, if_true]
    rw [Nat.mod_eq_of_lt (by omega)]
    rfl
  have hlen : (dgs f.base (⌊x⌋₊ + 1)).length ≤ if f.base < 10 then 63 else 19 := by
    split_ifs with h10
    · exact dgs_length_le hb (by omega) (hI.trans_le (Nat.pow_le_pow_left hb 63))
    · exact dgs_length_le hb (by omega)
        (hI.trans_le (le_trans (by norm_num) (Nat.pow_le_pow_left (show 10 ≤ f.base by omega) 19)))
  have hsl : (realSignText f.showpos negative).length ≤ 1 := by
    unfold realSignText; split_ifs <;> simp
  have hpl : (pointText showpoint p).length ≤ 1 := by
    unfold pointText; split_ifs <;> simp
  have hPpos : 0 < f.base ^ p := Nat.pow_pos (by omega)
  refine ⟨digitText f.base f.uppercase (⌊x⌋₊ + 1) ++ pointText showpoint p ++
        fracText f.base f.uppercase p 0, ?_, _, _, rfl, ?_, ?_, ?_, ?_⟩
  · rw [encodeReal_finite, hpow, hparts]
    simp only [Option.bind_some]
    rw [realText_eq hn hb (by split_ifs at hlen ⊢ <;> omega) hPpos]
    simp only [Option.bind_some]
    refine realPut_eq ?_
    rw [realCapacity_eq]
    simp only [List.length_append, fracText_length f.uppercase hb hPpos, length_digitText]
    split_ifs at hlen ⊢ <;> omega
  · rw [Nat.mul_div_cancel _ hPpos]
    exact digitText_canonical hb hb' _ _
  · exact fracText_length _ hb hPpos
  · exact fracText_digits _ hb hb' _ _
  · rw [Nat.mul_mod_left]
    exact fracText_value _ hb hb' hPpos

omit [IsStrictOrderedRing F] in
/-- C70, negation: a number of 2^64 or more is converted to a 64 bit integer: undefined behaviour. -/
theorem encodeReal_large_ub (fl : F → F) (f : Fmt) (showpoint : Bool) (p : Nat) (negative : Bool)
    {x : F} (h : 2 ^ 64 ≤ x) : encodeReal fl f showpoint p negative (.finite x) = none := by
  have ht : truncate x = none := by rw [truncate, if_neg]; rintro ⟨-, h1⟩; exact absurd h1 (not_lt.2 h)
  rw [encodeReal_finite, realParts, ht]
  rfl

/-! ### Examples -/

/-- -3.14159265 with 4 digits meets the hypotheses, and is written as 31416 / 10000. -/
example : ∃ t, encodeReal (F := ℚ) id ⟨10, false, false, false⟩ false 4 true
      (.finite (314159265 / 10 ^ 8)) = some (lit '-' :: t) ∧ FixedPoint 10 false false 4 31416 t := by
  obtain ⟨n, t, e, h1, h2⟩ := encodeReal_correct_partial (F := ℚ) (fl := id)
    (f := ⟨10, false, false, false⟩) false (p := 4) true (x := 314159265 / 10 ^ 8) (by simp) (by simp)
    (by simp) (by norm_num) (accurate_id _ _) (by norm_num) (by norm_num) (by norm_num)
  have hn : n = 31416 := by
    rw [abs_le] at h2
    norm_num at h2
    have a : (31415 : ℚ) < n := by linarith
    have b : (n : ℚ) < 31417 := by linarith
    have a' : 31415 < n := by exact_mod_cast a
    have b' : n < 31417 := by exact_mod_cast b
    omega
  subst hn
  exact ⟨t, e, h1⟩

/-- -10^19 with the default precision does not fit. -/
example : encodeReal (F := ℚ) id ⟨10, false, false, false⟩ false 6 true (.finite (10 ^ 19)) = none :=
  encodeReal_sign_ub (Or.inl ⟨rfl, le_refl _⟩) (by norm_num) (accurate_id _ _) (by norm_num)
    (Or.inl rfl) (Or.inl (by omega))

/-- 0.5 in base 16 with its prefix. -/
example : encodeReal (F := ℚ) id ⟨16, true, false, false⟩ false 6 false (.finite (1 / 2)) = none := by
  have h : ⌊(1 / 2 : ℚ)⌋₊ = 0 := by rw [Nat.floor_eq_zero]; norm_num
  refine encodeReal_prefix_ub rfl (Or.inr rfl) _ (by omega) (by norm_num) _ (by norm_num) (by norm_num)
    ?_ ?_ <;> rw [h] <;> norm_num

/-- 0 with 100 digits is written as 1. -/
example : ∃ t, encodeReal (F := ℚ) id ⟨10, false, false, false⟩ false 100 false (.finite 0) = some t ∧
    FixedPoint 10 false false 100 (1 * 10 ^ 100) t := by
  have h := encodeReal_precision_fails (F := ℚ) (f := ⟨10, false, false, false⟩) (by simp) (by simp)
    (by simp) rfl false (p := 100) (by omega) false (x := 0) (le_refl _) (by norm_num)
  rw [Nat.floor_zero] at h
  exact h

end Actl.IntText
