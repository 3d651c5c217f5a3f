import Verif.Lemmas.RealParse
import Verif.Props.IntParse
import Verif.Props.RealWrite

/-!
# Input of real numbers

C71.
-/

namespace Actl.IntText

open Actl.Text Actl.Parser

variable {F : Type} [Field F] [CharZero F]

/-- However the text is divided into pieces, the same is read. -/
theorem readReal_flatten {B : Nat} (hB : 2 ≤ B) (hB' : B ≤ 36) (chunks : List (List Byte))
    (hne : ∀ s ∈ chunks, s ≠ []) :
    exec (floatParse B) (FloatSt.init : FloatSt F) chunks =
      some (if chunks.flatten = [] then (0, .init) else floatResult B .init chunks.flatten) := by
  have hl := floatParse_stepLaw (F := F) hB hB'
  rw [exec_chars hl chunks hne _ trivial]
  split_ifs with h
  · rw [h]; rfl
  · have e := exec_chars hl [chunks.flatten] (by simpa using h) FloatSt.init trivial
    have e2 : [chunks.flatten].flatten = chunks.flatten := by simp
    rw [e2] at e
    rw [← e, exec]
    have hem : chunks.flatten.isEmpty = false := by
      cases hh : chunks.flatten with
      | nil => exact absurd hh h
      | cons => rfl
    rw [hem, floatParse_eq hB hB' _ h]
    simp only [Bool.false_eq_true, if_false, exec, Nat.add_zero]
    split_ifs <;> rfl

/-- **C71.** Reading a real number in base `b` (0 means 10) consumes exactly an optional sign, the
digits that follow, and, after at least one digit, a point and the digits after it; the value is the
one that is written, and there is none if no digit stands before the point.  How the text is divided
into buffers does not matter. -/
theorem readReal_correct {b : Nat} (hb : b = 0 ∨ 2 ≤ b ∧ b ≤ 36) (chunks : List (List Byte))
    (hne : ∀ s ∈ chunks, s ≠ []) :
    readReal (F := F) b chunks =
      some (realConsumed (if b = 0 then 10 else b) chunks.flatten,
        realValue (if b = 0 then 10 else b) chunks.flatten) := by
  have hB : 2 ≤ (if b = 0 then 10 else b) := by split_ifs <;> omega
  have hB' : (if b = 0 then 10 else b) ≤ 36 := by split_ifs <;> omega
  unfold readReal
  generalize (if b = 0 then 10 else b) = B at *
  rw [readReal_flatten hB hB' chunks hne]
  generalize chunks.flatten = s
  have hBF : (B : F) ≠ 0 := by exact_mod_cast (show B ≠ 0 by omega)
  cases s with
  | nil => simp [realConsumed, realValue, splitReal, splitSign, floatReady, FloatSt.init]
  | cons c t =>
    have hpm : lit '+' ≠ lit '-' := by decide
    -- the sign
    obtain ⟨i, hi1, hi2, hi3⟩ : ∃ i : Nat,
        (if (c :: t).head? = some (lit '-') ∨ (c :: t).head? = some (lit '+') then 1 else 0) = i ∧
        (splitSign true (c :: t)) = (decide ((c :: t).head? = some (lit '-')), (c :: t).drop i) ∧
        i ≤ (c :: t).length := by
      refine ⟨_, rfl, ?_, ?_⟩
      · by_cases h1 : c = lit '-'
        · simp [splitSign, h1]
        · by_cases h2 : c = lit '+'
          · simp [splitSign, h2, hpm]
          · simp [splitSign, h1, h2]
      · split_ifs <;> simp
    simp only [reduceCtorEq, if_false, floatResult, FloatSt.init, hi1, Bool.false_or]
    generalize decide ((c :: t).head? = some (lit '-')) = neg at *
    unfold realConsumed realValue splitReal
    rw [hi2]
    generalize hr : (c :: t).drop i = r at *
    have hlen : (c :: t).length - r.length = i := by rw [← hr, List.length_drop]; omega
    simp only [hlen]
    unfold signResult
    by_cases h0 : r.takeWhile (isDig B) = []
    · simp [h0, floatReady]
    · simp only [h0, if_false]
      unfold integralResult
      cases hd : r.dropWhile (isDig B) with
      | nil =>
        simp [floatReady, floatValue]
      | cons a u =>
        by_cases ha : a = lit '.'
        · simp [ha, floatReady, floatValue, pointResult, div_eq_mul_inv]
          omega
        · simp [ha, floatReady, floatValue]

theorem takeWhile_digits {B : Nat} {ds r : List Byte} (hd : ∀ c ∈ ds, isDig B c = true)
    (hr : NoDigit B r) : (ds ++ r).takeWhile (isDig B) = ds ∧ (ds ++ r).dropWhile (isDig B) = r := by
  rw [List.takeWhile_append_of_pos hd, List.dropWhile_append_of_pos hd]
  cases r with
  | nil => simp
  | cons c r => simp [hr c rfl]

/-- A text of fixed point form, followed by something that does not continue it, is read
completely, with the value it denotes. -/
theorem realValue_fixedPoint {B : Nat} (hB : 2 ≤ B) {upper showpoint : Bool} {p n : Nat} {t r : List Byte}
    (h : FixedPoint B upper showpoint p n t) (showpos negative : Bool)
    (hr : ∀ c, r.head? = some c → isDig B c = false ∧ c ≠ lit '.') :
    realConsumed B (realSignText showpos negative ++ t ++ r) = (realSignText showpos negative ++ t).length ∧
    realValue (F := F) B (realSignText showpos negative ++ t ++ r) =
      some (if negative then -((n : F) / (B : F) ^ p) else (n : F) / (B : F) ^ p) := by
  obtain ⟨ip, fp, rfl, hc, rfl, hfp, hfn⟩ := h
  have hBF : (B : F) ≠ 0 := by exact_mod_cast (show B ≠ 0 by omega)
  have hip : ∀ c ∈ ip, isDig B c = true := fun c hc' => (hc.digits c hc').1
  have hfp' : ∀ c ∈ fp, isDig B c = true := fun c hc' => (hfp c hc').1
  have hne : ip ≠ [] := hc.nonempty
  have hsplit : ∀ u, splitSign true (realSignText showpos negative ++ (ip ++ u)) = (negative, ip ++ u) := by
    intro u
    obtain ⟨a, ip', rfl⟩ := List.exists_cons_of_ne_nil hne
    have ha := hip a (by simp)
    have hm : a ≠ lit '-' := by
      rintro rfl
      have : digitVal (lit '-') = none := by decide
      simp [isDig, this] at ha
    have hp : a ≠ lit '+' := by
      rintro rfl
      have : digitVal (lit '+') = none := by decide
      simp [isDig, this] at ha
    have hpm : lit '+' ≠ lit '-' := by decide
    cases negative <;> cases showpos <;> simp [realSignText, splitSign, hm, hp, hpm]
  have hnum : numeral B ip = n / B ^ fp.length := hc.value
  have hval : ((n / B ^ fp.length : Nat) : F) + ((n % B ^ fp.length : Nat) : F) / (B : F) ^ fp.length =
      (n : F) / (B : F) ^ fp.length := by
    have e : (n : F) = ((B ^ fp.length * (n / B ^ fp.length) + n % B ^ fp.length : Nat) : F) := by
      rw [Nat.div_add_mod]
    rw [e]
    push_cast
    have : (B : F) ^ fp.length ≠ 0 := pow_ne_zero _ hBF
    field_simp
  have hrd : NoDigit B r := fun c h => (hr c h).1
  by_cases h0 : fp.length = 0 ∧ showpoint = false
  · have hfp0 : fp = [] := List.length_eq_zero_iff.1 h0.1
    subst hfp0
    have e : realSignText showpos negative ++ (ip ++ (if ([] : List Byte).length = 0 ∧ showpoint = false
        then [] else [lit '.']) ++ []) ++ r = realSignText showpos negative ++ (ip ++ r) := by
      rw [if_pos h0]; simp
    obtain ⟨w1, w2⟩ := takeWhile_digits hip hrd
    rw [e, if_pos h0]
    have hsp : splitReal B (realSignText showpos negative ++ (ip ++ r)) = (negative, ip, none) := by
      unfold splitReal
      rw [hsplit]
      simp only [w1, w2, hne, if_false]
      cases r with
      | nil => rfl
      | cons c r => simp [(hr c rfl).2]
    constructor
    · unfold realConsumed
      rw [hsp, hsplit]
      simp only [List.length_append, List.length_nil]; omega
    · unfold realValue
      rw [hsp]
      simp [hne, hnum]
  · rw [if_neg h0]
    have e : realSignText showpos negative ++ (ip ++ [lit '.'] ++ fp) ++ r =
        realSignText showpos negative ++ (ip ++ (lit '.' :: (fp ++ r))) := by simp
    obtain ⟨w1, w2⟩ := takeWhile_digits (r := lit '.' :: (fp ++ r)) hip
      (fun c h => by simp at h; rw [← h]; exact dot_not_digit)
    obtain ⟨w3, -⟩ := takeWhile_digits hfp' hrd
    rw [e]
    have hsp : splitReal B (realSignText showpos negative ++ (ip ++ (lit '.' :: (fp ++ r)))) =
        (negative, ip, some fp) := by
      unfold splitReal
      rw [hsplit]
      simp only [w1, w2, hne, if_false, if_true, w3]
    constructor
    · unfold realConsumed
      rw [hsp, hsplit]
      simp only [List.length_append, List.length_cons, List.length_nil]; omega
    · unfold realValue
      rw [hsp]
      simp only [hne, if_false, hnum, hfn]
      rw [hval]

omit [CharZero F] in
/-- C71, round trip: what the output of real numbers writes in base `b` is read back completely, in
any division into buffers, and the number read differs from the one written by at most half a unit of
the last digit plus the error of the floating point operations.

The conditions are those under which the output works (C70). -/
theorem encode_readReal [LinearOrder F] [IsStrictOrderedRing F] [FloorSemiring F]
    {fl : F → F} {ε : F} {f : Fmt} (showpoint : Bool) {p : Nat}
    (negative : Bool) {x : F} (hb : 2 ≤ f.base) (hb' : f.base ≤ 36)
    (hn : f.showbase = false ∨ (f.base ≠ 8 ∧ f.base ≠ 16)) (hP : f.base ^ p < 2 ^ 64)
    (ha : Accurate fl ε (f.base ^ p) x) (h0 : 0 ≤ x) (h1 : x < 2 ^ 64 - 1)
    (hs : negative = true ∨ f.showpos = true → 0 < p ∨ showpoint = true → x < 2 ^ 63 - 1) :
    ∃ t, encodeReal fl f showpoint p negative (.finite x) = some t ∧
      ∀ (r : List Byte), (∀ c, r.head? = some c → isDig f.base c = false ∧ c ≠ lit '.') →
      ∀ chunks : List (List Byte), (∀ s ∈ chunks, s ≠ []) → chunks.flatten = t ++ r →
        ∃ y : F, readReal f.base chunks = some (t.length, some y) ∧
          |(if negative then -x else x) - y| ≤ (1 / 2 + 2 * ε) / (f.base : F) ^ p := by
  obtain ⟨n, t, e, hfix, herr⟩ := encodeReal_correct_partial showpoint negative hb hb' hn hP ha h0 h1 hs
  refine ⟨_, e, fun r hr chunks hne hfl => ?_⟩
  obtain ⟨v1, v2⟩ := realValue_fixedPoint (F := F) hb hfix f.showpos negative hr
  refine ⟨if negative then -((n : F) / (f.base : F) ^ p) else (n : F) / (f.base : F) ^ p, ?_, ?_⟩
  · rw [readReal_correct (Or.inr ⟨hb, hb'⟩) chunks hne, if_neg (by omega), hfl, v1, v2]
  · have hpos : (0 : F) < (f.base : F) ^ p := by
      have : (0 : F) < f.base := by exact_mod_cast (show 0 < f.base by omega)
      positivity
    have key : |x - (n : F) / (f.base : F) ^ p| ≤ (1 / 2 + 2 * ε) / (f.base : F) ^ p := by
      rw [le_div_iff₀ hpos, ← abs_of_pos hpos, ← abs_mul, abs_of_pos hpos, sub_mul,
        div_mul_cancel₀ _ hpos.ne']
      exact herr
    cases negative with
    | false => simpa using key
    | true =>
      have e2 : -x - -((n : F) / (f.base : F) ^ p) = -(x - (n : F) / (f.base : F) ^ p) := by ring
      simp only [if_true, e2, abs_neg]
      exact key

/-! ### Examples -/

/-- "-12.5e" in two pieces. -/
example : readReal (F := ℚ) 0 [bytes "-12", bytes ".5e"] = some (5, some (-(25 / 2))) := by
  rw [readReal_correct (Or.inl rfl) _ (by decide)]
  have h : splitReal 10 (bytes "-12.5e") = (true, bytes "12", some (bytes "5")) := by decide
  have h2 : (splitSign true (bytes "-12.5e")).2.length = 5 := by decide
  have h3 : numeral 10 (bytes "12") = 12 := by decide
  have h4 : numeral 10 (bytes "5") = 5 := by decide
  have e : [bytes "-12", bytes ".5e"].flatten = bytes "-12.5e" := by decide
  rw [if_pos rfl, e]
  unfold realConsumed realValue
  rw [h, h2]
  simp only [h3, h4]
  norm_num
  exact ⟨by decide, by decide, by rw [show (bytes "5").length = 1 from rfl]; norm_num⟩

/-- No digit before the point. -/
example : readReal (F := ℚ) 0 [bytes ".5"] = some (0, none) := by
  rw [readReal_correct (Or.inl rfl) _ (by decide)]
  have h : splitReal 10 (bytes ".5") = (false, [], none) := by decide
  have e : [bytes ".5"].flatten = bytes ".5" := by decide
  rw [if_pos rfl, e]
  unfold realConsumed realValue
  rw [h]
  simp
  decide

/-- 3.14159265 written with 4 digits and read again. -/
example : ∃ t, encodeReal (F := ℚ) id ⟨10, false, false, false⟩ false 4 true
      (.finite (314159265 / 10 ^ 8)) = some t ∧
    ∀ r : List Byte, (∀ c, r.head? = some c → isDig 10 c = false ∧ c ≠ lit '.') →
    ∀ chunks : List (List Byte), (∀ s ∈ chunks, s ≠ []) → chunks.flatten = t ++ r →
      ∃ y : ℚ, readReal 10 chunks = some (t.length, some y) ∧
        |-(314159265 / 10 ^ 8) - y| ≤ (1 / 2 + 2 * 0) / 10 ^ 4 :=
  encode_readReal (F := ℚ) (fl := id) (f := ⟨10, false, false, false⟩) false (p := 4) true
    (x := 314159265 / 10 ^ 8) (by simp) (by simp)
    (by simp) (by norm_num) (accurate_id _ _) (by norm_num) (by norm_num) (by norm_num)

end Actl.IntText
