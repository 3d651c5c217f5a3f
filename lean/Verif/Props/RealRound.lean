import Verif.Lemmas.RealRound
import Verif.Props.RealParse
import Mathlib.Tactic.Positivity
import Mathlib.Tactic.Linarith

/-!
# Input of real numbers with rounding

C123.
-/

namespace Actl.IntText

open Actl.Text Actl.Parser

variable {F : Type} [Field F] [LinearOrder F] [IsStrictOrderedRing F]

/-! ### Numbers known up to some roundings -/

/-- `UpTo` for numbers that are not negative, without a quotient. -/
structure Within (u : F) (k : Nat) (v y : F) : Prop where
  nonneg : 0 ≤ v
  nonneg' : 0 ≤ y
  lower : v * (1 - u) ^ k ≤ y
  upper : y * (1 - u) ^ k ≤ v

section
variable {fl : F → F} {u : F} (hf : Rounding fl u)
include hf

theorem Rounding.pow_pos (k : Nat) : 0 < (1 - u) ^ k := _root_.pow_pos (by have := hf.small; linarith) k

theorem Rounding.pow_le (k : Nat) : (1 - u) ^ k ≤ 1 :=
  pow_le_one₀ (by have := hf.small; linarith) (by have := hf.nonneg; linarith)

theorem Within.refl {v : F} (k : Nat) (h : 0 ≤ v) : Within u k v v :=
  ⟨h, h, mul_le_of_le_one_right h (hf.pow_le k), mul_le_of_le_one_right h (hf.pow_le k)⟩

theorem Within.mono {k l : Nat} {v y : F} (h : Within u k v y) (hkl : k ≤ l) : Within u l v y := by
  have e : (1 - u) ^ l ≤ (1 - u) ^ k :=
    pow_le_pow_of_le_one (by have := hf.small; linarith) (by have := hf.nonneg; linarith) hkl
  exact ⟨h.nonneg, h.nonneg', (mul_le_mul_of_nonneg_left e h.nonneg).trans h.lower,
    (mul_le_mul_of_nonneg_left e h.nonneg').trans h.upper⟩

theorem Within.round {k : Nat} {v y : F} (h : Within u k v y) : Within u (k + 1) v (fl y) := by
  obtain ⟨e1, e2⟩ := abs_le.1 (hf.near y h.nonneg')
  have hy := h.nonneg'
  have h1 : y * (1 - u) ≤ fl y := by linarith
  have h2 : fl y * (1 - u) ≤ y := by
    have : fl y ≤ y * (1 + u) := by linarith
    have h3 := mul_le_mul_of_nonneg_right this (show 0 ≤ 1 - u by have := hf.small; linarith)
    have h4 : 0 ≤ y * (u * u) := by have := hf.nonneg; positivity
    linarith [show y * (1 + u) * (1 - u) = y - y * (u * u) by ring]
  have hu : 0 ≤ 1 - u := by have := hf.small; linarith
  have h0 : 0 ≤ fl y := le_trans (by positivity) h1
  refine ⟨h.nonneg, h0, ?_, ?_⟩
  · rw [pow_succ, ← mul_assoc]
    exact (mul_le_mul_of_nonneg_right h.lower hu).trans h1
  · rw [pow_succ', ← mul_assoc]
    exact (mul_le_mul_of_nonneg_right h2 (hf.pow_pos k).le).trans h.upper

theorem Within.nat (n : Nat) : Within u 1 (n : F) (fl n) :=
  (Within.refl hf 0 (Nat.cast_nonneg n)).round hf

theorem Within.mul {k l : Nat} {v y w z : F} (h : Within u k v y) (h' : Within u l w z) :
    Within u (k + l) (v * w) (y * z) := by
  have p := (hf.pow_pos k).le
  have q := (hf.pow_pos l).le
  have a := h.nonneg
  have b := h.nonneg'
  have c := h'.nonneg
  have d := h'.nonneg'
  refine ⟨by positivity, by positivity, ?_, ?_⟩
  · have := mul_le_mul h.lower h'.lower (by positivity) b
    rw [pow_add]; linarith [show v * (1 - u) ^ k * (w * (1 - u) ^ l) = v * w * ((1 - u) ^ k * (1 - u) ^ l) by ring]
  · have := mul_le_mul h.upper h'.upper (by positivity) a
    rw [pow_add]; linarith [show y * (1 - u) ^ k * (z * (1 - u) ^ l) = y * z * ((1 - u) ^ k * (1 - u) ^ l) by ring]

theorem Within.div {k l : Nat} {v y w z : F} (h : Within u k v y) (h' : Within u l w z) (hw : 0 < w) :
    Within u (k + l) (v / w) (y / z) := by
  have hz : 0 < z := lt_of_lt_of_le (mul_pos hw (hf.pow_pos l)) h'.lower
  have hi : Within u l w⁻¹ z⁻¹ := by
    refine ⟨by positivity, by positivity, ?_, ?_⟩
    · rw [inv_mul_le_iff₀ hw, ← div_eq_mul_inv, le_div_iff₀ hz, mul_comm]; exact h'.upper
    · rw [inv_mul_le_iff₀ hz, ← div_eq_mul_inv, le_div_iff₀ hw, mul_comm]; exact h'.lower
  rw [div_eq_mul_inv, div_eq_mul_inv]
  exact h.mul hf hi

omit hf in
theorem Within.add {k : Nat} {v y w z : F} (h : Within u k v y) (h' : Within u k w z) :
    Within u k (v + w) (y + z) :=
  ⟨add_nonneg h.nonneg h'.nonneg, add_nonneg h.nonneg' h'.nonneg', by rw [add_mul]; exact add_le_add h.lower h'.lower,
    by rw [add_mul]; exact add_le_add h.upper h'.upper⟩

theorem Within.upTo {k : Nat} {v y : F} (h : Within u k v y) (negate : Bool) :
    UpTo u k (if negate then -v else v) (if negate then -y else y) := by
  have p := hf.pow_pos k
  obtain ⟨q, e, h1, h2⟩ : UpTo u k v y := by
    rcases h.nonneg.eq_or_lt with h0 | h0
    · have hy : y = 0 := by
        have := h.upper
        rw [← h0] at this
        rcases h.nonneg'.eq_or_lt with e | e
        · exact e.symm
        · have := mul_pos e p; linarith
      exact ⟨1, by rw [hy, ← h0]; ring, hf.pow_le k, (one_le_inv₀ p).2 (hf.pow_le k)⟩
    · refine ⟨y / v, by field_simp, ?_, ?_⟩
      · rw [le_div_iff₀ h0, mul_comm]; exact h.lower
      · rw [div_le_iff₀ h0, inv_mul_eq_div, le_div_iff₀ p]; exact h.upper
  refine ⟨q, ?_, h1, h2⟩
  cases negate
  · exact e
  · simp only [if_true, e, neg_mul]

end

omit [IsStrictOrderedRing F] in
/-- What `UpTo` says about the error. -/
theorem UpTo.abs_le [IsStrictOrderedRing F] {u : F} {k : Nat} {v y : F} (h : UpTo u k v y) (h0 : 0 ≤ u) (h1 : u < 1) :
    |y - v| ≤ (((1 - u) ^ k)⁻¹ - 1) * |v| := by
  obtain ⟨q, rfl, hq, hq'⟩ := h
  have p : 0 < (1 - u) ^ k := pow_pos (by linarith) k
  have p1 : (1 - u) ^ k ≤ 1 := pow_le_one₀ (by linarith) (by linarith)
  rw [show v * q - v = (q - 1) * v by ring, abs_mul]
  refine mul_le_mul_of_nonneg_right ?_ (abs_nonneg v)
  have hm : (1 - u) ^ k + ((1 - u) ^ k)⁻¹ ≥ 2 := by
    have : (1 - u) ^ k * ((1 - u) ^ k)⁻¹ = 1 := mul_inv_cancel₀ p.ne'
    have h2 : 1 ≤ ((1 - u) ^ k)⁻¹ := (one_le_inv₀ p).2 p1
    nlinarith
  rw [_root_.abs_le]
  constructor <;> linarith

/-! ### The error of reading -/

theorem lockstep_within {fl : F → F} {u : F} (hf : Rounding fl u) {B : Nat} (hB : 2 ≤ B) :
    Lockstep fl B fun k st st' => (st'.state = st.state ∧ st'.negate = st.negate) ∧
      Within u (3 * k + 2) st.x st'.x ∧ Within u (2 * k) st.power st'.power where
  init := ⟨⟨rfl, rfl⟩, Within.refl hf _ le_rfl, Within.refl hf _ zero_le_one⟩
  state h := h.1
  sign i n h _ _ := ⟨⟨rfl, rfl⟩, h.2.1.mono hf (by omega), h.2.2.mono hf (by omega)⟩
  first p l h _ _ _ := ⟨⟨rfl, h.1.2⟩, (Within.nat hf p).mono hf (by omega), h.2.2.mono hf (by omega)⟩
  integral p l h _ hl _ := by
    refine ⟨h.1, ?_, h.2.2.mono hf (by omega)⟩
    have h1 := (h.2.1.mul hf (Within.nat hf (B ^ l))).round hf
    exact ((h1.add ((Within.nat hf p).mono hf (by omega))).round hf).mono hf (by omega)
  dot h _ := ⟨⟨rfl, h.1.2⟩, h.2.1.mono hf (by omega), h.2.2.mono hf (by omega)⟩
  point p l h _ hl _ := by
    have hpos : (0 : F) < (B ^ l : Nat) := by
      have : 0 < B ^ l := Nat.pow_pos (by omega)
      exact_mod_cast this
    have h1 := (h.2.2.div hf (Within.nat hf (B ^ l)) hpos).round hf
    refine ⟨h.1, ?_, h1.mono hf (by omega)⟩
    have h2 := ((Within.nat hf p).mul hf h1).round hf
    exact (((h.2.1.mono hf (Nat.le_add_right _ 2)).add (h2.mono hf (by omega))).round hf).mono hf (by omega)

/-- **C123.** Whatever the rounding of the floating point type, the base, the text and its division into buffers,
reading a real number consumes the characters it should, stores a value exactly if there is one, and the value is the
one that is written up to three roundings for each consumed character and two more. -/
theorem readRealR_relative {fl : F → F} {u : F} (hf : Rounding fl u) {b : Nat} (hb : b = 0 ∨ 2 ≤ b ∧ b ≤ 36)
    (chunks : List (List Byte)) (hne : ∀ s ∈ chunks, s ≠ []) :
    ∃ o : Option F, readRealR fl b chunks = some (realConsumed (if b = 0 then 10 else b) chunks.flatten, o) ∧
      match realValue (F := F) (if b = 0 then 10 else b) chunks.flatten with
      | none => o = none
      | some v => ∃ y, o = some y ∧ UpTo u (3 * realConsumed (if b = 0 then 10 else b) chunks.flatten + 2) v y := by
  have hB : 2 ≤ (if b = 0 then 10 else b) := by split_ifs <;> omega
  have hB' : (if b = 0 then 10 else b) ≤ 36 := by split_ifs <;> omega
  obtain ⟨st, st', ⟨⟨h1, h2⟩, h3, -⟩, h5, h6⟩ := readRealR_lockstep hB hB' (lockstep_within hf hB) rfl chunks
    (readReal_correct (F := F) hb chunks hne)
  refine ⟨_, h6, ?_⟩
  rw [h5]
  cases hr : floatReady st with
  | false => simp
  | true =>
    refine ⟨_, rfl, ?_⟩
    have := h3.upTo hf st.negate
    unfold floatValue
    rw [h2]
    exact this

/-! ### Short numbers in one buffer -/

theorem maxLength_max {B : Nat} (hB : 2 ≤ B) {i : Nat} (h : B ^ i < 2 ^ 64) : i ≤ maxLength B := by
  have h1 : digitCount (2 ^ 64 - 1) B = (Nat.digits B (2 ^ 64 - 1)).length := digitCount_eq_length hB _
  unfold maxLength
  rw [h1]
  have := (Nat.lt_digits_length_iff (b := B) (k := i) (by omega) (2 ^ 64 - 1)).2 (by omega)
  omega

theorem parseDigits_short {B : Nat} (hB : 2 ≤ B) (hB' : B ≤ 36) {s : List Byte}
    (h : B ^ (s.takeWhile (isDig B)).length < 2 ^ 64) :
    parseDigits B s = (numeral B (s.takeWhile (isDig B)), (s.takeWhile (isDig B)).length) := by
  have e := parseDigits_eq hB hB' (mem_takeWhile_isDig (B := B) s) (noDigit_dropWhile (B := B) s)
  rw [List.takeWhile_append_dropWhile, List.take_of_length_le (maxLength_max hB h)] at e
  exact e

theorem takeWhile_dropWhile_isDig {B : Nat} (s : List Byte) : (s.dropWhile (isDig B)).takeWhile (isDig B) = [] := by
  have := noDigit_dropWhile (B := B) s
  cases h : s.dropWhile (isDig B) with
  | nil => rfl
  | cons c t => rw [h] at this; simp [this c rfl]

theorem drop_takeWhile_isDig {B : Nat} (s : List Byte) :
    s.drop (s.takeWhile (isDig B)).length = s.dropWhile (isDig B) := by
  have e := List.takeWhile_append_dropWhile (p := isDig B) (l := s)
  have h : ∀ a c : List Byte, a ++ c = s → s.drop a.length = c := by rintro a c rfl; simp
  exact h _ _ e

omit [LinearOrder F] [IsStrictOrderedRing F] in
theorem pointLoopR_stop (fl : F → F) {B : Nat} (hB : 2 ≤ B) (hB' : B ≤ 36) (n : Nat) (st : FloatSt F) (i : Nat)
    {s : List Byte} (h : s.takeWhile (isDig B) = []) : pointLoopR fl B n st i s = (i, st) := by
  cases n with
  | zero => rfl
  | succ n =>
    rw [pointLoopR]
    split_ifs with h0
    · rfl
    · rw [parseDigits_short hB hB' (by rw [h]; simp)]
      simp [h]

/-- The digits after a point, if there is one. -/
def afterPoint (B : Nat) (s : List Byte) : Option (List Byte) :=
  match s.dropWhile (isDig B) with
  | c :: t => if c = lit '.' then some (t.takeWhile (isDig B)) else none
  | [] => none

/-- The characters of the fraction with its point. -/
def pointLength : Option (List Byte) → Nat
  | none => 0
  | some f => 1 + f.length

omit [LinearOrder F] [IsStrictOrderedRing F] in
theorem signStepR_short (fl : F → F) {B : Nat} (hB : 2 ≤ B) (hB' : B ≤ 36) (neg : Bool) (x : F) (i : Nat) (r : List Byte)
    (hd : r.takeWhile (isDig B) ≠ []) (h1 : B ^ (r.takeWhile (isDig B)).length < 2 ^ 64)
    (h2 : ∀ f, afterPoint B r = some f → B ^ f.length < 2 ^ 64) :
    ∃ st : FloatSt F, signStepR fl B ⟨.sign, neg, x, 1⟩ i r =
        (i + (r.takeWhile (isDig B)).length + pointLength (afterPoint B r), st) ∧
      floatReady st = true ∧ st.negate = neg ∧ st.x = shortValue fl B (r.takeWhile (isDig B)) (afterPoint B r) := by
  have hl : (r.takeWhile (isDig B)).length ≠ 0 := by simpa using hd
  unfold signStepR
  rw [parseDigits_short hB hB' h1]
  simp only [hl, if_false, drop_takeWhile_isDig]
  have hz : parseDigits B (r.dropWhile (isDig B)) = (0, 0) := by
    rw [parseDigits_short hB hB' (by rw [takeWhile_dropWhile_isDig]; simp), takeWhile_dropWhile_isDig]
    rfl
  rw [integralLoopR]
  unfold afterPoint at *
  cases hr : r.dropWhile (isDig B) with
  | nil => simp [floatReady, shortValue, pointLength]
  | cons c t =>
    rw [hr] at hz h2
    simp only [hz, reduceCtorEq, if_false, if_true, List.head?_cons, Option.some.injEq, List.tail_cons]
    by_cases hc : c = lit '.'
    · simp only [hc, if_true] at h2 ⊢
      have h3 := h2 _ rfl
      by_cases h0 : t.takeWhile (isDig B) = []
      · rw [pointLoopR_stop fl hB hB' _ _ _ h0, h0]
        exact ⟨_, rfl, rfl, rfl, rfl⟩
      · have ht : t ≠ [] := by rintro rfl; exact h0 rfl
        have hl' : (t.takeWhile (isDig B)).length ≠ 0 := by simpa using h0
        rw [pointLoopR, if_neg ht, parseDigits_short hB hB' h3]
        simp only [hl', if_false, drop_takeWhile_isDig]
        rw [pointLoopR_stop fl hB hB' _ _ _ (takeWhile_dropWhile_isDig t), basePower_small hB hB' (maxLength_max hB h3)]
        refine ⟨_, rfl.trans (Prod.ext (Nat.add_assoc _ _ _) rfl), rfl, rfl, ?_⟩
        obtain ⟨a, f, e⟩ := List.exists_cons_of_ne_nil h0
        rw [e]
        rfl
    · simp only [hc, if_false]
      exact ⟨_, rfl, rfl, rfl, rfl⟩

omit [LinearOrder F] [IsStrictOrderedRing F] in
/-- **C123.** In one buffer, a number with few enough digits before and after the point for 64 bits is read with one
conversion and, if there are digits after the point, with the operations shown in `shortValue`. -/
theorem readRealR_short_eq (fl : F → F) {b B : Nat} (hb : b = 0 ∨ 2 ≤ b ∧ b ≤ 36)
    (hbB : (if b = 0 then 10 else b) = B) {s ds : List Byte} {neg : Bool} {fs : Option (List Byte)}
    (hs : splitReal B s = (neg, ds, fs)) (hd : ds ≠ []) (h1 : B ^ ds.length < 2 ^ 64)
    (h2 : ∀ f, fs = some f → B ^ f.length < 2 ^ 64) :
    readRealR fl b [s] = some (realConsumed B s, some (if neg then -shortValue fl B ds fs else shortValue fl B ds fs))
    := by
  have hB : 2 ≤ B := by rw [← hbB]; split_ifs <;> omega
  have hB' : B ≤ 36 := by rw [← hbB]; split_ifs <;> omega
  cases s with
  | nil => simp [splitReal, splitSign] at hs; exact absurd hs.2.1 hd
  | cons c t =>
    obtain ⟨i, hi1, hi2, hi3⟩ : ∃ i : Nat, i ≤ (c :: t).length ∧
        signParse true false (c :: t) = some (i, (splitSign true (c :: t)).1) ∧
        (splitSign true (c :: t)).2 = (c :: t).drop i := by
      have hpm : lit '+' ≠ lit '-' := by decide
      by_cases h1 : c = lit '-'
      · exact ⟨1, by simp, by simp [signParse, splitSign, h1], by simp [splitSign, h1]⟩
      · by_cases h2 : c = lit '+'
        · exact ⟨1, by simp, by simp [signParse, splitSign, h2, hpm], by simp [splitSign, h2, hpm]⟩
        · exact ⟨0, by simp, by simp [signParse, splitSign, h1, h2], by simp [splitSign, h1, h2]⟩
    have hc : realConsumed B (c :: t) = (c :: t).length - (splitSign true (c :: t)).2.length + ds.length +
        pointLength fs := by
      unfold realConsumed
      rw [hs]
      cases fs <;> rfl
    rw [hi3, List.length_drop, Nat.sub_sub_self hi1] at hc
    unfold splitReal at hs
    rcases hsp : splitSign true (c :: t) with ⟨n0, r0⟩
    rw [hsp] at hs hi2 hi3
    simp only [Prod.mk.injEq] at hs hi2 hi3
    obtain ⟨rfl, e3, e4⟩ := hs
    have hne : r0 ≠ [] := by rintro rfl; exact hd e3.symm
    have hil : i ≠ (c :: t).length := by
      rintro rfl; simp at hi3; exact hne hi3
    have e5 : afterPoint B r0 = fs := by
      rw [← e4, e3, if_neg hd]; rfl
    obtain ⟨st, r1, r2, r3, r4⟩ := signStepR_short fl hB hB' n0 (0 : F) i r0 (by rw [e3]; exact hd)
      (by rw [e3]; exact h1) (by rw [e5]; exact h2)
    rw [e3, e5] at r1 r4
    unfold readRealR
    rw [hbB, exec]
    simp only [List.isEmpty_cons, Bool.false_eq_true, if_false, floatParseR, FloatSt.init, hi2, hil, ← hi3, r1, exec]
    rw [hc]
    cases n0 <;> split_ifs <;> simp_all [floatValue]

theorem shortValue_within {fl : F → F} {u : F} (hf : Rounding fl u) {B : Nat} (hB : 2 ≤ B) (ds : List Byte)
    (fs : Option (List Byte)) :
    Within u 5 ((numeral B ds : F) + match fs with
      | none => 0
      | some fs => (numeral B fs : F) / (B : F) ^ fs.length) (shortValue fl B ds fs) := by
  have h1 := Within.nat hf (numeral B ds)
  have hpos : ∀ l : Nat, (0 : F) < (B ^ l : Nat) := by
    intro l
    have : 0 < B ^ l := Nat.pow_pos (by omega)
    exact_mod_cast this
  match fs with
  | none => simpa [shortValue] using h1.mono hf (by omega)
  | some [] => simpa [shortValue, numeral] using h1.mono hf (by omega)
  | some (a :: f) =>
    have h2 := ((Within.refl hf 0 (zero_le_one (α := F))).div hf (Within.nat hf (B ^ (a :: f).length)) (hpos _)).round hf
    have h3 := ((Within.nat hf (numeral B (a :: f))).mul hf h2).round hf
    have h4 := ((h1.mono hf (by omega)).add h3).round hf
    have e : (numeral B (a :: f) : F) / (B : F) ^ (a :: f).length =
        (numeral B (a :: f) : F) * (1 / ((B ^ (a :: f).length : Nat) : F)) := by
      push_cast
      rw [mul_one_div]
    simp only [e]
    exact h4

/-- **C123.** Such a number is read up to five roundings. -/
theorem readRealR_short {fl : F → F} {u : F} (hf : Rounding fl u) {b B : Nat} (hb : b = 0 ∨ 2 ≤ b ∧ b ≤ 36)
    (hbB : (if b = 0 then 10 else b) = B) {s ds : List Byte} {neg : Bool} {fs : Option (List Byte)}
    (hs : splitReal B s = (neg, ds, fs)) (hd : ds ≠ []) (h1 : B ^ ds.length < 2 ^ 64)
    (h2 : ∀ f, fs = some f → B ^ f.length < 2 ^ 64) :
    ∃ v y : F, realValue B s = some v ∧ readRealR fl b [s] = some (realConsumed B s, some y) ∧ UpTo u 5 v y := by
  have hB : 2 ≤ B := by rw [← hbB]; split_ifs <;> omega
  refine ⟨_, _, ?_, readRealR_short_eq fl hb hbB hs hd h1 h2, (shortValue_within hf hB ds fs).upTo hf neg⟩
  unfold realValue
  rw [hs]
  simp only [hd, if_false]
  cases fs <;> rfl

/-! ### Integers are read exactly -/

/-- The value is a natural number up to `N`. -/
def SmallNat (N : Nat) (x : F) : Prop := ∃ m : Nat, m ≤ N ∧ x = m

/-- What holds of the state of an exact run. -/
def ExactInv (st : FloatSt F) : Prop :=
  match st.state with
  | .empty | .sign => st.power = 1
  | .integral => (∃ m : Nat, st.x = m) ∧ st.power = 1
  | .point => ∃ m : Nat, (m : F) ≤ st.x ∧ st.x - m + st.power ≤ 1 ∧ 0 < st.power

theorem lockstep_exact {fl : F → F} {N : Nat} (hf : ∀ n : Nat, n ≤ N → fl n = n) {B : Nat} (hB : 2 ≤ B) :
    Lockstep fl B fun _ st st' => (st'.state = st.state ∧ st'.negate = st.negate) ∧ ExactInv st ∧
      (SmallNat N st.x → st'.x = st.x) where
  init := ⟨⟨rfl, rfl⟩, rfl, fun _ => rfl⟩
  state h := h.1
  sign i n h hs _ := by
    refine ⟨⟨rfl, rfl⟩, ?_, h.2.2⟩
    have := h.2.1
    simp only [ExactInv, hs] at this
    exact this
  first p l h hs _ _ := by
    refine ⟨⟨rfl, h.1.2⟩, ?_, ?_⟩
    · have := h.2.1
      simp only [ExactInv, hs] at this
      exact ⟨⟨p, rfl⟩, this⟩
    · rintro ⟨m, hm, e⟩
      simp only at e
      have : p = m := by exact_mod_cast e
      exact hf p (by omega)
  integral p l h hs hl _ := by
    have hi := h.2.1
    simp only [ExactInv, hs] at hi
    obtain ⟨⟨m, em⟩, hp⟩ := hi
    refine ⟨h.1, ?_, ?_⟩
    · simp only [ExactInv, hs]
      exact ⟨⟨m * B ^ l + p, by rw [em]; push_cast; ring⟩, hp⟩
    · rintro ⟨n, hn, e⟩
      simp only at e ⊢
      rw [em] at e
      have e' : m * B ^ l + p = n := by exact_mod_cast e
      have hBl : 0 < B ^ l := Nat.pow_pos (by omega)
      have hmn : m ≤ m * B ^ l := Nat.le_mul_of_pos_right m hBl
      rw [h.2.2 ⟨m, by omega, em⟩, em, hf p (by omega)]
      have h0 : fl ((m : F) * fl ((B ^ l : Nat) : F)) = ((m * B ^ l : Nat) : F) := by
        rcases Nat.eq_zero_or_pos m with rfl | hm
        · have := hf 0 (by omega)
          simpa using this
        · have : B ^ l ≤ m * B ^ l := Nat.le_mul_of_pos_left _ hm
          rw [hf (B ^ l) (by omega), ← Nat.cast_mul, hf _ (by omega)]
      rw [h0, ← Nat.cast_add, hf _ (by omega)]
      push_cast; ring
  dot h hs := by
    have hi := h.2.1
    simp only [ExactInv, hs] at hi
    obtain ⟨⟨m, em⟩, hp⟩ := hi
    refine ⟨⟨rfl, h.1.2⟩, ⟨m, em.ge, ?_, ?_⟩, h.2.2⟩
    · simp only [em, hp]; linarith
    · simp only [hp]; exact zero_lt_one
  point p l h hs hl hpl := by
    have hi := h.2.1
    simp only [ExactInv, hs] at hi
    obtain ⟨m, h1, h2, h3⟩ := hi
    have hBl : 0 < B ^ l := Nat.pow_pos (by omega)
    have hBF : (0 : F) < (B ^ l : Nat) := by exact_mod_cast hBl
    rename_i st st' 
    set q := st.power / ((B ^ l : Nat) : F) with hq
    have q0 : 0 < q := by positivity
    have hqe : q * ((B ^ l : Nat) : F) = st.power := by rw [hq]; field_simp
    have hpF : (p : F) + 1 ≤ ((B ^ l : Nat) : F) := by exact_mod_cast hpl
    have hle : (p : F) * q + q ≤ st.power := by
      rw [← hqe]; nlinarith
    have hp0 : (0 : F) ≤ p := Nat.cast_nonneg p
    have hpq : 0 ≤ (p : F) * q := by positivity
    refine ⟨h.1, ?_, ?_⟩
    · simp only [ExactInv, hs]
      exact ⟨m, by linarith, by linarith, q0⟩
    · rintro ⟨n, hn, e⟩
      simp only at e ⊢
      have hnm : n = m := by
        have a1 : (m : F) ≤ n := by linarith
        have a2 : (n : F) < m + 1 := by linarith
        have a1' : m ≤ n := by exact_mod_cast a1
        have a2' : n < m + 1 := by exact_mod_cast a2
        omega
      subst hnm
      have hpz : (p : F) * q = 0 := by linarith
      have hp' : p = 0 := by
        rcases mul_eq_zero.1 hpz with h | h
        · exact_mod_cast h
        · exact absurd h q0.ne'
      have hx : st.x = n := by linarith
      have f0 : fl 0 = 0 := by simpa using hf 0 (by omega)
      rw [h.2.2 ⟨n, hn, hx⟩, hp', Nat.cast_zero, f0, zero_mul, f0, add_zero, zero_mul, add_zero, hx]
      exact hf n hn

/-- **C123.** If the natural numbers up to `N` are representable, every number that is an integer of magnitude up to
`N`, with any number of zeros after the point or none, is read exactly, whatever its division into buffers. -/
theorem readRealR_integer {fl : F → F} {N : Nat} (hf : ∀ n : Nat, n ≤ N → fl n = n) {b : Nat}
    (hb : b = 0 ∨ 2 ≤ b ∧ b ≤ 36) (chunks : List (List Byte)) (hne : ∀ s ∈ chunks, s ≠ []) {v : F}
    (hv : realValue (if b = 0 then 10 else b) chunks.flatten = some v) {n : Nat} (hn : n ≤ N) (hvn : |v| = n) :
    readRealR fl b chunks = some (realConsumed (if b = 0 then 10 else b) chunks.flatten, some v) := by
  have hB : 2 ≤ (if b = 0 then 10 else b) := by split_ifs <;> omega
  have hB' : (if b = 0 then 10 else b) ≤ 36 := by split_ifs <;> omega
  obtain ⟨st, st', ⟨⟨h1, h2⟩, h3, h4⟩, h5, h6⟩ := readRealR_lockstep hB hB' (lockstep_exact hf hB) rfl chunks
    (readReal_correct (F := F) hb chunks hne)
  rw [h6]
  rw [hv] at h5
  cases hr : floatReady st with
  | false => rw [hr] at h5; simp at h5
  | true =>
    rw [hr] at h5
    simp only [if_true, Option.some.injEq] at h5
    have hx : 0 ≤ st.x := by
      unfold ExactInv at h3
      cases hs : st.state with
      | empty => simp [floatReady, hs] at hr
      | sign => simp [floatReady, hs] at hr
      | integral =>
        rw [hs] at h3
        obtain ⟨⟨m, e⟩, -⟩ := h3
        rw [e]; exact Nat.cast_nonneg m
      | point =>
        rw [hs] at h3
        obtain ⟨m, e, -⟩ := h3
        exact (Nat.cast_nonneg m).trans e
    have hxn : st.x = n := by
      rw [h5] at hvn
      unfold floatValue at hvn
      split_ifs at hvn with hg
      · rw [abs_neg, abs_of_nonneg hx] at hvn; exact hvn
      · rw [abs_of_nonneg hx] at hvn; exact hvn
    rw [if_pos rfl, h5]
    unfold floatValue
    rw [h2, h4 ⟨n, hn, hxn⟩]

/-! ### Output and input -/

theorem realParts_integer [FloorSemiring F] {fl : F → F} {N : Nat} (hf : ∀ n : Nat, n ≤ N → fl n = n)
    (hh : fl 2⁻¹ = 2⁻¹) (P : Nat) {I : Nat} (hI : I ≤ N) (h64 : I < 2 ^ 64) :
    realParts fl P (I : F) = realParts id P (I : F) := by
  have f0 : fl 0 = 0 := by simpa using hf 0 (by omega)
  have ht : truncate (I : F) = some I := by
    rw [truncate_eq (Nat.cast_nonneg I) (by exact_mod_cast h64), Nat.floor_natCast]
  unfold realParts
  rw [ht]
  simp [hf I hI, f0, hh]

/-- **C123**, round trip of integers: if the natural numbers up to `N` and one half are representable, an integer of
magnitude up to `N` (that the output can write, C70) is read back exactly, in every base, with every number of digits
after the point, whatever follows the text and however it is divided into buffers. -/
theorem encode_readRealR_integer [FloorSemiring F] {fl : F → F} {N : Nat} (hf : ∀ n : Nat, n ≤ N → fl n = n)
    (hh : fl 2⁻¹ = 2⁻¹) {f : Fmt} (showpoint : Bool) {p : Nat} (negative : Bool) {I : Nat} (hb : 2 ≤ f.base)
    (hb' : f.base ≤ 36) (hn : f.showbase = false ∨ (f.base ≠ 8 ∧ f.base ≠ 16)) (hP : f.base ^ p < 2 ^ 64)
    (hI : I ≤ N) (h1 : I < 2 ^ 63 - 1) :
    ∃ t, encodeReal fl f showpoint p negative (.finite (I : F)) = some t ∧
      ∀ (r : List Byte), (∀ c, r.head? = some c → isDig f.base c = false ∧ c ≠ lit '.') →
      ∀ chunks : List (List Byte), (∀ s ∈ chunks, s ≠ []) → chunks.flatten = t ++ r →
        readRealR fl f.base chunks = some (t.length, some (if negative then -(I : F) else I)) := by
  have h63 : (I : F) < 2 ^ 63 - 1 := by
    have : ((I + 1 : Nat) : F) < (2 ^ 63 : Nat) := by
      exact_mod_cast (show I + 1 < 2 ^ 63 by omega)
    push_cast at this
    linarith
  obtain ⟨n, t, e, hfix, herr⟩ := encodeReal_correct_partial (fl := id) (ε := (0 : F)) (f := f) showpoint (p := p)
    negative (x := (I : F)) hb hb' hn hP (accurate_id _ _) (Nat.cast_nonneg I)
    (h63.trans (by norm_num)) (fun _ _ => h63)
  have hnI : n = I * f.base ^ p := by
    have h2 : |((I * f.base ^ p : Nat) : F) - n| < 1 := by
      push_cast
      refine lt_of_le_of_lt herr (by norm_num)
    have h3 : |((I * f.base ^ p : Nat) : Int) - (n : Int)| < 1 := by
      have : ((|((I * f.base ^ p : Nat) : Int) - (n : Int)| : Int) : F) < ((1 : Int) : F) := by
        push_cast at h2 ⊢
        exact h2
      exact_mod_cast this
    have := Int.abs_lt_one_iff.1 h3
    omega
  rw [encodeReal_finite] at e
  refine ⟨_, by rw [encodeReal_finite, realParts_integer hf hh _ hI (by omega)]; exact e, fun r hr chunks hne hfl => ?_⟩
  obtain ⟨v1, v2⟩ := realValue_fixedPoint (F := F) hb hfix f.showpos negative hr
  have hBp : (f.base : F) ^ p ≠ 0 := pow_ne_zero _ (by exact_mod_cast (show f.base ≠ 0 by omega))
  have hval : (n : F) / (f.base : F) ^ p = I := by
    rw [hnI]; push_cast; field_simp
  rw [hval] at v2
  have hB : (if f.base = 0 then 10 else f.base) = f.base := if_neg (by omega)
  have := readRealR_integer hf (b := f.base) (Or.inr ⟨hb, hb'⟩) chunks hne (n := I)
    (v := if negative then -(I : F) else I) (by rw [hB, hfl]; exact v2) hI (by cases negative <;> simp)
  rw [this, hB, hfl, v1]

/-- **C123**, round trip: a number that the output can write is read back, from any division into buffers, with the
error of the output (half a unit of the last digit and twice the error of the floating point operations) and up to
three roundings for each character and two more. -/
theorem encode_readRealR [FloorSemiring F] {fl fl' : F → F} {u ε : F} (hf : Rounding fl u) {f : Fmt} (showpoint : Bool)
    {p : Nat} (negative : Bool) {x : F} (hb : 2 ≤ f.base) (hb' : f.base ≤ 36)
    (hn : f.showbase = false ∨ (f.base ≠ 8 ∧ f.base ≠ 16)) (hP : f.base ^ p < 2 ^ 64)
    (ha : Accurate fl' ε (f.base ^ p) x) (h0 : 0 ≤ x) (h1 : x < 2 ^ 64 - 1)
    (hs : negative = true ∨ f.showpos = true → 0 < p ∨ showpoint = true → x < 2 ^ 63 - 1) :
    ∃ t v, encodeReal fl' f showpoint p negative (.finite x) = some t ∧
      |(if negative then -x else x) - v| ≤ (1 / 2 + 2 * ε) / (f.base : F) ^ p ∧
      ∀ (r : List Byte), (∀ c, r.head? = some c → isDig f.base c = false ∧ c ≠ lit '.') →
      ∀ chunks : List (List Byte), (∀ s ∈ chunks, s ≠ []) → chunks.flatten = t ++ r →
        ∃ y : F, readRealR fl f.base chunks = some (t.length, some y) ∧ UpTo u (3 * t.length + 2) v y := by
  obtain ⟨n, t, e, hfix, herr⟩ := encodeReal_correct_partial showpoint negative hb hb' hn hP ha h0 h1 hs
  have hpos : (0 : F) < (f.base : F) ^ p := by
    have : (0 : F) < f.base := by exact_mod_cast (show 0 < f.base by omega)
    positivity
  refine ⟨_, if negative then -((n : F) / (f.base : F) ^ p) else (n : F) / (f.base : F) ^ p, e, ?_,
    fun r hr chunks hne hfl => ?_⟩
  · have key : |x - (n : F) / (f.base : F) ^ p| ≤ (1 / 2 + 2 * ε) / (f.base : F) ^ p := by
      rw [le_div_iff₀ hpos, ← abs_of_pos hpos, ← abs_mul, abs_of_pos hpos, sub_mul, div_mul_cancel₀ _ hpos.ne']
      exact herr
    cases negative with
    | false => simpa using key
    | true =>
      have e2 : -x - -((n : F) / (f.base : F) ^ p) = -(x - (n : F) / (f.base : F) ^ p) := by ring
      simp only [if_true, e2, abs_neg]
      exact key
  · obtain ⟨v1, v2⟩ := realValue_fixedPoint (F := F) hb hfix f.showpos negative hr
    have hB : (if f.base = 0 then 10 else f.base) = f.base := if_neg (by omega)
    obtain ⟨o, h2, h3⟩ := readRealR_relative hf (b := f.base) (Or.inr ⟨hb, hb'⟩) chunks hne
    rw [hB, hfl, v1] at h2 h3
    rw [v2] at h3
    obtain ⟨y, rfl, h4⟩ := h3
    exact ⟨y, h2, h4⟩

/-! ### Rounding to binary digits -/

theorem roundBinary_unit (prec : Nat) (x : ℚ) : (0 : ℚ) < 2 ^ (Int.log 2 x + 1 - (prec : Int)) := zpow_pos (by norm_num) _

/-- Rounding to `prec` binary digits is a rounding with relative error `2 ^ -prec`. -/
theorem roundBinary_rounding {prec : Nat} (hp : 0 < prec) : Rounding (roundBinary prec) ((2 : ℚ) ^ prec)⁻¹ where
  nonneg := by positivity
  small := inv_lt_one_of_one_lt₀ (one_lt_pow₀ (by norm_num) (by omega))
  near y hy := by
    unfold roundBinary
    simp only
    have hu := roundBinary_unit prec y
    set unit : ℚ := 2 ^ (Int.log 2 y + 1 - (prec : Int)) with hunit
    rcases hy.eq_or_lt with rfl | hy
    · simp
    · have h1 : |(round (y / unit) : ℚ) - y / unit| ≤ 1 / 2 := by
        rw [abs_sub_comm]; exact abs_sub_round _
      have h2 : (2 : ℚ) ^ Int.log 2 y ≤ y := by exact_mod_cast Int.zpow_log_le_self (b := 2) (by norm_num) hy
      have h3 : unit / 2 = 2 ^ Int.log 2 y * ((2 : ℚ) ^ prec)⁻¹ := by
        rw [hunit, zpow_sub₀ (by norm_num), zpow_add₀ (by norm_num), zpow_natCast]; field_simp
      have e : (round (y / unit) : ℚ) * unit - y = ((round (y / unit) : ℚ) - y / unit) * unit := by
        rw [sub_mul, div_mul_cancel₀ _ hu.ne']
      rw [e, abs_mul, abs_of_pos hu]
      calc _ ≤ 1 / 2 * unit := mul_le_mul_of_nonneg_right h1 hu.le
        _ = unit / 2 := by ring
        _ = 2 ^ Int.log 2 y * ((2 : ℚ) ^ prec)⁻¹ := h3
        _ ≤ y * ((2 : ℚ) ^ prec)⁻¹ := mul_le_mul_of_nonneg_right h2 (by positivity)
        _ = _ := by ring

/-- A multiple of the unit is representable. -/
theorem roundBinary_exact {prec : Nat} {x : ℚ} {k : Int} (h : x = k * 2 ^ (Int.log 2 x + 1 - (prec : Int))) :
    roundBinary prec x = x := by
  unfold roundBinary
  simp only
  have hu := roundBinary_unit prec x
  have e : x / 2 ^ (Int.log 2 x + 1 - (prec : Int)) = k := by
    rw [div_eq_iff hu.ne']; exact h
  rw [e, round_intCast, ← h]

/-- The natural numbers up to `2 ^ prec` are representable. -/
theorem roundBinary_nat {prec : Nat} (hp : 0 < prec) {n : Nat} (hn : n ≤ 2 ^ prec) :
    roundBinary prec (n : ℚ) = n := by
  have hl : Int.log 2 (n : ℚ) = (Nat.log 2 n : Int) := Int.log_natCast 2 n
  rcases hn.lt_or_eq with hlt | rfl
  · have hle : Nat.log 2 n + 1 ≤ prec := by
      rcases Nat.eq_zero_or_pos n with rfl | h0
      · simp; omega
      · exact Nat.log_lt_of_lt_pow (by omega) hlt
    obtain ⟨d, hd⟩ := Nat.exists_eq_add_of_le hle
    refine roundBinary_exact (k := (n * 2 ^ d : Nat)) ?_
    rw [hl, show ((Nat.log 2 n : Int) + 1 - (prec : Int)) = -(d : Int) by omega, zpow_neg, zpow_natCast]
    push_cast
    field_simp
  · refine roundBinary_exact (k := (2 ^ (prec - 1) : Nat)) ?_
    rw [hl, Nat.log_pow (by omega), show ((prec : Int) + 1 - (prec : Int)) = 1 by omega, zpow_one]
    push_cast
    obtain ⟨q, rfl⟩ := Nat.exists_eq_add_of_lt hp
    simp [pow_succ]

/-- One half is representable. -/
theorem roundBinary_half {prec : Nat} (hp : 0 < prec) : roundBinary prec 2⁻¹ = 2⁻¹ := by
  have hl : Int.log 2 (2⁻¹ : ℚ) = -1 := by
    have := Int.log_zpow (R := ℚ) (b := 2) (by norm_num) (-1)
    simpa using this
  refine roundBinary_exact (k := (2 ^ (prec - 1) : Nat)) ?_
  rw [hl, show ((-1 : Int) + 1 - (prec : Int)) = -(prec : Int) by omega, zpow_neg, zpow_natCast]
  push_cast
  obtain ⟨q, rfl⟩ := Nat.exists_eq_add_of_lt hp
  simp only [Nat.zero_add, Nat.add_sub_cancel, pow_succ]
  field_simp

/-! ### Examples, and what does not hold -/

/-- A long number of type `double` in pieces. -/
example : ∃ o : Option ℚ, readRealR (roundBinary 53) 0 [bytes "-314159", bytes "2653589793238462.6433832", bytes "79x"] =
      some (33, o) ∧ ∃ y, o = some y ∧ UpTo ((2 : ℚ) ^ 53)⁻¹ 101 (-(3141592653589793238462643383279 / 10 ^ 9)) y := by
  obtain ⟨o, h1, h2⟩ := readRealR_relative (roundBinary_rounding (prec := 53) (by omega)) (b := 0) (Or.inl rfl)
    [bytes "-314159", bytes "2653589793238462.6433832", bytes "79x"] (by decide)
  have e1 : realConsumed 10 [bytes "-314159", bytes "2653589793238462.6433832", bytes "79x"].flatten = 33 := by
    decide +kernel
  have e2 : realValue (F := ℚ) 10 [bytes "-314159", bytes "2653589793238462.6433832", bytes "79x"].flatten =
    some (-(3141592653589793238462643383279 / 10 ^ 9)) := by decide +kernel
  rw [if_pos rfl, e1] at h1 h2
  rw [e2] at h2
  exact ⟨o, h1, h2⟩

/-- The same digits in one buffer, fewer of them. -/
example : ∃ v y : ℚ, realValue 10 (bytes "3.14159265358979") = some v ∧
    readRealR (roundBinary 53) 10 [bytes "3.14159265358979"] = some (16, some y) ∧ UpTo ((2 : ℚ) ^ 53)⁻¹ 5 v y :=
  readRealR_short (b := 10) (B := 10) (roundBinary_rounding (by omega)) (Or.inr ⟨by omega, by omega⟩) rfl
    (show splitReal 10 (bytes "3.14159265358979") = (false, bytes "3", some (bytes "14159265358979")) by decide +kernel)
    (by decide) (by decide +kernel) (by rintro f ⟨⟩; decide +kernel)

/-- The largest integer up to which there are no gaps, with zeros after the point, in pieces. -/
example : readRealR (roundBinary 53) 10 [bytes "-90071992", bytes "54740992.00", bytes "000"] =
    some (23, some (-(2 ^ 53))) :=
  (readRealR_integer (fun _ => roundBinary_nat (prec := 53) (by omega)) (Or.inr ⟨by omega, by omega⟩)
    [bytes "-90071992", bytes "54740992.00", bytes "000"] (by decide) (v := (-(2 ^ 53) : ℚ)) (n := 2 ^ 53)
    (by decide +kernel) le_rfl (by decide +kernel)).trans (by decide +kernel)

/-- -1234567 of type `float`, written in base 16 with three digits after the point. -/
example : ∃ t, encodeReal (roundBinary 24) ⟨16, false, false, false⟩ false 3 true (.finite (1234567 : ℚ)) = some t ∧
    ∀ (r : List Byte), (∀ c, r.head? = some c → isDig 16 c = false ∧ c ≠ lit '.') →
    ∀ chunks : List (List Byte), (∀ s ∈ chunks, s ≠ []) → chunks.flatten = t ++ r →
      readRealR (roundBinary 24) 16 chunks = some (t.length, some (-1234567)) :=
  encode_readRealR_integer (F := ℚ) (fun _ => roundBinary_nat (prec := 24) (by omega)) (roundBinary_half (by omega))
    (f := ⟨16, false, false, false⟩) false (p := 3) true (I := 1234567) (by decide) (by decide) (by decide)
    (by decide) (by omega) (by omega)

/-- 3.14159265 written exactly with 4 digits and read as `double`. -/
example : ∃ t v, encodeReal (F := ℚ) id ⟨10, false, false, false⟩ false 4 true (.finite (314159265 / 10 ^ 8)) = some t ∧
    |-(314159265 / 10 ^ 8) - v| ≤ (1 / 2 + 2 * 0) / 10 ^ 4 ∧
    ∀ r : List Byte, (∀ c, r.head? = some c → isDig 10 c = false ∧ c ≠ lit '.') →
    ∀ chunks : List (List Byte), (∀ s ∈ chunks, s ≠ []) → chunks.flatten = t ++ r →
      ∃ y : ℚ, readRealR (roundBinary 53) 10 chunks = some (t.length, some y) ∧
        UpTo ((2 : ℚ) ^ 53)⁻¹ (3 * t.length + 2) v y :=
  encode_readRealR (F := ℚ) (roundBinary_rounding (by omega)) (fl' := id) (f := ⟨10, false, false, false⟩) false (p := 4)
    true (x := 314159265 / 10 ^ 8) (by simp) (by simp) (by simp) (by norm_num) (accurate_id _ _) (by norm_num)
    (by norm_num) (by norm_num)

/-- **C123**, negative: the number read is not the nearest one.  `"0.3"` of type `double` is read as the number after
the nearest one to 0.3. -/
theorem readRealR_nearest_fails : readRealR (roundBinary 53) 0 [bytes "0.3"] = some (3, some (5404319552844596 / 2 ^ 54)) ∧
    roundBinary 53 (3 / 10) = 5404319552844595 / 2 ^ 54 := by
  decide +kernel

/-- **C123**, negative: the number read depends on the division into buffers, even if it is representable: `"0.75"`
of type `double` is read exactly from one buffer, but not if the buffer ends after `"0.7"`. -/
theorem readRealR_buffers_fails : readRealR (roundBinary 53) 0 [bytes "0.75"] = some (4, some (3 / 4)) ∧
    readRealR (roundBinary 53) 0 [bytes "0.7", bytes "5"] = some (4, some (3 / 4 + 1 / 2 ^ 53)) := by
  decide +kernel

end Actl.IntText
