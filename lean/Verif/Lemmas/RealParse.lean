import Verif.Model.RealParse
import Verif.Spec.RealText
import Verif.Lemmas.RealWrite
import Verif.Lemmas.IntParse
import Verif.Lemmas.Parser
import Mathlib.Algebra.CharZero.Defs
import Mathlib.Data.List.TakeWhile
import Mathlib.Tactic.FieldSimp

namespace Actl.IntText

open Actl.Text Actl.Parser

variable {B : Nat}

theorem numeral_append (B : Nat) (a b : List Byte) :
    numeral B (a ++ b) = numeral B a * B ^ b.length + numeral B b := by
  unfold numeral
  rw [List.map_append, List.reverse_append, Nat.ofDigits_append]
  simp
  ring

theorem numeral_lt {ds : List Byte} (h : ∀ c ∈ ds, isDig B c = true) :
    numeral B ds < B ^ ds.length := by
  induction ds with
  | nil => simp [numeral_nil]
  | cons c ds ih =>
    rw [numeral_cons, List.length_cons, pow_succ]
    have h1 := dval_lt (h c (by simp))
    have h2 := ih fun c hc => h c (by simp [hc])
    have : (dval c + 1) * B ^ ds.length ≤ B * B ^ ds.length := Nat.mul_le_mul_right _ h1
    rw [Nat.mul_comm (B ^ ds.length) B]
    have e : (dval c + 1) * B ^ ds.length = dval c * B ^ ds.length + B ^ ds.length := by ring
    omega

/-- `r` does not start with a digit. -/
def NoDigit (B : Nat) (r : List Byte) : Prop := ∀ c, r.head? = some c → isDig B c = false

theorem NoDigit.take {r : List Byte} (h : NoDigit B r) (n : Nat) : NoDigit B (r.take n) := by
  intro c hc
  cases r with
  | nil => simp at hc
  | cons a r =>
    cases n with
    | zero => simp at hc
    | succ n => exact h c (by simpa using hc)

theorem noDigit_dropWhile (s : List Byte) : NoDigit B (s.dropWhile (isDig B)) := by
  intro c hc
  induction s with
  | nil => simp at hc
  | cons a s ih =>
    rw [List.dropWhile_cons] at hc
    split_ifs at hc with h
    · exact ih hc
    · simp at hc; subst hc; simpa using h

theorem mem_takeWhile_isDig (s : List Byte) : ∀ c ∈ s.takeWhile (isDig B), isDig B c = true :=
  fun _ h => List.mem_takeWhile_imp h

section digits
variable (hB : 2 ≤ B) (hB' : B ≤ 36)
include hB hB'

theorem uncheckedLoop_eq {ds r : List Byte} (hd : ∀ c ∈ ds, isDig B c = true) (hr : NoDigit B r) :
    ∀ x, x * B ^ ds.length + numeral B ds < 2 ^ 64 →
      uncheckedLoop B x (ds ++ r) = (ds.length, x * B ^ ds.length + numeral B ds) := by
  induction ds with
  | nil =>
    intro x hx
    cases r with
    | nil => simp [uncheckedLoop, numeral_nil]
    | cons c r =>
      have h := hr c rfl
      have hnot : ¬ toDigit 64 B c < B := by
        rw [(toDigit_spec (w := 64) (by omega) hB hB' c).1, h]; simp
      simp [uncheckedLoop, hnot, numeral_nil]
  | cons c ds ih =>
    intro x hx
    have hc := hd c (by simp)
    obtain ⟨h1, h2⟩ := toDigit_spec (w := 64) (by omega) hB hB' c
    have hpos : 0 < B ^ ds.length := Nat.pow_pos (by omega)
    rw [numeral_cons, List.length_cons, pow_succ] at hx
    have e : x * (B ^ ds.length * B) + (dval c * B ^ ds.length + numeral B ds) =
        (x * B + dval c) * B ^ ds.length + numeral B ds := by ring
    rw [e] at hx
    have hsmall : x * B + dval c < 2 ^ 64 := by
      have := Nat.le_mul_of_pos_right (x * B + dval c) hpos
      omega
    rw [List.cons_append, uncheckedLoop]
    simp only [h2 hc]
    rw [if_neg (not_not.2 (dval_lt hc)), Nat.mod_eq_of_lt hsmall, ih (fun c hc => hd c (by simp [hc])) _ hx, numeral_cons,
      List.length_cons, pow_succ, e]

theorem maxLength_facts : 1 ≤ maxLength B ∧ B ^ maxLength B < 2 ^ 64 := by
  have h1 : digitCount (2 ^ 64 - 1) B = (Nat.digits B (2 ^ 64 - 1)).length :=
    digitCount_eq_length hB _
  have h2 : 1 < (Nat.digits B (2 ^ 64 - 1)).length :=
    (Nat.lt_digits_length_iff (b := B) (by omega) _).2 (by simp; omega)
  unfold maxLength
  rw [h1]
  refine ⟨by omega, ?_⟩
  have := (Nat.lt_digits_length_iff (b := B) (k := (Nat.digits B (2 ^ 64 - 1)).length - 1) (by omega)
    (2 ^ 64 - 1)).1 (by omega)
  omega

theorem parseDigits_eq {ds r : List Byte} (hd : ∀ c ∈ ds, isDig B c = true) (hr : NoDigit B r) :
    parseDigits B (ds ++ r) = (numeral B (ds.take (maxLength B)), (ds.take (maxLength B)).length) := by
  obtain ⟨-, hm⟩ := maxLength_facts hB hB'
  have e : (if (ds ++ r).length ≤ maxLength B then ds ++ r else (ds ++ r).take (maxLength B)) =
      ds.take (maxLength B) ++ r.take (maxLength B - ds.length) := by
    rw [← List.take_append]
    split_ifs with h
    · rw [List.take_of_length_le h]
    · rfl
  have hd' : ∀ c ∈ ds.take (maxLength B), isDig B c = true := fun c hc => hd c (List.mem_of_mem_take hc)
  have hlt : 0 * B ^ (ds.take (maxLength B)).length + numeral B (ds.take (maxLength B)) < 2 ^ 64 := by
    have h1 := numeral_lt hd'
    have h2 : B ^ (ds.take (maxLength B)).length ≤ B ^ maxLength B :=
      Nat.pow_le_pow_right (by omega) (List.length_take_le _ _)
    omega
  unfold parseDigits
  rw [e, uncheckedLoop_eq hB hB' hd' (hr.take _) 0 hlt]
  simp

theorem basePower_small {k : Nat} (h : k ≤ maxLength B) : basePower B k = B ^ k := by
  obtain ⟨-, hm⟩ := maxLength_facts hB hB'
  rw [basePower_eq (by omega), Nat.mod_eq_of_lt]
  exact (Nat.pow_le_pow_right (by omega) h).trans_lt hm

variable {F : Type} [Field F] [CharZero F]

theorem pointLoop_eq {r : List Byte} (hr : NoDigit B r) : ∀ (k : Nat) (ds : List Byte) (st : FloatSt F)
    (i : Nat), (∀ c ∈ ds, isDig B c = true) → ds.length < k →
      pointLoop B k st i (ds ++ r) = (i + ds.length,
        { st with power := st.power / (B : F) ^ ds.length,
                  x := st.x + numeral B ds * (st.power / (B : F) ^ ds.length) }) := by
  obtain ⟨hm1, -⟩ := maxLength_facts hB hB'
  have hBF : (B : F) ≠ 0 := by exact_mod_cast (show B ≠ 0 by omega)
  intro k
  induction k with
  | zero => intro ds st i _ h; omega
  | succ k ih =>
    intro ds st i hd hk
    have e := parseDigits_eq hB hB' hd hr
    rw [pointLoop]
    by_cases h0 : ds = []
    · subst h0
      simp only [List.nil_append] at e ⊢
      have e' : parseDigits B r = (0, 0) := by rw [e]; simp [numeral_nil]
      by_cases hr0 : r = []
      · simp [hr0, numeral_nil]
      · rw [if_neg hr0, e']; simp [numeral_nil]
    · have hlen : 0 < ds.length := List.length_pos_iff.2 h0
      have hne : ¬ (ds ++ r = []) := by simp [h0]
      have hl : (ds.take (maxLength B)).length ≠ 0 := by rw [List.length_take]; omega
      have hle : (ds.take (maxLength B)).length ≤ ds.length := by rw [List.length_take]; omega
      rw [if_neg hne, e]
      simp only
      rw [if_neg hl, basePower_small hB hB' (List.length_take_le _ _),
        List.drop_append_of_le_length hle, ih _ _ _ (fun c hc => hd c (List.mem_of_mem_drop hc))
          (by rw [List.length_drop]; omega)]
      have hsplit : ds = ds.take (maxLength B) ++ ds.drop (ds.take (maxLength B)).length := by
        rw [List.length_take]
        rcases Nat.le_total (maxLength B) ds.length with h | h
        · rw [Nat.min_eq_left h, List.take_append_drop]
        · rw [Nat.min_eq_right h, List.drop_length, List.append_nil, List.take_of_length_le h]
      generalize hA : ds.take (maxLength B) = A at *
      generalize hC : ds.drop A.length = C at *
      subst hsplit
      simp only [List.length_append, numeral_append, Prod.mk.injEq, FloatSt.mk.injEq, true_and]
      refine ⟨by omega, ?_, ?_⟩
      · push_cast; field_simp; ring
      · push_cast; field_simp; ring

/-- What `case states::point` does. -/
noncomputable def pointResult (B : Nat) (st : FloatSt F) (s : List Byte) : Nat × FloatSt F :=
  let fs := s.takeWhile (isDig B)
  (fs.length, { st with power := st.power / (B : F) ^ fs.length,
                        x := st.x + numeral B fs * (st.power / (B : F) ^ fs.length) })

theorem pointLoop_result (st : FloatSt F) (i : Nat) (s : List Byte) :
    pointLoop B (s.length + 1) st i s = (i + (pointResult B st s).1, (pointResult B st s).2) := by
  have h := pointLoop_eq (F := F) hB hB' (noDigit_dropWhile s) (s.length + 1) (s.takeWhile (isDig B)) st i
    (mem_takeWhile_isDig s) (by have := (List.takeWhile_sublist (isDig B) (l := s)).length_le; omega)
  rw [List.takeWhile_append_dropWhile] at h
  exact h

/-- What `case states::integral` does. -/
noncomputable def integralResult (B : Nat) (st : FloatSt F) (s : List Byte) : Nat × FloatSt F :=
  let ds := s.takeWhile (isDig B)
  let st := { st with x := st.x * (B : F) ^ ds.length + numeral B ds }
  let r := s.dropWhile (isDig B)
  if r.head? = some (lit '.') then
    (ds.length + 1 + (pointResult B { st with state := .point } r.tail).1,
      (pointResult B { st with state := .point } r.tail).2)
  else (ds.length, st)

theorem integralLoop_eq {r : List Byte} (hr : NoDigit B r) : ∀ (k : Nat) (ds : List Byte)
    (st : FloatSt F) (i : Nat), (∀ c ∈ ds, isDig B c = true) → ds.length < k →
      integralLoop B k st i (ds ++ r) =
        if r.head? = some (lit '.') then
          pointLoop B (r.tail.length + 1)
            { st with x := st.x * (B : F) ^ ds.length + numeral B ds, state := .point }
            (i + ds.length + 1) r.tail
        else (i + ds.length, { st with x := st.x * (B : F) ^ ds.length + numeral B ds }) := by
  obtain ⟨hm1, -⟩ := maxLength_facts hB hB'
  have hBF : (B : F) ≠ 0 := by exact_mod_cast (show B ≠ 0 by omega)
  intro k
  induction k with
  | zero => intro ds st i _ h; omega
  | succ k ih =>
    intro ds st i hd hk
    have e := parseDigits_eq hB hB' hd hr
    rw [integralLoop]
    by_cases h0 : ds = []
    · subst h0
      simp only [List.nil_append] at e ⊢
      have e' : parseDigits B r = (0, 0) := by rw [e]; simp [numeral_nil]
      cases r with
      | nil => simp [numeral_nil]
      | cons c t =>
        rw [if_neg (by simp), e']
        simp [numeral_nil]
    · have hlen : 0 < ds.length := List.length_pos_iff.2 h0
      have hne : ¬ (ds ++ r = []) := by simp [h0]
      have hl : (ds.take (maxLength B)).length ≠ 0 := by rw [List.length_take]; omega
      have hle : (ds.take (maxLength B)).length ≤ ds.length := by rw [List.length_take]; omega
      rw [if_neg hne, e]
      simp only
      rw [if_neg hl, basePower_small hB hB' (List.length_take_le _ _),
        List.drop_append_of_le_length hle, ih _ _ _ (fun c hc => hd c (List.mem_of_mem_drop hc))
          (by rw [List.length_drop]; omega)]
      have hsplit : ds = ds.take (maxLength B) ++ ds.drop (ds.take (maxLength B)).length := by
        rw [List.length_take]
        rcases Nat.le_total (maxLength B) ds.length with h | h
        · rw [Nat.min_eq_left h, List.take_append_drop]
        · rw [Nat.min_eq_right h, List.drop_length, List.append_nil, List.take_of_length_le h]
      generalize hA : ds.take (maxLength B) = A at *
      generalize hC : ds.drop A.length = C at *
      subst hsplit
      have ex : (st.x * ((B ^ A.length : Nat) : F) + (numeral B A : F)) * (B : F) ^ C.length +
          (numeral B C : F) = st.x * (B : F) ^ (A ++ C).length + (numeral B (A ++ C) : F) := by
        rw [numeral_append, List.length_append]; push_cast; ring
      have ei : i + A.length + C.length = i + (A ++ C).length := by rw [List.length_append]; omega
      simp only [ex, ei]

theorem integralLoop_result (st : FloatSt F) (i : Nat) (s : List Byte) {k : Nat} (hk : s.length < k) :
    integralLoop B k st i s = (i + (integralResult B st s).1, (integralResult B st s).2) := by
  have h := integralLoop_eq (F := F) hB hB' (noDigit_dropWhile s) k (s.takeWhile (isDig B)) st i
    (mem_takeWhile_isDig s) (by have := (List.takeWhile_sublist (isDig B) (l := s)).length_le; omega)
  rw [List.takeWhile_append_dropWhile] at h
  rw [h]
  unfold integralResult
  simp only
  split_ifs
  · rw [pointLoop_result hB hB']
    simp only [Prod.mk.injEq, and_true]; omega
  · rfl

/-- What `case states::sign` does. -/
noncomputable def signResult (B : Nat) (st : FloatSt F) (s : List Byte) : Nat × FloatSt F :=
  if s.takeWhile (isDig B) = [] then (0, st)
  else integralResult B { st with x := 0, state := .integral } s

theorem signStep_result (st : FloatSt F) (i : Nat) (s : List Byte) :
    signStep B st i s = (i + (signResult B st s).1, (signResult B st s).2) := by
  obtain ⟨hm1, -⟩ := maxLength_facts hB hB'
  have hd := mem_takeWhile_isDig (B := B) s
  have hr := noDigit_dropWhile (B := B) s
  have e := parseDigits_eq hB hB' hd hr
  rw [List.takeWhile_append_dropWhile] at e
  unfold signStep signResult
  rw [e]
  simp only
  by_cases h0 : s.takeWhile (isDig B) = []
  · rw [h0]; simp
  · have hlen : 0 < (s.takeWhile (isDig B)).length := List.length_pos_iff.2 h0
    have hl : ((s.takeWhile (isDig B)).take (maxLength B)).length ≠ 0 := by
      rw [List.length_take]; omega
    rw [if_neg h0, if_neg hl]
    have hle : ((s.takeWhile (isDig B)).take (maxLength B)).length ≤ (s.takeWhile (isDig B)).length := by
      rw [List.length_take]; omega
    -- one more iteration of the loop on the whole text
    have step : integralLoop B (s.length + 1 + 1) { st with x := 0, state := .integral } i s =
        integralLoop B (s.length + 1)
          { st with x := (numeral B ((s.takeWhile (isDig B)).take (maxLength B)) : F), state := .integral }
          (i + ((s.takeWhile (isDig B)).take (maxLength B)).length)
          (s.drop ((s.takeWhile (isDig B)).take (maxLength B)).length) := by
      conv => lhs; rw [integralLoop]
      have hs : ¬ s = [] := by rintro rfl; simp at h0
      rw [if_neg hs, e]
      simp only
      rw [if_neg hl]
      simp
    rw [← step, integralLoop_result hB hB' _ _ _ (by omega)]

/-- What `parse` does on a non-empty input. -/
noncomputable def floatResult (B : Nat) (st : FloatSt F) (s : List Byte) : Nat × FloatSt F :=
  match st.state with
  | .empty =>
    let i := if s.head? = some (lit '-') ∨ s.head? = some (lit '+') then 1 else 0
    let st' := { st with negate := st.negate || decide (s.head? = some (lit '-')), state := .sign }
    (i + (signResult B st' (s.drop i)).1, (signResult B st' (s.drop i)).2)
  | .sign => signResult B st s
  | .integral => integralResult B st s
  | .point => pointResult B st s

theorem floatParse_eq (st : FloatSt F) {s : List Byte} (hs : s ≠ []) :
    floatParse B st s = some (floatResult B st s) := by
  obtain ⟨state, negate, x, power⟩ := st
  cases state with
  | sign =>
    simp only [floatParse, floatResult]
    rw [signStep_result hB hB']; simp
  | integral =>
    simp only [floatParse, floatResult]
    rw [integralLoop_result hB hB' _ _ _ (by omega)]; simp
  | point =>
    simp only [floatParse, floatResult]
    rw [pointLoop_result hB hB']; simp
  | empty =>
    cases s with
    | nil => exact absurd rfl hs
    | cons c t =>
      have hne : lit '+' ≠ lit '-' := by decide
      have key : signParse true negate (c :: t) = some
          (if (c :: t).head? = some (lit '-') ∨ (c :: t).head? = some (lit '+') then 1 else 0,
            negate || decide ((c :: t).head? = some (lit '-'))) := by
        by_cases h1 : c = lit '-'
        · simp [signParse, h1]
        · by_cases h2 : c = lit '+'
          · simp [signParse, h2, hne]
          · simp [signParse, h1, h2]
      simp only [floatParse, floatResult]
      rw [key]
      simp only
      generalize (if (c :: t).head? = some (lit '-') ∨ (c :: t).head? = some (lit '+') then 1 else 0) = i
      split_ifs with h
      · rw [List.drop_of_length_le (by omega)]; simp [signResult]
      · rw [signStep_result hB hB']

omit hB hB' [CharZero F] in
theorem pointResult_digit {c : Byte} {t : List Byte} (h0 : (B : F) ≠ 0) (h : isDig B c = true) (st : FloatSt F) :
    pointResult B st [c] = (1, { st with power := st.power / B, x := st.x + dval c * (st.power / B) }) ∧
    pointResult B st (c :: t) =
      (1 + (pointResult B (pointResult B st [c]).2 t).1, (pointResult B (pointResult B st [c]).2 t).2) := by
  have e1 : pointResult B st [c] =
      (1, { st with power := st.power / B, x := st.x + dval c * (st.power / B) }) := by
    simp [pointResult, h, numeral_cons, numeral_nil]
  refine ⟨e1, ?_⟩
  rw [e1]
  simp only [pointResult, List.takeWhile_cons, h, if_true, List.length_cons, numeral_cons,
    Prod.mk.injEq, FloatSt.mk.injEq, true_and]
  refine ⟨by omega, ?_, ?_⟩
  · push_cast; field_simp; ring
  · field_simp; ring

omit hB hB' [CharZero F] in
theorem integralResult_digit {c : Byte} (h : isDig B c = true) (st : FloatSt F) (t : List Byte) :
    integralResult B st (c :: t) =
      (1 + (integralResult B { st with x := st.x * B + dval c } t).1,
        (integralResult B { st with x := st.x * B + dval c } t).2) := by
  have e : st.x * (B : F) ^ ((t.takeWhile (isDig B)).length + 1) +
      ((dval c * B ^ (t.takeWhile (isDig B)).length + numeral B (t.takeWhile (isDig B)) : Nat) : F) =
      (st.x * B + dval c) * (B : F) ^ (t.takeWhile (isDig B)).length +
        (numeral B (t.takeWhile (isDig B)) : F) := by
    push_cast; ring
  simp only [integralResult, List.takeWhile_cons, List.dropWhile_cons, h, if_true, List.length_cons,
    numeral_cons, e]
  split_ifs
  · simp only [Prod.mk.injEq, and_true]; omega
  · simp only [Prod.mk.injEq, and_true]; omega

omit hB hB' [CharZero F] in
theorem integralResult_nil (st : FloatSt F) : integralResult B st [] = (0, st) := by
  simp [integralResult, numeral_nil]

omit hB hB' [CharZero F] in
theorem pointResult_nil (st : FloatSt F) : pointResult B st [] = (0, st) := by
  simp [pointResult, numeral_nil]

omit hB hB' [CharZero F] in
theorem integralResult_other {c : Byte} (h : isDig B c = false) (st : FloatSt F) (t : List Byte) :
    integralResult B st (c :: t) =
      if c = lit '.' then
        (1 + (pointResult B { st with state := .point } t).1, (pointResult B { st with state := .point } t).2)
      else (0, st) := by
  simp [integralResult, h, numeral_nil]

omit hB hB' [CharZero F] in
theorem signResult_digit {c : Byte} (h : isDig B c = true) (st : FloatSt F) (t : List Byte) :
    signResult B st (c :: t) =
      (1 + (integralResult B { st with x := (dval c : F), state := .integral } t).1,
        (integralResult B { st with x := (dval c : F), state := .integral } t).2) := by
  have : (c :: t).takeWhile (isDig B) ≠ [] := by simp [h]
  rw [signResult, if_neg this, integralResult_digit h]
  simp

omit hB hB' [CharZero F] in
theorem signResult_other {c : Byte} (h : isDig B c = false) (st : FloatSt F) (t : List Byte) :
    signResult B st (c :: t) = (0, st) := by
  have : (c :: t).takeWhile (isDig B) = [] := by simp [h]
  rw [signResult, if_pos this]

omit hB hB' [CharZero F] in
theorem signResult_nil (st : FloatSt F) : signResult B st [] = (0, st) := by
  simp [signResult]

omit hB hB' [CharZero F] in
theorem pointResult_other {c : Byte} (h : isDig B c = false) (st : FloatSt F) (t : List Byte) :
    pointResult B st (c :: t) = (0, st) := by
  simp [pointResult, h, numeral_nil]

omit hB hB' in
theorem dot_not_digit : isDig B (lit '.') = false := by
  have : digitVal (lit '.') = none := by decide
  simp [isDig, this]

/-- The parser works character by character. -/
theorem floatResult_step (st : FloatSt F) (c : Byte) : ∃ n st', n ≤ 1 ∧ floatResult B st [c] = (n, st') ∧
    ∀ t, floatResult B st (c :: t) =
      if n = 1 then (1 + (floatResult B st' t).1, (floatResult B st' t).2) else (n, st') := by
  have hBF : (B : F) ≠ 0 := by exact_mod_cast (show B ≠ 0 by omega)
  obtain ⟨state, negate, x, power⟩ := st
  -- after the sign
  have hsign : ∀ negate, ∃ n st', n ≤ 1 ∧
      signResult B (⟨.sign, negate, x, power⟩ : FloatSt F) [c] = (n, st') ∧
      ∀ t, signResult B (⟨.sign, negate, x, power⟩ : FloatSt F) (c :: t) =
        if n = 1 then (1 + (floatResult B st' t).1, (floatResult B st' t).2) else (n, st') := by
    intro negate
    cases h : isDig B c with
    | true =>
      refine ⟨1, ⟨.integral, negate, dval c, power⟩, le_rfl, ?_, fun t => ?_⟩
      · rw [signResult_digit h, integralResult_nil]; rfl
      · rw [signResult_digit h, if_pos rfl]; rfl
    | false =>
      refine ⟨0, ⟨.sign, negate, x, power⟩, by omega, ?_, fun t => ?_⟩
      · rw [signResult_other h]
      · rw [signResult_other h]; rfl
  cases state with
  | sign => exact hsign negate
  | point =>
    cases h : isDig B c with
    | true =>
      refine ⟨1, _, le_rfl, (pointResult_digit (t := []) hBF h _).1, fun t => ?_⟩
      have e := (pointResult_digit (t := t) hBF h (⟨.point, negate, x, power⟩ : FloatSt F)).2
      rw [(pointResult_digit (t := []) hBF h _).1] at e
      rw [if_pos rfl]
      exact e
    | false =>
      refine ⟨0, _, by omega, pointResult_other h _ _, fun t => ?_⟩
      rw [if_neg (by omega)]
      exact pointResult_other h _ _
  | integral =>
    cases h : isDig B c with
    | true =>
      refine ⟨1, ⟨.integral, negate, x * B + dval c, power⟩, le_rfl, ?_, fun t => ?_⟩
      · simp only [floatResult]
        rw [integralResult_digit h, integralResult_nil]; rfl
      · rw [if_pos rfl]
        simp only [floatResult]
        rw [integralResult_digit h]
    | false =>
      by_cases hd : c = lit '.'
      · refine ⟨1, ⟨.point, negate, x, power⟩, le_rfl, ?_, fun t => ?_⟩
        · simp only [floatResult]
          rw [integralResult_other h, if_pos hd, pointResult_nil]; rfl
        · rw [if_pos rfl]
          simp only [floatResult]
          rw [integralResult_other h, if_pos hd]
      · refine ⟨0, ⟨.integral, negate, x, power⟩, by omega, ?_, fun t => ?_⟩
        · simp only [floatResult]
          rw [integralResult_other h, if_neg hd]
        · rw [if_neg (by omega)]
          simp only [floatResult]
          rw [integralResult_other h, if_neg hd]
  | empty =>
    by_cases hs : c = lit '-' ∨ c = lit '+'
    · refine ⟨1, ⟨.sign, negate || decide (c = lit '-'), x, power⟩, le_rfl, ?_, fun t => ?_⟩
      · simp [floatResult, hs, signResult_nil]
      · simp [floatResult, hs]
    · obtain ⟨n, st', hn, h1, h2⟩ := hsign (negate || decide (c = lit '-'))
      refine ⟨n, st', hn, ?_, fun t => ?_⟩
      · simp only [floatResult, List.head?_cons, Option.some.injEq, hs, if_false, List.drop_zero]
        rw [h1]; simp
      · simp only [floatResult, List.head?_cons, Option.some.injEq, hs, if_false, List.drop_zero]
        have := h2 t
        simp only [floatResult] at this
        rw [this]; simp

/-- The parser works character by character. -/
theorem floatParse_stepLaw : StepLaw (fun _ : FloatSt F => True) (floatParse B) := by
  constructor
  · intro st c _
    obtain ⟨n, st', hn, h1, -⟩ := floatResult_step hB hB' st c
    exact ⟨n, st', by rw [floatParse_eq hB hB' _ (by simp), h1], hn, trivial⟩
  · intro st c t _ ht
    obtain ⟨n, st', hn, h1, h2⟩ := floatResult_step hB hB' st c
    rw [floatParse_eq hB hB' _ (by simp), floatParse_eq hB hB' _ (by simp), h1, h2]
    simp only
    split_ifs
    · rw [floatParse_eq hB hB' _ ht]
    · rfl

end digits

end Actl.IntText
