import Verif.Model.IntParse
import Verif.Spec.IntText
import Verif.Lemmas.Parser
import Verif.Props.Text
import Mathlib.Tactic.Ring
import Mathlib.Data.Nat.Digits.Lemmas
import Mathlib.Tactic.Linarith

namespace Actl.IntText

open Actl.Text Actl.Parser

/-- Add to the count of a result. -/
def shift {σ : Type} (i : Nat) : Option (Nat × σ) → Option (Nat × σ)
  | none => none
  | some (n, st) => some (i + n, st)

theorem stepValue_shift (w : Nat) (st : IntSt) (i : Nat) (r : List Byte) :
    stepValue w st i r = shift i (stepValue w st 0 r) := by
  unfold stepValue
  cases uintParse w st.inner r with
  | none => rfl
  | some p => simp [shift]

theorem stepSign_shift (w : Nat) (signed : Bool) (st : IntSt) (i : Nat) (r : List Byte) :
    stepSign w signed st i r = shift i (stepSign w signed st 0 r) := by
  unfold stepSign
  cases baseParse st.base r with
  | none => rfl
  | some p =>
    simp only
    split
    · simp [shift]
    · rw [stepValue_shift, stepValue_shift (i := 0 + p.1)]
      cases stepValue w _ 0 (r.drop p.1) with
      | none => rfl
      | some q => simp [shift]; omega

/-- The law in terms of `shift`. -/
theorem uintParse_step (w : Nat) (st : UintSt) (c : Byte) (t : List Byte) (ht : t ≠ []) :
    ∃ n st', uintParse w st [c] = some (n, st') ∧ n ≤ 1 ∧
      uintParse w st (c :: t) = if n = 1 then shift 1 (uintParse w st' t) else some (n, st') := by
  have hloop : ∀ state x (t : List Byte), ∃ n s' x',
      uintLoop w st.base st.max state x [c] = (n, s', x') ∧ n ≤ 1 ∧
      (s' = .empty → state = .empty) ∧
      uintLoop w st.base st.max state x (c :: t) =
        if n = 1 then (let (m, r) := uintLoop w st.base st.max s' x' t; (m + 1, r)) else (n, s', x') := by
    intro state x t
    simp only [uintLoop]
    by_cases hd : toDigit w st.base c < st.base
    · simp only [hd, not_true_eq_false, if_false]
      split
      · exact ⟨_, _, _, rfl, by omega, by simp, by simp⟩
      · exact ⟨_, _, _, rfl, by omega, by simp, by simp⟩
    · simp only [hd, not_false_eq_true, if_true]
      exact ⟨_, _, _, rfl, by omega, by simp, by simp⟩
  by_cases he : st.state = .empty
  · simp only [uintParse, he]
    by_cases hd : toDigit w st.base c < st.base
    · simp only [hd, if_true, uintLoop]
      refine ⟨_, _, rfl, by omega, ?_⟩
      simp only [Nat.zero_add, if_true, shift, Option.some.injEq, Prod.mk.injEq, and_true]
      omega
    · simp only [hd, if_false]
      exact ⟨_, _, rfl, by omega, by simp⟩
  · have hrw : ∀ s (st2 : UintSt), st2.state ≠ .empty → uintParse w st2 s =
        some ((uintLoop w st2.base st2.max st2.state st2.x s).1,
          { st2 with state := (uintLoop w st2.base st2.max st2.state st2.x s).2.1,
                     x := (uintLoop w st2.base st2.max st2.state st2.x s).2.2 }) := by
      intro s st2 h2
      unfold uintParse
      cases hs : st2.state with
      | empty => exact absurd hs h2
      | ok => rfl
      | overflow => rfl
    obtain ⟨n, s', x', h1, h2, h3, h4⟩ := hloop st.state st.x t
    rw [hrw _ st he, hrw _ st he, h1, h4]
    refine ⟨_, _, rfl, h2, ?_⟩
    simp only
    by_cases hn : n = 1
    · rw [if_pos hn, if_pos hn, hrw _ _ (fun e => he (h3 e))]
      simp only [shift, Option.some.injEq, Prod.mk.injEq, and_true]
      omega
    · rw [if_neg hn, if_neg hn]

theorem stepValue_step (w : Nat) (st : IntSt) (c : Byte) (t : List Byte) (ht : t ≠ []) :
    ∃ n st', stepValue w st 0 [c] = some (n, st') ∧ n ≤ 1 ∧ st'.state = st.state ∧
      stepValue w st 0 (c :: t) = if n = 1 then shift 1 (stepValue w st' 0 t) else some (n, st') := by
  obtain ⟨n, u', h1, h2, h3⟩ := uintParse_step w st.inner c t ht
  unfold stepValue
  rw [h1, h3]
  refine ⟨0 + n, _, rfl, by omega, rfl, ?_⟩
  by_cases hn : n = 1
  · simp only [hn, if_true]
    cases uintParse w u' t with
    | none => rfl
    | some p => simp [shift]
  · simp [hn]

/-- The law for states `sign` and `value`. -/
theorem stepSign_step (w : Nat) (signed : Bool) (st : IntSt) (hst : st.state = .sign)
    (c : Byte) (t : List Byte) (ht : t ≠ []) :
    ∃ n st', stepSign w signed st 0 [c] = some (n, st') ∧ n ≤ 1 ∧
      ((st'.state = .sign ∧ stepSign w signed st 0 (c :: t) =
          if n = 1 then shift 1 (stepSign w signed st' 0 t) else some (n, st')) ∨
       (st'.state = .value ∧ stepSign w signed st 0 (c :: t) =
          if n = 1 then shift 1 (stepValue w st' 0 t) else some (n, st'))) := by
  -- the case in which the base parser consumes nothing
  have hzero : ∀ base', baseParse st.base [c] = some (0, base') →
      baseParse st.base (c :: t) = some (0, base') → base'.state ≠ .empty →
      ∃ n st', stepSign w signed st 0 [c] = some (n, st') ∧ n ≤ 1 ∧
      ((st'.state = .sign ∧ stepSign w signed st 0 (c :: t) =
          if n = 1 then shift 1 (stepSign w signed st' 0 t) else some (n, st')) ∨
       (st'.state = .value ∧ stepSign w signed st 0 (c :: t) =
          if n = 1 then shift 1 (stepValue w st' 0 t) else some (n, st'))) := by
    intro base' h1 h2 h3
    obtain ⟨n, st', e1, e2, e3, e4⟩ := stepValue_step w
      { st with base := base', state := .value,
                inner := { st.inner with base := base'.base, max := maxAbs w signed st.negate } }
      c t ht
    refine ⟨n, st', ?_, e2, Or.inr ⟨e3, ?_⟩⟩
    · unfold stepSign
      rw [h1]
      simp only [List.length_cons, List.length_nil, List.drop_zero, h3, or_false]
      rw [if_neg (by omega)]
      exact e1
    · unfold stepSign
      rw [h2]
      simp only [List.length_cons, List.drop_zero, h3, or_false]
      rw [if_neg (by omega)]
      exact e4
  cases hb : st.base.state with
  | done =>
    apply hzero st.base
    · simp [baseParse, hb]
    · simp [baseParse, hb]
    · simp [hb]
  | zero =>
    cases hpb : parseBase st.base.base c with
    | mk ok b =>
      cases ok with
      | false =>
        apply hzero ⟨.zero, b⟩
        · simp [baseParse, hb, baseZero, hpb]
        · simp [baseParse, hb, baseZero, hpb]
        · simp
      | true =>
        have h1 : baseParse st.base [c] = some (1, ⟨.done, b⟩) := by
          simp [baseParse, hb, baseZero, hpb]
        have h2 : baseParse st.base (c :: t) = some (1, ⟨.done, b⟩) := by
          simp [baseParse, hb, baseZero, hpb]
        have htl : t.length ≠ 0 := by simpa using ht
        refine ⟨1, { st with base := ⟨.done, b⟩ }, ?_, by omega, Or.inl ⟨hst, ?_⟩⟩
        · unfold stepSign; rw [h1]; simp
        · have h3 : baseParse ⟨.done, b⟩ t = some (0, ⟨.done, b⟩) := rfl
          rw [if_pos rfl]
          conv => lhs; unfold stepSign
          rw [h2]
          simp only [List.length_cons, reduceCtorEq, or_false, List.drop_succ_cons, List.drop_zero]
          rw [if_neg (by omega), stepValue_shift]
          conv => rhs; unfold stepSign
          simp only [h3, reduceCtorEq, or_false, List.drop_zero]
          rw [if_neg (by omega)]
  | empty =>
    by_cases hc : c = lit '0'
    · have h1 : baseParse st.base [c] = some (1, ⟨.zero, st.base.base⟩) := by
        simp [baseParse, hb, hc, baseZero]
      refine ⟨1, { st with base := ⟨.zero, st.base.base⟩ }, ?_, by omega, Or.inl ⟨hst, ?_⟩⟩
      · unfold stepSign; rw [h1]; simp
      · rw [if_pos rfl]
        cases t with
        | nil => exact absurd rfl ht
        | cons d t' =>
          have h2 : baseParse st.base (c :: d :: t') =
              some (baseZero ⟨.zero, st.base.base⟩ 1 (d :: t')) := by simp [baseParse, hb, hc]
          have h3 : baseParse ⟨.zero, st.base.base⟩ (d :: t') =
              some (baseZero ⟨.zero, st.base.base⟩ 0 (d :: t')) := rfl
          unfold stepSign
          simp only [h2, h3, baseZero]
          cases hpb : parseBase st.base.base d with
          | mk ok b =>
            cases ok with
            | true =>
              simp only [if_true, List.length_cons, reduceCtorEq, or_false]
              by_cases hl : t'.length = 0
              · rw [if_pos (by omega), if_pos (by omega)]; simp [shift]
              · rw [if_neg (by omega), if_neg (by omega), stepValue_shift,
                  stepValue_shift (i := 0 + (0 + 1))]
                simp only [List.drop_succ_cons, List.drop_zero]
                cases stepValue w _ 0 t' with
                | none => rfl
                | some p => simp [shift]; omega
            | false =>
              simp only [Bool.false_eq_true, if_false, List.length_cons, reduceCtorEq, or_false]
              rw [if_neg (by omega), stepValue_shift]
              simp only [List.drop_succ_cons, List.drop_zero, Nat.zero_add]
    · apply hzero ⟨.done, setBase st.base.base 10⟩
      · simp [baseParse, hb, hc]
      · simp [baseParse, hb, hc]
      · simp

theorem intParse_stepLaw (w : Nat) (signed : Bool) : StepLaw (fun _ => True) (intParse w signed) := by
  have conv : ∀ n (st' : IntSt) (r : Option (Nat × IntSt)),
      (if n = 1 then shift 1 r else some (n, st')) =
      (if n = 1 then (match r with | none => none | some (m, st'') => some (1 + m, st''))
        else some (n, st')) := by
    intro n st' r; cases r <;> rfl
  have key : ∀ st c t, t ≠ [] → ∃ n st', intParse w signed st [c] = some (n, st') ∧ n ≤ 1 ∧
      intParse w signed st (c :: t) =
        if n = 1 then shift 1 (intParse w signed st' t) else some (n, st') := by
    intro st c t ht
    have hsignCase : ∀ st : IntSt, st.state = .sign → ∃ n st',
        stepSign w signed st 0 [c] = some (n, st') ∧ n ≤ 1 ∧
        stepSign w signed st 0 (c :: t) =
          if n = 1 then shift 1 (intParse w signed st' t) else some (n, st') := by
      intro st hs
      obtain ⟨n, st', h1, h2, h3⟩ := stepSign_step w signed st hs c t ht
      refine ⟨n, st', h1, h2, ?_⟩
      rcases h3 with ⟨h3, h4⟩ | ⟨h3, h4⟩
      · rw [h4]; simp [intParse, h3]
      · rw [h4]; simp [intParse, h3]
    cases hs : st.state with
    | value =>
      obtain ⟨n, st', h1, h2, h3, h4⟩ := stepValue_step w st c t ht
      refine ⟨n, st', by simp only [intParse, hs]; exact h1, h2, ?_⟩
      simp only [intParse, hs, h3]
      exact h4
    | sign =>
      obtain ⟨n, st', h1, h2, h3⟩ := hsignCase st hs
      refine ⟨n, st', by simp only [intParse, hs]; exact h1, h2, ?_⟩
      conv => lhs; simp only [intParse, hs]
      exact h3
    | empty =>
      have hsp : ∃ i neg, i ≤ 1 ∧ (∀ t, signParse signed st.negate (c :: t) = some (i, neg)) := by
        simp only [signParse]
        split
        · exact ⟨_, _, by omega, fun _ => rfl⟩
        · exact ⟨_, _, by split <;> omega, fun _ => rfl⟩
      obtain ⟨i, neg, hi, hsp⟩ := hsp
      have htl : t.length ≠ 0 := by simpa using ht
      by_cases h1 : i = 1
      · subst h1
        refine ⟨1, { st with negate := neg, state := .sign }, ?_, by omega, ?_⟩
        · simp [intParse, hs, hsp]
        · conv => lhs; simp only [intParse, hs, hsp]
          simp only [List.length_cons, List.drop_succ_cons, List.drop_zero, if_true]
          rw [if_neg (by omega), stepSign_shift]
          rfl
      · have h0 : i = 0 := by omega
        subst h0
        obtain ⟨n, st', e1, e2, e3⟩ := hsignCase { st with negate := neg, state := .sign } rfl
        refine ⟨n, st', ?_, e2, ?_⟩
        · simp only [intParse, hs, hsp, List.length_cons, List.length_nil, List.drop_zero]
          rw [if_neg (by omega)]
          exact e1
        · conv => lhs; simp only [intParse, hs, hsp]
          simp only [List.length_cons, List.drop_zero]
          rw [if_neg (by omega)]
          exact e3
  constructor
  · intro st c _
    obtain ⟨n, st', h1, h2, -⟩ := key st c [c] (by simp)
    exact ⟨n, st', h1, h2, trivial⟩
  · intro st c t _ ht
    obtain ⟨n, st', h1, h2, h3⟩ := key st c t ht
    simp only [h1, h3]
    split
    · cases intParse w signed st' t <;> rfl
    · rfl

/-! ### Digits -/

theorem digit_table (c : Byte) :
    (isDigit c = true → 48 ≤ c.toInt ∧ c.toInt ≤ 57 ∧ digitVal c = some (c.toInt - 48).toNat) ∧
    (isDigit c = false → c.toInt < 48 ∨ 57 < c.toInt) ∧
    (isDigit c = false → isUpper c = true → 65 ≤ c.toInt ∧ c.toInt ≤ 90 ∧
      digitVal c = some (c.toInt - 55).toNat) ∧
    (isDigit c = false → isUpper c = false → isLower c = true → 97 ≤ c.toInt ∧ c.toInt ≤ 122 ∧
      digitVal c = some (c.toInt - 87).toNat) ∧
    (isDigit c = false → isUpper c = false → isLower c = false → digitVal c = none) ∧
    -128 ≤ c.toInt ∧ c.toInt ≤ 127 := by
  exact ⟨
    of_decide_eq_true (forall_byte (p := fun c => decide (isDigit c = true → 48 ≤ c.toInt ∧ c.toInt ≤ 57 ∧ digitVal c = some (c.toInt - 48).toNat)) (by decide +kernel) c),
    of_decide_eq_true (forall_byte (p := fun c => decide (isDigit c = false → c.toInt < 48 ∨ 57 < c.toInt)) (by decide +kernel) c),
    of_decide_eq_true (forall_byte (p := fun c => decide (isDigit c = false → isUpper c = true → 65 ≤ c.toInt ∧ c.toInt ≤ 90 ∧
      digitVal c = some (c.toInt - 55).toNat)) (by decide +kernel) c),
    of_decide_eq_true (forall_byte (p := fun c => decide (isDigit c = false → isUpper c = false → isLower c = true → 97 ≤ c.toInt ∧ c.toInt ≤ 122 ∧
      digitVal c = some (c.toInt - 87).toNat)) (by decide +kernel) c),
    of_decide_eq_true (forall_byte (p := fun c => decide (isDigit c = false → isUpper c = false → isLower c = false → digitVal c = none)) (by decide +kernel) c),
    of_decide_eq_true (forall_byte (p := fun c => decide (-128 ≤ c.toInt)) (by decide +kernel) c),
    of_decide_eq_true (forall_byte (p := fun c => decide (c.toInt ≤ 127)) (by decide +kernel) c)⟩

theorem toUInt_small {w : Nat} (hw : 8 ≤ w) {x : Int} (h0 : 0 ≤ x) (h1 : x < 256) :
    toUInt w x = x.toNat := by
  have : (256 : Int) ≤ 2 ^ w := by
    calc (256 : Int) = 2 ^ 8 := by norm_num
      _ ≤ 2 ^ w := pow_le_pow_right₀ (by norm_num) hw
  unfold toUInt
  rw [Int.emod_eq_of_lt h0 (by omega)]

theorem toUInt_neg {w : Nat} (hw : 8 ≤ w) {x : Int} (h0 : -176 ≤ x) (h1 : x < 0) :
    36 ≤ toUInt w x := by
  have : (256 : Int) ≤ 2 ^ w := by
    calc (256 : Int) = 2 ^ 8 := by norm_num
      _ ≤ 2 ^ w := pow_le_pow_right₀ (by norm_num) hw
  unfold toUInt
  rw [← Int.add_emod_right, Int.emod_eq_of_lt (by omega) (by omega)]
  omega

/-- `to_digit` recognizes exactly the digits of the base. -/
theorem toDigit_spec {w B : Nat} (hw : 8 ≤ w) (hB : 2 ≤ B) (hB' : B ≤ 36) (c : Byte) :
    (toDigit w B c < B ↔ isDig B c = true) ∧ (isDig B c = true → toDigit w B c = dval c) := by
  obtain ⟨t1, t2, t3, t4, t5, t6, t7⟩ := digit_table c
  have hpow : (256 : Nat) ≤ 2 ^ w := by
    calc (256 : Nat) = 2 ^ 8 := by norm_num
      _ ≤ 2 ^ w := Nat.pow_le_pow_right (by norm_num) hw
  have hneg : ∀ x : Int, -176 ≤ x → x < 0 → ¬ toUInt w x < B := fun x h h' => by
    have := toUInt_neg hw h h'; omega
  unfold toDigit isDig dval
  cases hd : isDigit c with
  | true =>
    obtain ⟨a, b, e⟩ := t1 hd
    have : (if B ≤ 10 then toUInt w (c.toInt - 48)
      else if true = true then toUInt w (c.toInt - 48)
      else if isUpper c then toUInt w (c.toInt - 65 + 10)
      else if isLower c then toUInt w (c.toInt - 97 + 10)
      else 2 ^ w - 1) = (c.toInt - 48).toNat := by
      rw [if_pos rfl, ite_self, toUInt_small hw (by omega) (by omega)]
    rw [this, e]
    simp
  | false =>
    have t2 := t2 hd
    by_cases h10 : B ≤ 10
    · rw [if_pos h10]
      have hn : ¬ toUInt w (c.toInt - 48) < B := by
        by_cases hc : c.toInt < 48
        · exact hneg _ (by omega) (by omega)
        · rw [toUInt_small hw (by omega) (by omega)]; omega
      have hf : isDig B c = false := by
        unfold isDig
        cases hu : isUpper c with
        | true => obtain ⟨a, b, e⟩ := t3 hd hu; rw [e]; simp only [decide_eq_false_iff_not]; omega
        | false =>
          cases hl : isLower c with
          | true => obtain ⟨a, b, e⟩ := t4 hd hu hl; rw [e]; simp only [decide_eq_false_iff_not]; omega
          | false => rw [t5 hd hu hl]
      unfold isDig at hf
      rw [hf]
      simp [hn]
    · rw [if_neg h10, if_neg (by simp)]
      cases hu : isUpper c with
      | true =>
        obtain ⟨a, b, e⟩ := t3 hd hu
        rw [if_pos rfl, e, toUInt_small hw (by omega) (by omega)]
        simp only [decide_eq_true_eq, Option.getD_some]
        constructor
        · omega
        · intro; omega
      | false =>
        cases hl : isLower c with
        | true =>
          obtain ⟨a, b, e⟩ := t4 hd hu hl
          rw [if_neg (by simp), if_pos rfl, e, toUInt_small hw (by omega) (by omega)]
          simp only [decide_eq_true_eq, Option.getD_some]
          constructor
          · omega
          · intro; omega
        | false =>
          rw [if_neg (by simp), if_neg (by simp), t5 hd hu hl]
          simp only [Bool.false_eq_true, iff_false, false_imp_iff, and_true]
          omega

theorem dval_lt {B : Nat} {c : Byte} (h : isDig B c = true) : dval c < B := by
  unfold isDig at h
  unfold dval
  cases hd : digitVal c with
  | none => rw [hd] at h; simp at h
  | some d => rw [hd] at h; simpa using h

theorem numeral_cons (B : Nat) (c : Byte) (ds : List Byte) :
    numeral B (c :: ds) = dval c * B ^ ds.length + numeral B ds := by
  unfold numeral
  rw [List.map_cons, List.reverse_cons, Nat.ofDigits_append]
  simp
  ring

theorem numeral_nil (B : Nat) : numeral B [] = 0 := rfl

/-! ### The digit loop -/

section loop
variable {w B max : Nat} (hw : 8 ≤ w) (hB : 2 ≤ B) (hB' : B ≤ 36)
include hw hB hB'

theorem uintLoop_count (s : List Byte) (state : UintState) (x : Nat) :
    (uintLoop w B max state x s).1 = (s.takeWhile (isDig B)).length := by
  induction s generalizing state x with
  | nil => rfl
  | cons c s ih =>
    obtain ⟨h1, -⟩ := toDigit_spec hw hB hB' c
    simp only [uintLoop]
    cases hc : isDig B c with
    | false =>
      rw [if_pos (by rw [h1, hc]; simp)]
      simp [hc]
    | true =>
      rw [if_neg (by rw [h1, hc]; simp)]
      simp [hc, ih]

theorem uintLoop_overflow (s : List Byte) (x : Nat) :
    (uintLoop w B max .overflow x s).2.1 = .overflow := by
  induction s generalizing x with
  | nil => rfl
  | cons c s ih =>
    simp only [uintLoop]
    split
    · rfl
    · simp only
      split
      · exact ih _
      · exact ih _

theorem uintLoop_ok (hmax : max < 2 ^ w) (s : List Byte) (x : Nat) (hx : x ≤ max) :
    let ds := s.takeWhile (isDig B)
    let v := x * B ^ ds.length + numeral B ds
    (v ≤ max → (uintLoop w B max .ok x s).2 = (.ok, v)) ∧
    (max < v → (uintLoop w B max .ok x s).2.1 = .overflow) := by
  induction s generalizing x with
  | nil => simp [uintLoop, numeral_nil]; omega
  | cons c s ih =>
    obtain ⟨h1, h2⟩ := toDigit_spec hw hB hB' c
    simp only [uintLoop]
    cases hc : isDig B c with
    | false =>
      rw [if_pos (by rw [h1, hc]; simp)]
      simp [hc, numeral_nil]
      omega
    | true =>
      rw [if_neg (by rw [h1, hc]; simp), h2 hc]
      have hd := dval_lt hc
      simp only [List.takeWhile_cons, hc, if_true, List.length_cons, numeral_cons]
      set k := (s.takeWhile (isDig B)).length
      have hcond : (max / B < x ∨ (max / B = x ∧ max % B < dval c)) ↔ max < x * B + dval c := by
        have hdm := Nat.div_add_mod max B
        have hm : max % B < B := Nat.mod_lt _ (by omega)
        constructor
        · rintro (h | ⟨h, h'⟩)
          · have : B * (max / B + 1) ≤ B * x := Nat.mul_le_mul_left _ h
            rw [Nat.mul_comm x B]
            rw [Nat.mul_add] at this
            omega
          · rw [← h, Nat.mul_comm (max / B) B]
            omega
        · intro h
          by_contra hn
          push Not at hn
          rcases Nat.lt_or_eq_of_le hn.1 with h' | h'
          · have : B * (x + 1) ≤ B * (max / B) := Nat.mul_le_mul_left _ h'
            rw [Nat.mul_add] at this
            rw [Nat.mul_comm x B] at h
            omega
          · have := hn.2 h'.symm
            rw [h', Nat.mul_comm] at h
            omega
      have hv : x * B ^ (k + 1) + (dval c * B ^ k + numeral B (s.takeWhile (isDig B))) =
          (x * B + dval c) * B ^ k + numeral B (s.takeWhile (isDig B)) := by ring
      rw [hv]
      by_cases ho : max < x * B + dval c
      · rw [if_pos (hcond.mpr ho)]
        have hbig : max < (x * B + dval c) * B ^ k + numeral B (s.takeWhile (isDig B)) := by
          have : x * B + dval c ≤ (x * B + dval c) * B ^ k :=
            Nat.le_mul_of_pos_right _ (Nat.pow_pos (by omega))
          omega
        constructor
        · intro h; omega
        · intro _; exact uintLoop_overflow hw hB hB' s max
      · rw [if_neg (by rw [hcond]; exact ho), Nat.mod_eq_of_lt (by omega)]
        exact ih _ (by omega)

/-- The unsigned parser on a fresh state. -/
theorem uintParse_fresh (hmax : max < 2 ^ w) (hmB : B ≤ max) (x₀ : Nat) (s : List Byte) (hs : s ≠ []) :
    let ds := s.takeWhile (isDig B)
    ∃ st', uintParse w ⟨.empty, x₀, B, max⟩ s = some (ds.length, st') ∧
      (ds = [] → st'.state = .empty ∧ ∃ c t, s = c :: t ∧ st'.x = toDigit w B c) ∧
      (ds ≠ [] → numeral B ds ≤ max → st'.state = .ok ∧ st'.x = numeral B ds) ∧
      (ds ≠ [] → max < numeral B ds → st'.state = .overflow) := by
  cases s with
  | nil => exact absurd rfl hs
  | cons c s =>
    obtain ⟨h1, h2⟩ := toDigit_spec hw hB hB' c
    simp only [uintParse]
    cases hc : isDig B c with
    | false =>
      rw [if_neg (by rw [h1, hc]; simp)]
      simp [hc]
    | true =>
      rw [if_pos (h1.mpr hc), h2 hc]
      have hd := dval_lt hc
      obtain ⟨h3, h4⟩ := uintLoop_ok hw hB hB' hmax s (dval c) (by omega)
      have h5 := uintLoop_count (max := max) hw hB hB' s .ok (dval c)
      simp only [List.takeWhile_cons, hc, if_true, List.length_cons, numeral_cons]
      refine ⟨_, by rw [h5], by simp, ?_, ?_⟩
      · intro _ h
        have := h3 h
        exact ⟨congrArg Prod.fst this, congrArg Prod.snd this⟩
      · intro _ h
        exact h4 h

end loop

/-! ### Base prefix and digits -/

theorem maxAbs_facts {w : Nat} (hw : 8 ≤ w) (signed neg : Bool) :
    maxAbs w signed neg < 2 ^ w ∧ 36 ≤ maxAbs w signed neg ∧
    (signed = true → maxAbs w signed neg + 1 = 2 ^ (w - 1) + (if neg then 1 else 0)) := by
  obtain ⟨k, rfl⟩ : ∃ k, w = k + 8 := ⟨w - 8, by omega⟩
  have e1 : (2 : Nat) ^ (k + 8) = 256 * 2 ^ k := by ring
  have e2 : (2 : Nat) ^ (k + 8 - 1) = 128 * 2 ^ k := by
    rw [show k + 8 - 1 = k + 7 by omega]; ring
  have : 0 < 2 ^ k := Nat.pow_pos (by norm_num)
  unfold maxAbs
  rw [e1, e2]
  cases signed <;> cases neg <;> simp <;> omega

theorem isDig_zero {B : Nat} (hB : 2 ≤ B) : isDig B (lit '0') = true ∧ dval (lit '0') = 0 := by
  have h : digitVal (lit '0') = some 0 := by decide +kernel
  unfold isDig dval
  rw [h]
  simp
  omega

theorem parseBase_splitPrefix (b : Nat) (c : Byte) (t : List Byte) :
    parseBase b c = (decide (splitPrefix b (lit '0' :: c :: t) = ((splitPrefix b (lit '0' :: c :: t)).1, t)),
      (splitPrefix b (lit '0' :: c :: t)).1) ∧
    ((splitPrefix b (lit '0' :: c :: t)).2 = t ∨
      (splitPrefix b (lit '0' :: c :: t)) = (if b = 0 then 8 else b, lit '0' :: c :: t)) := by
  have hne : ∀ l : List Byte, lit '0' :: c :: l ≠ l := by
    intro l h
    have := congrArg List.length h
    simp at this
    omega
  have hxb : lit 'x' ≠ lit 'b' ∧ lit 'x' ≠ lit 'B' ∧ lit 'X' ≠ lit 'b' ∧ lit 'X' ≠ lit 'B' := by decide
  unfold parseBase splitPrefix setBase
  simp only [if_true]
  by_cases hx : c = lit 'x' ∨ c = lit 'X'
  · have hb : ¬ (c = lit 'b' ∨ c = lit 'B') := by
      rintro (h | h) <;> rcases hx with h' | h' <;> rw [h'] at h <;> simp_all
    simp only [hx, if_true, hb, true_and, false_and, if_false]
    by_cases h0 : b = 0
    · simp [h0]
    · by_cases h16 : b = 16
      · simp [h16]
      · simp [h0, h16, hne]
  · by_cases hb : c = lit 'b' ∨ c = lit 'B'
    · simp only [hx, if_false, hb, true_and, false_and, if_true]
      by_cases h0 : b = 0
      · simp [h0]
      · by_cases h2 : b = 2
        · simp [h2]
        · simp [h0, h2, hne]
    · simp only [hx, if_false, hb, false_and]
      simp [hne]

theorem splitPrefix_base {b : Nat} (hb : b = 0 ∨ (2 ≤ b ∧ b ≤ 36)) {r : List Byte} (hr : r ≠ []) :
    2 ≤ (splitPrefix b r).1 ∧ (splitPrefix b r).1 ≤ 36 := by
  unfold splitPrefix
  split
  · exact absurd rfl hr
  · split
    · split
      · split <;> simp <;> omega
      · split
        · simp
        · split
          · simp
          · split <;> simp <;> omega
    · split <;> simp <;> omega

/-- What the parser does after the sign. -/
theorem stepSign_spec {w : Nat} (hw : 8 ≤ w) (signed : Bool) {b : Nat}
    (hb : b = 0 ∨ (2 ≤ b ∧ b ≤ 36)) (neg : Bool) (B₀ m₀ : Nat) {r : List Byte} (hr : r ≠ []) :
    let B := (splitPrefix b r).1
    let r₂ := (splitPrefix b r).2
    let ds := r₂.takeWhile (isDig B)
    let lone := r₂ = r ∧ ∃ c t, r = lit '0' :: c :: t ∧ ds = [lit '0']
    ∃ k st', stepSign w signed ⟨.sign, neg, ⟨.empty, b⟩, ⟨.empty, 0, B₀, m₀⟩⟩ 0 r = some (k, st') ∧
      k + (r₂.dropWhile (isDig B)).length = r.length ∧ st'.negate = neg ∧
      (ds = [] → intReady st' = false) ∧
      (ds ≠ [] → ¬ lone → numeral B ds ≤ maxAbs w signed neg →
        intReady st' = true ∧ st'.inner.x = numeral B ds) ∧
      (ds ≠ [] → maxAbs w signed neg < numeral B ds → intReady st' = false) ∧
      (lone → intReady st' = true ∧ ∃ c t, r = lit '0' :: c :: t ∧ isDig B c = false ∧
        st'.inner.x = toDigit w B c) := by
  obtain ⟨hB, hB'⟩ := splitPrefix_base hb hr
  obtain ⟨hm1, hm2, -⟩ := maxAbs_facts hw signed neg
  have hsplit : ∀ (B : Nat) (l : List Byte),
      (l.takeWhile (isDig B)).length + (l.dropWhile (isDig B)).length = l.length := by
    intro B l
    rw [← List.length_append, List.takeWhile_append_dropWhile]
  cases r with
  | nil => exact absurd rfl hr
  | cons z r' =>
    by_cases hz : z = lit '0'
    · subst hz
      cases r' with
      | nil =>
        have e : splitPrefix b [lit '0'] = (if b = 0 then 8 else b, [lit '0']) := by
          simp [splitPrefix]
        rw [e] at hB
        obtain ⟨hd, hv⟩ := isDig_zero hB
        rw [e]
        simp only [stepSign, baseParse, baseZero]
        simp only [List.length_cons, List.length_nil, true_or, if_true, List.takeWhile_cons, hd,
          List.dropWhile_cons, List.takeWhile_nil, List.dropWhile_nil, true_and]
        refine ⟨_, _, rfl, by omega, rfl, by simp, ?_, ?_, ?_⟩
        · intro _ _ _
          exact ⟨by simp [intReady], by simp [numeral_cons, hv, numeral_nil]⟩
        · intro _ h
          simp [numeral_cons, hv, numeral_nil] at h
        · rintro ⟨c, t, h, -⟩
          simp at h
      | cons c t =>
        obtain ⟨hpb, hcase⟩ := parseBase_splitPrefix b c t
        have hne : lit '0' :: c :: t ≠ t := by
          intro h
          have := congrArg List.length h
          simp at this
          omega
        rcases hcase with hpre | hno
        · -- a base prefix
          set B := (splitPrefix b (lit '0' :: c :: t)).1 with hBdef
          have esp : splitPrefix b (lit '0' :: c :: t) = (B, t) := Prod.ext rfl hpre
          rw [hpre]
          simp only [esp] at hpb
          simp only [decide_true] at hpb
          simp only [stepSign, baseParse, baseZero, hpb, if_true]
          simp only [List.length_cons, reduceCtorEq, or_false]
          by_cases ht : t = []
          · subst ht
            simp only [List.length_nil, Nat.zero_add, if_true]
            refine ⟨_, _, rfl, by simp, rfl, ?_, by simp, by simp, ?_⟩
            · intro _; simp [intReady]
            · rintro ⟨h, -⟩; simp at h
          · have htl : t.length ≠ 0 := by simpa using ht
            rw [if_neg (by omega)]
            obtain ⟨st', h1, h2, h3, h4⟩ := uintParse_fresh hw hB hB' hm1 (by omega) 0 t ht
            simp only [List.drop_succ_cons, List.drop_zero, stepValue, h1]
            refine ⟨_, _, rfl, ?_, rfl, ?_, ?_, ?_, ?_⟩
            · have := hsplit B t
              omega
            · intro hds
              simp [intReady, (h2 hds).1]
            · intro hds _ hn
              simp [intReady, h3 hds hn]
            · intro hds hn
              simp [intReady, h4 hds hn]
            · rintro ⟨h, -⟩
              exact absurd h.symm hne
        · -- no base prefix: the zero is a digit
          have hB2 : 2 ≤ (if b = 0 then 8 else b) := by rw [hno] at hB; exact hB
          have hB2' : (if b = 0 then 8 else b) ≤ 36 := by rw [hno] at hB'; exact hB'
          rw [hno] at hpb ⊢
          set B := (if b = 0 then 8 else b) with hBdef
          simp only [Prod.mk.injEq, true_and, hne, decide_false] at hpb
          simp only [stepSign, baseParse, baseZero, hpb, if_true, Bool.false_eq_true, if_false]
          simp only [List.length_cons, reduceCtorEq, or_false]
          rw [if_neg (by omega)]
          obtain ⟨st', h1, h2, h3, h4⟩ := uintParse_fresh hw hB2 hB2' hm1 (by omega) 0 (c :: t) (by simp)
          obtain ⟨hd, hv⟩ := isDig_zero hB2
          simp only [List.drop_succ_cons, List.drop_zero, stepValue, h1]
          rw [List.takeWhile_cons_of_pos hd, List.dropWhile_cons_of_pos hd]
          have hnum : ∀ l, numeral B (lit '0' :: l) = numeral B l := by
            intro l; rw [numeral_cons, hv]; simp
          refine ⟨_, _, rfl, ?_, rfl, by simp, ?_, ?_, ?_⟩
          · have := hsplit B (c :: t)
            simp only [List.length_cons] at this
            omega
          · intro _ hl hn
            rw [hnum] at hn
            have hds : (c :: t).takeWhile (isDig B) ≠ [] := by
              intro hds
              apply hl
              exact ⟨trivial, c, t, rfl, by rw [hds]⟩
            rw [hnum]
            simp [intReady, h3 hds hn]
          · intro _ hn
            rw [hnum] at hn
            have hds : (c :: t).takeWhile (isDig B) ≠ [] := by
              intro hds
              rw [hds, numeral_nil] at hn
              omega
            simp [intReady, h4 hds hn]
          · rintro ⟨-, c', t', hct, hds⟩
            simp only [List.cons.injEq, true_and] at hds
            obtain ⟨g1, c2, t2, g2, g3⟩ := h2 hds
            simp only [List.cons.injEq] at g2
            refine ⟨by simp [intReady, g1], c, t, rfl, ?_, ?_⟩
            · by_contra hc
              simp only [Bool.not_eq_false] at hc
              simp [hc] at hds
            · simp only; rw [g3, g2.1]
    · have e : splitPrefix b (z :: r') = (if b = 0 then 10 else b, z :: r') := by
        simp [splitPrefix, hz]
      rw [e] at hB hB' ⊢
      simp only at hB hB'
      simp only [stepSign, baseParse, setBase, hz, if_false]
      simp only [List.length_cons, reduceCtorEq, or_false]
      rw [if_neg not_false]
      obtain ⟨st', h1, h2, h3, h4⟩ := uintParse_fresh hw hB hB' hm1 (by omega) 0 (z :: r') (by simp)
      simp only [List.drop_zero, stepValue, h1]
      refine ⟨_, _, rfl, ?_, rfl, ?_, ?_, ?_, ?_⟩
      · have := hsplit (if b = 0 then 10 else b) (z :: r')
        simp only [List.length_cons] at this
        omega
      · intro hds
        simp [intReady, (h2 hds).1]
      · intro hds _ hn
        simp [intReady, h3 hds hn]
      · intro hds hn
        simp [intReady, h4 hds hn]
      · rintro ⟨-, c, t, h, -⟩
        simp only [List.cons.injEq] at h
        exact absurd h.1 hz

/-! ### Values -/

theorem toSigned_small {w x : Nat} (hw : 1 ≤ w) (h : x < 2 ^ (w - 1)) : toSigned w x = x := by
  unfold toSigned
  obtain ⟨k, rfl⟩ : ∃ k, w = k + 1 := ⟨w - 1, by omega⟩
  have : (2 : Nat) ^ (k + 1) = 2 * 2 ^ k := by ring
  simp only [Nat.add_sub_cancel] at h
  rw [Int.bmod_eq_of_le]
  · omega
  · rw [this]
    push_cast
    have h' : (x : Int) < ((2 ^ k : Nat) : Int) := by exact_mod_cast h
    push_cast at h'
    omega

theorem signValue_pos {w x : Nat} (hw : 8 ≤ w) (signed : Bool) (h : x ≤ maxAbs w signed false) :
    signValue w signed false x = x := by
  obtain ⟨-, -, hm⟩ := maxAbs_facts hw signed false
  unfold signValue
  cases signed with
  | false => simp
  | true =>
    have := hm rfl
    simp only [if_true, Bool.false_eq_true, if_false]
    rw [toSigned_small (by omega)]
    simp at this
    omega

theorem signValue_neg {w x : Nat} (hw : 8 ≤ w) (h : x ≤ maxAbs w true true) :
    signValue w true true x = -(x : Int) := by
  obtain ⟨hlt, -, hm⟩ := maxAbs_facts hw true true
  have hm := hm rfl
  simp only [if_true] at hm
  unfold signValue
  simp only [if_true]
  cases x with
  | zero =>
    have : (0 + (2 ^ w - 1)) % 2 ^ w = 2 ^ w - 1 := by
      rw [Nat.zero_add, Nat.mod_eq_of_lt]
      have : 0 < 2 ^ w := Nat.pow_pos (by norm_num)
      omega
    rw [this]
    have h1 : toSigned w (2 ^ w - 1) = -1 := by
      unfold toSigned
      have e : ((2 ^ w - 1 : Nat) : Int) = -1 + ((2 ^ w : Nat) : Int) := by
        have : 1 ≤ 2 ^ w := Nat.one_le_two_pow
        push_cast [this]
        ring
      rw [e, Int.add_bmod_right]
      have : 2 ≤ 2 ^ w := by
        calc 2 = 2 ^ 1 := rfl
          _ ≤ 2 ^ w := Nat.pow_le_pow_right (by norm_num) (by omega)
      generalize 2 ^ w = q at *
      rw [Int.bmod_eq_of_le] <;> omega
    rw [h1]; rfl
  | succ x =>
    have : (x + 1 + (2 ^ w - 1)) % 2 ^ w = x := by
      have h2 : 1 ≤ 2 ^ w := Nat.one_le_two_pow
      rw [show x + 1 + (2 ^ w - 1) = x + 2 ^ w by omega, Nat.add_mod_right, Nat.mod_eq_of_lt (by omega)]
    rw [this, toSigned_small (by omega) (by omega)]
    push_cast
    ring

theorem signValue_ne_zero {w x : Nat} (hw : 8 ≤ w) (signed neg : Bool) (h0 : x ≠ 0) (h : x < 2 ^ w) :
    signValue w signed neg x ≠ 0 := by
  have hpos : 0 < 2 ^ w := Nat.pow_pos (by norm_num)
  unfold signValue
  cases signed with
  | false => simpa using h0
  | true =>
    simp only [if_true]
    cases neg with
    | false =>
      simp only [Bool.false_eq_true, if_false, toSigned]
      intro e
      have := Int.dvd_of_bmod_eq_zero e
      have := Int.natCast_dvd_natCast.mp this
      exact h0 (Nat.eq_zero_of_dvd_of_lt this h)
    | true =>
      simp only [if_true]
      obtain ⟨y, rfl⟩ : ∃ y, x = y + 1 := ⟨x - 1, by omega⟩
      rw [show y + 1 + (2 ^ w - 1) = y + 2 ^ w by omega, Nat.add_mod_right, Nat.mod_eq_of_lt (by omega)]
      intro e
      have e1 : toSigned w y = -1 := by omega
      unfold toSigned at e1
      have e2 : ((y + 1 : Nat) : Int).bmod (2 ^ w) = 0 := by
        push_cast
        rw [← Int.bmod_add_bmod, e1]
        simp
      have := Int.dvd_of_bmod_eq_zero e2
      have := Int.natCast_dvd_natCast.mp this
      exact h0 (Nat.eq_zero_of_dvd_of_lt this h)

theorem toDigit_lt {w : Nat} (B : Nat) (c : Byte) : toDigit w B c < 2 ^ w := by
  have hpos : 0 < 2 ^ w := Nat.pow_pos (by norm_num)
  have hu : ∀ x, toUInt w x < 2 ^ w := by
    intro x
    unfold toUInt
    have : (0 : Int) < 2 ^ w := by positivity
    have h1 := Int.emod_lt_of_pos x this
    have h2 := Int.emod_nonneg x (ne_of_gt this)
    have : ((x % 2 ^ w).toNat : Int) < ((2 ^ w : Nat) : Int) := by push_cast; omega
    exact_mod_cast this
  unfold toDigit
  repeat' split
  all_goals first | exact hu _ | omega

end Actl.IntText
