import Verif.Model.RealWrite
import Verif.Spec.RealText
import Verif.Lemmas.IntWrite
import Verif.Props.BinaryPow
import Mathlib.Tactic.Linarith
import Mathlib.Tactic.FieldSimp
import Mathlib.Tactic.NormNum
import Mathlib.Algebra.Order.Floor.Ring

namespace Actl.IntText

open Actl.Text

theorem digitCount_eq_length {base : Nat} (hb : 2 ≤ base) (x : Nat) :
    digitCount x base = (Nat.digits base x).length := by
  induction x using Nat.strongRecOn with
  | ind x ih =>
    unfold digitCount
    by_cases h : x = 0
    · rw [dif_pos (Or.inl h), h]; simp
    · rw [dif_neg (by omega), ih _ (Nat.div_lt_self (by omega) (by omega)),
        Nat.digits_def' (b := base) (n := x) (by omega) (by omega), List.length_cons, Nat.add_comm]

theorem digitCount_of_bounds {base x k : Nat} (hb : 2 ≤ base) (h1 : base ^ k ≤ x)
    (h2 : x < base ^ (k + 1)) : digitCount x base = k + 1 := by
  rw [digitCount_eq_length hb]
  have a := (Nat.digits_length_le_iff (b := base) (by omega) x).2 h2
  have b := (Nat.lt_digits_length_iff (b := base) (k := k) (by omega) x).2 h1
  omega

theorem realCapacity_eq (base precision : Nat) :
    realCapacity base precision = (if base < 10 then 64 else 20) + 1 + precision := by
  unfold realCapacity
  split_ifs
  · rw [digitCount_two]
  · rw [digitCount_of_bounds (k := 19) (by omega) (by norm_num) (by norm_num)]

theorem basePower_eq {base precision : Nat} (hb : base < 2 ^ 64) :
    basePower base precision = base ^ precision % 2 ^ 64 := by
  unfold basePower
  rw [BinaryPow.binaryPow_bitVec, BitVec.toNat_ofNat, Nat.mod_eq_of_lt hb]

theorem digitLoop_none {cap base : Nat} (ch : Nat → Byte) :
    ∀ (x : Nat) (out : List Byte), cap < (dgs base x).length + out.length →
      out.length ≤ cap → digitLoop cap base ch x out = none := by
  intro x
  induction x using Nat.strongRecOn with
  | ind x ih =>
    intro out hcap hout
    unfold digitLoop
    by_cases hb : base ≤ 1
    · rw [dif_pos hb]
    rw [dif_neg hb]
    by_cases hp : out.length < cap
    · rw [push_eq hp]
      simp only
      by_cases hx : x / base = 0
      · rw [dgs_small (by omega) hx] at hcap
        simp at hcap; omega
      · rw [if_neg hx]
        rw [dgs_step (by omega) hx] at hcap
        simp at hcap
        exact ih _ (Nat.div_lt_self (Nat.pos_of_ne_zero (fun h => hx (by simp [h]))) (by omega)) _
          (by simp; omega) (by simp; omega)
    · rw [push, if_neg hp]

/-- No base prefix is written. -/
def NoPrefix (f : Fmt) : Prop := f.showbase = false ∨ (f.base ≠ 8 ∧ f.base ≠ 16)

theorem uitoa_plain {cap : Nat} {f : Fmt} (hn : NoPrefix f) (x : Nat) (out : List Byte) :
    uitoa cap f x f.base out =
      digitLoop cap f.base (if f.base ≤ 10 then digitChar10 else digitChar36 f.uppercase) x out := by
  have h8 : (f.showbase && x != 0 && f.base == 8) = false := by
    rcases hn with h | h
    · simp [h]
    · simp [h.1]
  have h16 : (f.showbase && x != 0 && f.base == 16) = false := by
    rcases hn with h | h
    · simp [h]
    · simp [h.2]
  unfold uitoa
  by_cases h : f.base ≤ 10
  · simp only [h, if_true, h8, Bool.false_eq_true, if_false]
    cases digitLoop cap f.base digitChar10 x out <;> rfl
  · simp only [h, h16, Bool.false_eq_true, if_false]
    cases digitLoop cap f.base (digitChar36 f.uppercase) x out <;> rfl

theorem uitoa_some {cap : Nat} {f : Fmt} (hn : NoPrefix f) (hb : 2 ≤ f.base) {x : Nat}
    {out : List Byte} (h : (dgs f.base x).length + out.length ≤ cap) :
    uitoa cap f x f.base out = some (digitText f.base f.uppercase x ++ out) := by
  rw [uitoa_plain hn, digitLoop_eq _ hb _ _ h]; rfl

theorem uitoa_none {cap : Nat} {f : Fmt} {x : Nat} {out : List Byte}
    (h : cap < (dgs f.base x).length + out.length) (h' : out.length ≤ cap) :
    uitoa cap f x f.base out = none := by
  unfold uitoa
  by_cases h10 : f.base ≤ 10
  · simp only [h10, if_true, digitLoop_none _ _ _ h h']
  · simp only [h10, if_false, digitLoop_none _ _ _ h h']

theorem dgs_length_gt {base x k : Nat} (hb : 2 ≤ base) (h : base ^ k ≤ x) :
    k < (dgs base x).length := by
  have hx : x ≠ 0 := by
    have := Nat.pow_pos (n := k) (show 0 < base by omega)
    omega
  unfold dgs
  rw [if_neg hx, List.length_reverse]
  exact (Nat.lt_digits_length_iff (b := base) (by omega) x).2 h

theorem length_digitText (base : Nat) (u : Bool) (x : Nat) :
    (digitText base u x).length = (dgs base x).length := by simp [digitText]

/-- The fraction: padded with zeros. -/
def fracText (base : Nat) (upper : Bool) (p x : Nat) : List Byte :=
  if 0 < p then
    List.replicate (p - (dgs base x).length) (lit '0') ++ digitText base upper x
  else []

theorem numeral_zeros (B k : Nat) (ds : List Byte) :
    numeral B (List.replicate k (lit '0') ++ ds) = numeral B ds := by
  induction k with
  | zero => simp
  | succ k ih =>
    rw [← ih]
    have h0 : dval (lit '0') = 0 := by decide
    simp only [numeral, List.replicate_succ, List.cons_append, List.map_cons, List.reverse_cons, h0,
      Nat.ofDigits_append]
    simp

theorem fracText_length {B p x : Nat} (u : Bool) (hb : 2 ≤ B) (hx : x < B ^ p) :
    (fracText B u p x).length = p := by
  unfold fracText
  split_ifs with h
  · have := dgs_length_le hb h hx
    simp [length_digitText]; omega
  · simp; omega

theorem fracText_digits {B : Nat} (u : Bool) (hb : 2 ≤ B) (hb' : B ≤ 36) (p x : Nat) :
    ∀ c ∈ fracText B u p x, isDig B c = true ∧ c ∈ (if u then upperDigits else lowerDigits) := by
  intro c hc
  unfold fracText at hc
  split_ifs at hc with h
  · rcases List.mem_append.1 hc with hc | hc
    · obtain ⟨-, rfl⟩ := List.mem_replicate.1 hc
      refine ⟨?_, by cases u <;> decide⟩
      have : digitVal (lit '0') = some 0 := by decide
      rw [isDig, this]; simp; omega
    · exact (digitText_canonical hb hb' u x).digits c hc
  · simp at hc

theorem fracText_value {B p x : Nat} (u : Bool) (hb : 2 ≤ B) (hb' : B ≤ 36) (hx : x < B ^ p) :
    numeral B (fracText B u p x) = x := by
  unfold fracText
  split_ifs with h
  · rw [numeral_zeros, (digitText_canonical hb hb' u x).value]
  · obtain rfl : p = 0 := by omega
    simp at hx
    simp [numeral, hx]

/-- The point. -/
def pointText (showpoint : Bool) (p : Nat) : List Byte :=
  if p = 0 ∧ showpoint = false then [] else [lit '.']

theorem realText_eq {f : Fmt} (hn : NoPrefix f) (hb : 2 ≤ f.base) {showpoint : Bool} {p I R : Nat}
    (hI : (dgs f.base I).length + (pointText showpoint p).length ≤ (if f.base < 10 then 64 else 20) + 1)
    (hR : R < f.base ^ p) :
    realText f showpoint p (I, R) =
      some (digitText f.base f.uppercase I ++ pointText showpoint p ++
        fracText f.base f.uppercase p R) := by
  have hlen := fracText_length f.uppercase hb hR
  have hI1 : 0 < (dgs f.base I).length := List.length_pos_iff.2 (dgs_ne_nil _ _)
  have hF : realFraction f p R = some (fracText f.base f.uppercase p R) := by
    unfold fracText realFraction
    split_ifs with hp
    · have hl := dgs_length_le hb hp hR
      rw [uitoa_some hn hb (by rw [realCapacity_eq]; simp; omega)]
      simp only [List.append_nil, Option.bind_eq_bind, Option.bind_some]
      rw [if_pos (by rw [length_digitText]; omega), length_digitText]
    · rfl
  have hP : realPoint f showpoint p (fracText f.base f.uppercase p R) =
      some (pointText showpoint p ++ fracText f.base f.uppercase p R) := by
    unfold pointText realPoint
    by_cases h : p = 0 ∧ showpoint = false
    · rw [if_pos h, h.1, h.2]; rfl
    · rw [if_neg h, if_pos, push_eq]
      · rfl
      · rw [realCapacity_eq]; omega
      · simp only [Bool.or_eq_true, decide_eq_true_eq]
        rcases Nat.eq_zero_or_pos p with h0 | h0
        · right; simpa using fun h1 => h ⟨h0, h1⟩
        · exact Or.inl h0
  unfold realText
  simp only [hF, Option.bind_eq_bind, Option.bind_some, hP]
  rw [uitoa_some hn hb (by rw [realCapacity_eq, List.length_append, hlen]; omega), List.append_assoc]

end Actl.IntText
