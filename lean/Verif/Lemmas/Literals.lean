import Verif.Model.Literals
import Verif.Spec.Literals
import Mathlib.Tactic.Ring
import Mathlib.Data.Nat.Digits.Lemmas

namespace Actl.Literals

theorem digitToValue_lt {c : Char} {d : Nat} (h : digitToValue c = some d) : d < 16 := by
  unfold digitToValue at h
  have e1 : ∀ a b : Char, a ≤ b ↔ a.toNat ≤ b.toNat := fun a b => by
    exact Iff.rfl
  simp only [e1] at h
  have : 'a'.toNat = 97 := rfl
  have : 'f'.toNat = 102 := rfl
  have : 'A'.toNat = 65 := rfl
  have : 'F'.toNat = 70 := rfl
  have : '0'.toNat = 48 := rfl
  have : '9'.toNat = 57 := rfl
  split at h
  · simp at h; omega
  · split at h
    · simp at h; omega
    · split at h
      · simp at h; omega
      · simp at h

theorem char_of_toNat {c : Char} {n : Nat} (h : c.toNat = n) : c = Char.ofNat n := by
  rw [← h, Char.ofNat_toNat]

theorem digitToValue_iff (c : Char) (d : Nat) : digitToValue c = some d ↔ IsDigit c d := by
  constructor
  · intro h
    have hd := digitToValue_lt h
    unfold digitToValue at h
    have e1 : ∀ a b : Char, a ≤ b ↔ a.toNat ≤ b.toNat := fun a b => Iff.rfl
    simp only [e1] at h
    have : 'a'.toNat = 97 := rfl
    have : 'f'.toNat = 102 := rfl
    have : 'A'.toNat = 65 := rfl
    have : 'F'.toNat = 70 := rfl
    have : '0'.toNat = 48 := rfl
    have : '9'.toNat = 57 := rfl
    unfold IsDigit
    split at h
    · left
      simp only [Option.some.injEq] at h
      have hc : c.toNat = d + 87 := by omega
      rw [char_of_toNat hc]
      have : 10 ≤ d := by omega
      interval_cases d <;> decide
    · split at h
      · right
        simp only [Option.some.injEq] at h
        have hc : c.toNat = d + 55 := by omega
        rw [char_of_toNat hc]
        have : 10 ≤ d := by omega
        interval_cases d <;> decide
      · split at h
        · left
          simp only [Option.some.injEq] at h
          have hc : c.toNat = d + 48 := by omega
          rw [char_of_toNat hc]
          have : d < 10 := by omega
          interval_cases d <;> decide
        · simp at h
  · intro h
    have hd : d < 16 := by
      rcases h with h | h
      · exact (List.getElem?_eq_some_iff.mp h).1
      · exact (List.getElem?_eq_some_iff.mp h).1
    have hl : ∀ d : Fin 16, (lower[d.val]?).all (fun c => digitToValue c == some d.val) := by
      decide +kernel
    have hu : ∀ d : Fin 16, (upper[d.val]?).all (fun c => digitToValue c == some d.val) := by
      decide +kernel
    rcases h with h | h
    · have := hl ⟨d, hd⟩
      rw [h] at this
      simpa using this
    · have := hu ⟨d, hd⟩
      rw [h] at this
      simpa using this

theorem filterDigits_iff (cs : List Char) : ∀ acc r,
    filterDigits acc cs = some r ↔ ∃ ds, Spells cs ds ∧ r = acc ++ ds := by
  induction cs with
  | nil =>
    intro acc r
    simp only [filterDigits, Option.some.injEq]
    constructor
    · rintro rfl; exact ⟨[], .nil, by simp⟩
    · rintro ⟨ds, h, rfl⟩; cases h; simp
  | cons c cs ih =>
    intro acc r
    by_cases hc : c = '\''
    · subst hc
      rw [filterDigits, ih]
      constructor
      · rintro ⟨ds, h, rfl⟩; exact ⟨ds, .sep h, rfl⟩
      · rintro ⟨ds, h, rfl⟩
        cases h with
        | sep h => exact ⟨_, h, rfl⟩
        | digit hd h =>
          exfalso
          rw [← digitToValue_iff] at hd
          revert hd; simp [show digitToValue '\'' = none by decide]
    · have e : filterDigits acc (c :: cs) = match digitToValue c with
          | some d => filterDigits (acc ++ [d]) cs
          | none => none := by
        exact filterDigits.eq_3 acc c cs hc
      rw [e]
      cases hv : digitToValue c with
      | none =>
        simp only [reduceCtorEq, false_iff, not_exists, not_and]
        intro ds h
        cases h with
        | sep h => exact absurd rfl hc
        | digit hd h => rw [← digitToValue_iff, hv] at hd; simp at hd
      | some d =>
        simp only
        rw [ih]
        constructor
        · rintro ⟨ds, h, rfl⟩
          exact ⟨d :: ds, .digit ((digitToValue_iff c d).mp hv) h, by simp⟩
        · rintro ⟨ds, h, rfl⟩
          cases h with
          | sep h => exact absurd rfl hc
          | digit hd h =>
            rw [← digitToValue_iff, hv] at hd
            simp only [Option.some.injEq] at hd
            subst hd
            exact ⟨_, h, by simp⟩

theorem hasBase_iff (cs : List Char) (base : Nat) (rest : List Char) :
    HasBase cs base rest ↔ toNumber cs = (base, rest) := by
  constructor
  · intro h
    cases h with
    | hex h => rcases h with rfl | rfl <;> rfl
    | bin h => rcases h with rfl | rfl <;> rfl
    | oct h =>
      unfold toNumber
      split <;> simp_all
      all_goals (rename_i h1; have := h1.2; subst this; simp at h)
    | dec h =>
      unfold toNumber
      split <;> simp_all
  · intro h
    unfold toNumber at h
    split at h <;> simp only [Prod.mk.injEq] at h <;> obtain ⟨rfl, rfl⟩ := h
    · exact .hex (Or.inr rfl)
    · exact .hex (Or.inl rfl)
    · exact .bin (Or.inl rfl)
    · exact .bin (Or.inr rfl)
    · apply HasBase.oct
      rename_i cs n1 n2 n3 n4
      intro c hc
      cases cs with
      | nil => simp at hc
      | cons a t =>
        simp only [List.head?_cons, Option.mem_def, Option.some.injEq] at hc
        subst hc
        simp only [List.mem_cons, List.not_mem_nil, or_false, not_or]
        refine ⟨?_, ?_, ?_, ?_⟩ <;> rintro rfl
        · exact n2 _ rfl
        · exact n1 _ rfl
        · exact n3 _ rfl
        · exact n4 _ rfl
    · apply HasBase.dec
      rename_i n1 n2 n3 n4 n5
      intro c hc
      cases cs with
      | nil => simp at hc
      | cons a t =>
        simp only [List.head?_cons, Option.mem_def, Option.some.injEq] at hc
        subst hc
        rintro rfl
        exact n5 _ rfl

/-- Value of a digit list, most significant first, continued from `x`. -/
def cont (base : Nat) (x : Nat) (ds : List Nat) : Nat := ds.foldl (fun a d => d + base * a) x

theorem cont_ge {base : Nat} (hb : 1 ≤ base) (ds : List Nat) : ∀ x, x ≤ cont base x ds := by
  induction ds with
  | nil => intro x; exact Nat.le_refl _
  | cons d ds ih =>
    intro x
    refine Nat.le_trans ?_ (ih _)
    nlinarith

theorem cont_eq_ofDigits (base : Nat) (ds : List Nat) :
    ∀ x, cont base x ds = x * base ^ ds.length + Nat.ofDigits base ds.reverse := by
  induction ds with
  | nil => intro x; simp [cont]
  | cons d ds ih =>
    intro x
    have : cont base x (d :: ds) = cont base (d + base * x) ds := rfl
    rw [this, ih, List.reverse_cons, Nat.ofDigits_append]
    simp only [List.length_cons, List.length_reverse, Nat.ofDigits_singleton]
    ring

theorem fold_iff {maxU base : Nat} (hb : 2 ≤ base) (hm : 16 ≤ maxU) (hb16 : base ≤ 16)
    (ds : List Nat) : ∀ x v, x ≤ maxU → (fold maxU base x ds = some v ↔
      (∀ d ∈ ds, d < base) ∧ v = cont base x ds ∧ v ≤ maxU) := by
  induction ds with
  | nil =>
    intro x v hx
    simp only [fold, cont, Option.some.injEq, List.foldl_nil]
    constructor
    · rintro rfl; exact ⟨by simp, rfl, hx⟩
    · rintro ⟨-, rfl, -⟩; rfl
  | cons d ds ih =>
    intro x v hx
    unfold fold
    by_cases hd : d < base
    · rw [if_pos hd]
      have hiff : x ≤ (maxU - d) / base ↔ d + base * x ≤ maxU := by
        rw [Nat.le_div_iff_mul_le (by omega), Nat.mul_comm base x]
        omega
      by_cases hle : x ≤ (maxU - d) / base
      · rw [if_pos hle, ih _ v (hiff.mp hle)]
        simp only [List.mem_cons, forall_eq_or_imp, hd, true_and]
        rfl
      · rw [if_neg hle]
        simp only [reduceCtorEq, false_iff, not_and]
        rintro - hv hle2
        rw [hiff] at hle
        have : d + base * x ≤ cont base x (d :: ds) :=
          cont_ge (base := base) (by omega) ds _
        omega
    · rw [if_neg hd]
      simp only [reduceCtorEq, false_iff, not_and]
      intro h
      exact absurd (h d (by simp)) hd

theorem toNumber_base (cs : List Char) : 2 ≤ (toNumber cs).1 ∧ (toNumber cs).1 ≤ 16 := by
  unfold toNumber
  split <;> simp

end Actl.Literals
