import Verif.Model.IntWrite
import Verif.Spec.IntText
import Mathlib.Data.Nat.Digits.Lemmas
import Mathlib.Tactic.Ring
import Mathlib.Tactic.Positivity

namespace Actl.IntText

open Actl.Text

theorem digitCount_two (w : Nat) : digitCount (2 ^ w - 1) 2 = w := by
  induction w with
  | zero => unfold digitCount; simp
  | succ w ih =>
    unfold digitCount
    have h1 : 1 ≤ 2 ^ w := Nat.one_le_two_pow
    have h2 : 2 ^ (w + 1) = 2 * 2 ^ w := by ring
    rw [dif_neg (by omega)]
    have : (2 ^ (w + 1) - 1) / 2 = 2 ^ w - 1 := by omega
    rw [this, ih, Nat.add_comm]

/-- Digits of `x`, most significant first; one digit for zero. -/
def dgs (base x : Nat) : List Nat := if x = 0 then [0] else (Nat.digits base x).reverse

theorem dgs_small {base x : Nat} (hb : 2 ≤ base) (hx : x / base = 0) : dgs base x = [x % base] := by
  have hlt : x < base := by
    rcases Nat.div_eq_zero_iff.mp hx with h | h
    · omega
    · exact h
  unfold dgs
  by_cases h0 : x = 0
  · simp [h0]
  · rw [if_neg h0, Nat.digits_of_lt base x h0 hlt, Nat.mod_eq_of_lt hlt]; rfl

theorem dgs_step {base x : Nat} (hb : 2 ≤ base) (hx : x / base ≠ 0) :
    dgs base x = dgs base (x / base) ++ [x % base] := by
  have h0 : x ≠ 0 := fun h => hx (by simp [h])
  unfold dgs
  rw [if_neg h0, if_neg hx, Nat.digits_def' (by omega) (by omega), List.reverse_cons]

theorem dgs_ne_nil (base x : Nat) : dgs base x ≠ [] := by
  unfold dgs
  split
  · simp
  · rename_i h; simp [Nat.digits_ne_nil_iff_ne_zero, h]

theorem dgs_length_le {base x k : Nat} (hb : 2 ≤ base) (hk : 1 ≤ k) (hx : x < base ^ k) :
    (dgs base x).length ≤ k := by
  unfold dgs
  split
  · simpa using hk
  · rw [List.length_reverse]
    exact (Nat.digits_length_le_iff (by omega) x).mpr hx

theorem dgs_lt {base x : Nat} (hb : 2 ≤ base) : ∀ d ∈ dgs base x, d < base := by
  intro d hd
  unfold dgs at hd
  split at hd
  · simp at hd; omega
  · exact Nat.digits_lt_base (by omega) (List.mem_reverse.mp hd)

theorem dgs_value {base : Nat} (x : Nat) : Nat.ofDigits base (dgs base x).reverse = x := by
  unfold dgs
  split
  · rename_i h; simp [h]
  · rw [List.reverse_reverse, Nat.ofDigits_digits]

theorem dgs_head {base x : Nat} (hx : x ≠ 0) : (dgs base x).head? ≠ some 0 := by
  unfold dgs
  rw [if_neg hx, List.head?_reverse]
  intro h
  have hne : Nat.digits base x ≠ [] := Nat.digits_ne_nil_iff_ne_zero.mpr hx
  rw [List.getLast?_eq_some_getLast hne] at h
  exact Nat.getLast_digit_ne_zero base hx (Option.some.inj h)

theorem push_eq {cap : Nat} {c : Byte} {out : List Byte} (h : out.length < cap) :
    push cap c out = some (c :: out) := by unfold push; rw [if_pos h]

theorem digitLoop_eq {cap base : Nat} (ch : Nat → Byte) (hb : 2 ≤ base) :
    ∀ (x : Nat) (out : List Byte), (dgs base x).length + out.length ≤ cap →
      digitLoop cap base ch x out = some ((dgs base x).map ch ++ out) := by
  intro x
  induction x using Nat.strongRecOn with
  | ind x ih =>
    intro out hcap
    unfold digitLoop
    rw [dif_neg (by omega)]
    have hlen : 0 < (dgs base x).length := List.length_pos_iff.mpr (dgs_ne_nil _ _)
    rw [push_eq (by omega)]
    simp only
    by_cases hx : x / base = 0
    · rw [if_pos hx, dgs_small hb hx]; rfl
    · rw [if_neg hx]
      have hlt : x / base < x :=
        Nat.div_lt_self (Nat.pos_of_ne_zero (fun h => hx (by simp [h]))) (by omega)
      rw [dgs_step hb hx] at hcap ⊢
      rw [ih _ hlt _ (by simp at hcap ⊢; omega)]
      simp

/-- What `uitoa` is to produce, as characters. -/
def digitText (base : Nat) (upper : Bool) (x : Nat) : List Byte :=
  (dgs base x).map (if base ≤ 10 then digitChar10 else digitChar36 upper)

theorem digitChar_facts : ∀ d : Fin 36,
    (d.val < 10 → digitVal (digitChar10 d.val) = some d.val ∧
      digitChar10 d.val ∈ upperDigits ∧ digitChar10 d.val ∈ lowerDigits ∧
      (digitChar10 d.val = lit '0' → d.val = 0)) ∧
    (∀ u : Bool, digitVal (digitChar36 u d.val) = some d.val ∧
      digitChar36 u d.val ∈ (if u then upperDigits else lowerDigits) ∧
      (digitChar36 u d.val = lit '0' → d.val = 0)) := by
  decide +kernel

theorem ch_facts {base d : Nat} (hb36 : base ≤ 36) (hd : d < base) (u : Bool) :
    digitVal ((if base ≤ 10 then digitChar10 else digitChar36 u) d) = some d ∧
    (if base ≤ 10 then digitChar10 else digitChar36 u) d ∈ (if u then upperDigits else lowerDigits) ∧
    ((if base ≤ 10 then digitChar10 else digitChar36 u) d = lit '0' → d = 0) := by
  have h := digitChar_facts ⟨d, by omega⟩
  simp only at h
  split
  · obtain ⟨h1, h2, h3, h4⟩ := h.1 (by omega)
    refine ⟨h1, ?_, h4⟩
    cases u <;> simp [h2, h3]
  · exact h.2 u

theorem digitText_canonical {base : Nat} (hb : 2 ≤ base) (hb36 : base ≤ 36) (u : Bool) (x : Nat) :
    Canonical base u x (digitText base u x) := by
  have hfacts := fun d (hd : d ∈ dgs base x) => ch_facts hb36 (dgs_lt hb d hd) u
  refine ⟨?_, ?_, ?_, ?_⟩
  · simp [digitText, dgs_ne_nil]
  · intro c hc
    simp only [digitText, List.mem_map] at hc
    obtain ⟨d, hd, rfl⟩ := hc
    obtain ⟨h1, h2, -⟩ := hfacts d hd
    refine ⟨?_, h2⟩
    unfold isDig
    rw [h1]
    simpa using dgs_lt hb d hd
  · unfold numeral digitText
    rw [List.map_map]
    have : List.map (dval ∘ (if base ≤ 10 then digitChar10 else digitChar36 u)) (dgs base x)
        = dgs base x := by
      conv => rhs; rw [← List.map_id (dgs base x)]
      apply List.map_congr_left
      intro d hd
      simp only [Function.comp, dval, (hfacts d hd).1, Option.getD_some, id]
    rw [this, dgs_value]
  · intro h
    by_cases hx : x = 0
    · subst hx
      have e : dgs base 0 = [0] := by simp [dgs]
      unfold digitText
      rw [e]
      split <;> simp [digitChar10, digitChar36, lit]
    · exfalso
      have hne := dgs_head (base := base) hx
      unfold digitText at h
      rw [List.head?_map] at h
      cases hh : (dgs base x).head? with
      | none => rw [hh] at h; simp at h
      | some d =>
        rw [hh] at h hne
        simp only [Option.map_some, Option.some.injEq] at h
        have := (hfacts d (List.mem_of_mem_head? (by rw [hh]; rfl))).2.2 h
        exact hne (by rw [this])

theorem uitoa_eq {cap w : Nat} {f : Fmt} {x base : Nat} (hb : 2 ≤ base)
    (hw : 3 ≤ w) (hx : x < 2 ^ w) (hcap : cap = w + 1) :
    ∃ p, uitoa cap f x base [] = some (p ++ digitText base f.uppercase x) ∧
      p = prefixText f.showbase f.uppercase base x ∧
      p.length + (digitText base f.uppercase x).length ≤ w := by
  have hlenw : (dgs base x).length ≤ w :=
    dgs_length_le hb (by omega) (lt_of_lt_of_le hx (Nat.pow_le_pow_left hb w))
  unfold uitoa
  by_cases h10 : base ≤ 10
  · rw [if_pos h10, digitLoop_eq _ hb x [] (by simp; omega)]
    simp only [List.append_nil]
    have hdt : digitText base f.uppercase x = (dgs base x).map digitChar10 := by
      simp [digitText, h10]
    rw [hdt]
    by_cases hs : (f.showbase && x != 0 && base == 8) = true
    · rw [if_pos hs]
      simp only [Bool.and_eq_true, bne_iff_ne, ne_eq, beq_iff_eq] at hs
      obtain ⟨⟨hs1, hs2⟩, hs3⟩ := hs
      have h8 : (dgs base x).length ≤ w - 1 := by
        apply dgs_length_le hb (by omega)
        rw [hs3, show (8 : Nat) = 2 ^ 3 from rfl, ← Nat.pow_mul]
        exact lt_of_lt_of_le hx (Nat.pow_le_pow_right (by omega) (by omega))
      refine ⟨[lit '0'], ?_, ?_, ?_⟩
      · rw [push_eq (by simp; omega)]; rfl
      · simp [prefixText, hs1, hs2, hs3]
      · simp; omega
    · rw [if_neg hs]
      refine ⟨[], rfl, ?_, by simpa using hlenw⟩
      unfold prefixText
      simp only [Bool.and_eq_true, bne_iff_ne, ne_eq, beq_iff_eq, not_and] at hs
      by_cases h : (f.showbase && (x : Int) != 0) = true
      · rw [if_pos h]
        simp only [Bool.and_eq_true, bne_iff_ne, ne_eq, Int.natCast_eq_zero] at h
        rw [if_neg (hs ⟨h.1, h.2⟩), if_neg (by omega)]
      · rw [if_neg h]
  · rw [if_neg h10, digitLoop_eq _ hb x [] (by simp; omega)]
    simp only [List.append_nil]
    have hdt : digitText base f.uppercase x = (dgs base x).map (digitChar36 f.uppercase) := by
      simp [digitText, h10]
    rw [hdt]
    by_cases hs : (f.showbase && x != 0 && base == 16) = true
    · rw [if_pos hs]
      simp only [Bool.and_eq_true, bne_iff_ne, ne_eq, beq_iff_eq] at hs
      obtain ⟨⟨hs1, hs2⟩, hs3⟩ := hs
      have h16 : (dgs base x).length ≤ w - 2 := by
        apply dgs_length_le hb (by omega)
        rw [hs3, show (16 : Nat) = 2 ^ 4 from rfl, ← Nat.pow_mul]
        exact lt_of_lt_of_le hx (Nat.pow_le_pow_right (by omega) (by omega))
      refine ⟨[lit '0', if f.uppercase then lit 'X' else lit 'x'], ?_, ?_, ?_⟩
      · rw [push_eq (by simp; omega)]
        simp only
        rw [push_eq (by simp; omega)]
        cases f.uppercase <;> rfl
      · simp [prefixText, hs1, hs2, hs3]
      · simp; omega
    · rw [if_neg hs]
      refine ⟨[], rfl, ?_, by simpa using hlenw⟩
      unfold prefixText
      simp only [Bool.and_eq_true, bne_iff_ne, ne_eq, beq_iff_eq, not_and] at hs
      by_cases h : (f.showbase && (x : Int) != 0) = true
      · rw [if_pos h]
        simp only [Bool.and_eq_true, bne_iff_ne, ne_eq, Int.natCast_eq_zero] at h
        rw [if_neg (by omega), if_neg (hs ⟨h.1, h.2⟩)]
      · rw [if_neg h]

theorem stored_eq {out : List Byte} (h : out.length < 128) : stored out = some out := by
  unfold stored
  have : (BitVec.ofNat 8 out.length).toInt = out.length := by
    rw [BitVec.toInt_ofNat', Int.bmod_def]
    have : ((out.length : Int) % (2 ^ 8 : Nat)) = out.length := Int.emod_eq_of_lt (by omega) (by omega)
    rw [this]
    split <;> omega
  simp [this]

/-- The absolute value as the code computes it. -/
theorem unsigned_abs {w : Nat} {x : Int} (hw : 1 ≤ w) (hneg : x < 0) (hlo : -(2 ^ (w - 1) : Int) ≤ x) :
    ((2 ^ w - 1 - (x % 2 ^ w).toNat) + 1) % 2 ^ w = x.natAbs ∧ x.natAbs < 2 ^ w := by
  have hp : (2 : Int) ^ w = 2 * 2 ^ (w - 1) := by
    conv => lhs; rw [show w = (w - 1) + 1 by omega]
    ring
  have hpos : (0 : Int) < 2 ^ (w - 1) := by positivity
  have hmod : x % 2 ^ w = x + 2 ^ w := by
    rw [← Int.add_emod_right, Int.emod_eq_of_lt (by omega) (by omega)]
  have hcast : ((2 ^ w : Nat) : Int) = 2 ^ w := by push_cast; rfl
  have hto : (((x % 2 ^ w).toNat : Nat) : Int) = x + 2 ^ w := by
    rw [Int.toNat_of_nonneg (by rw [hmod]; omega), hmod]
  constructor
  · have h1 : (2 ^ w - 1 - (x % 2 ^ w).toNat) + 1 = x.natAbs := by omega
    rw [h1]
    exact Nat.mod_eq_of_lt (by omega)
  · omega

theorem encode_eq {w : Nat} (hw : 3 ≤ w) (hw' : w ≤ 126) {signed : Bool} {f : Fmt}
    (hbase : f.base = 0 ∨ (2 ≤ f.base ∧ f.base ≤ 36)) {x : Int} (hx : InRange w signed x) :
    encode w signed f x = some
      (signText signed f.showpos x ++
        prefixText f.showbase f.uppercase (if f.base = 0 then 10 else f.base) x ++
        digitText (if f.base = 0 then 10 else f.base) f.uppercase x.natAbs) := by
  unfold encode
  simp only [digitCount_two]
  generalize hB : (if f.base = 0 then 10 else f.base) = B
  have hB2 : 2 ≤ B := by subst hB; split <;> omega
  have hpre : ∀ y : Nat, x.natAbs = y →
      prefixText f.showbase f.uppercase B (y : Int) = prefixText f.showbase f.uppercase B x := by
    intro y hy
    unfold prefixText
    have : ((y : Int) != 0) = (x != 0) := by
      rw [Bool.eq_iff_iff]
      simp only [bne_iff_ne, ne_eq]
      omega
    rw [this]
  cases signed with
  | true =>
    simp only [InRange, if_true] at hx
    obtain ⟨hlo, hhi⟩ := hx
    by_cases hneg : x < 0
    · obtain ⟨habs, hlt⟩ := unsigned_abs (by omega) hneg hlo
      simp only [if_pos hneg, if_true, habs]
      obtain ⟨p, hu, hp, hl⟩ := uitoa_eq (f := f) (cap := 1 + w) hB2 hw hlt (by omega)
      rw [hu]
      simp only
      rw [push_eq (by simp; omega)]
      simp only
      rw [stored_eq (by simp; omega), hp, hpre _ rfl]
      simp [signText, hneg]
    · have hp : (2 : Int) ^ w = 2 * 2 ^ (w - 1) := by
        conv => lhs; rw [show w = (w - 1) + 1 by omega]
        ring
      have hcast : ((2 ^ w : Nat) : Int) = 2 ^ w := by push_cast; rfl
      have hpos : (0 : Int) < 2 ^ (w - 1) := by positivity
      have hto : (x % 2 ^ w).toNat = x.natAbs := by
        rw [Int.emod_eq_of_lt (by omega) (by omega)]; omega
      simp only [if_neg hneg, if_true, hto]
      obtain ⟨p, hu, hp, hl⟩ := uitoa_eq (f := f) (cap := 1 + w) (x := x.natAbs) hB2 hw (by omega) (by omega)
      rw [hu]
      simp only
      cases hs : f.showpos with
      | true =>
        simp only [if_true]
        rw [push_eq (by simp; omega)]
        simp only
        rw [stored_eq (by simp; omega), hp, hpre _ rfl]
        simp [signText, hneg]
      | false =>
        simp only [Bool.false_eq_true, if_false]
        rw [stored_eq (by simp; omega), hp, hpre _ rfl]
        simp [signText, hneg]
  | false =>
    simp only [InRange, Bool.false_eq_true, if_false] at hx
    obtain ⟨hlo, hhi⟩ := hx
    have hcast : ((2 ^ w : Nat) : Int) = 2 ^ w := by push_cast; rfl
    have hto : (x % 2 ^ w).toNat = x.natAbs := by
      rw [Int.emod_eq_of_lt hlo hhi]; omega
    simp only [Bool.false_eq_true, if_false, hto]
    obtain ⟨p, hu, hp, hl⟩ := uitoa_eq (f := f) (cap := 1 + w) (x := x.natAbs) hB2 hw (by omega) (by omega)
    rw [hu]
    simp only
    rw [stored_eq (by simp; omega), hp, hpre _ rfl]
    have hneg : ¬ x < 0 := by omega
    simp [signText, hneg]

end Actl.IntText
