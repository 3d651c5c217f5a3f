import Verif.Spec.Modular
import Mathlib.Data.Int.ModEq
import Mathlib.Data.Nat.ModEq
import Mathlib.Data.Int.GCD
import Mathlib.Tactic.Ring

namespace Actl.Modular

variable {R : Ring} {M : Nat}

theorem wsub_of_le {w x y : Nat} (hy : y ≤ x) (hx : x < 2 ^ w) : wsub w x y = x - y := by
  unfold wsub
  have h : x + (2 ^ w - y) = (x - y) + 2 ^ w := by omega
  rw [h, Nat.add_mod_right, Nat.mod_eq_of_lt (by omega)]

theorem wsub_of_lt {w x y : Nat} (hxy : x < y) (hy : y ≤ 2 ^ w) : wsub w x y = x + 2 ^ w - y := by
  unfold wsub
  rw [Nat.mod_eq_of_lt (by omega)]; omega

/-- `mod - y` as computed in a word is `M - y`, reduced. -/
theorem wsub_mod (h : Represents R M) {y : Nat} (hy : y ≤ M) :
    wsub R.w R.mod y = (M - y) % 2 ^ R.w := by
  rw [h.stored]
  rcases Nat.lt_or_eq_of_le h.le with hlt | heq
  · rw [Nat.mod_eq_of_lt hlt, wsub_of_le hy hlt, Nat.mod_eq_of_lt (by omega)]
  · rw [heq, Nat.mod_self]; unfold wsub; simp

theorem modAdd_eq (h : Represents R M) {x y : Nat} (hx : x < M) (hy : y < M) :
    modAdd R x y = (x + y) % M := by
  have hle := h.le
  unfold modAdd
  simp only [wsub_mod h hy.le]
  by_cases hc : M = 2 ^ R.w ∧ y = 0
  · obtain ⟨h1, h2⟩ := hc
    subst h2
    simp only [Nat.sub_zero, ← h1, Nat.mod_self, Nat.not_lt_zero, if_false, Nat.add_zero]
    rw [wsub_of_le (Nat.zero_le _) (by omega), Nat.sub_zero, Nat.mod_eq_of_lt hx]
  · have hlt : M - y < 2 ^ R.w := by
      rcases Nat.lt_or_eq_of_le hle with hlt | heq
      · omega
      · have : y ≠ 0 := fun h0 => hc ⟨heq, h0⟩
        omega
    rw [Nat.mod_eq_of_lt hlt]
    split
    · unfold wadd
      rw [Nat.mod_eq_of_lt (by omega), Nat.mod_eq_of_lt (by omega)]
    · rw [wsub_of_le (by omega) (by omega)]
      have : x + y = (x - (M - y)) + M := by omega
      rw [this, Nat.add_mod_right, Nat.mod_eq_of_lt (by omega)]

theorem modSub_eq (h : Represents R M) {x y : Nat} (hx : x < M) (hy : y < M) :
    modSub R x y = (x + (M - y)) % M := by
  have hle := h.le
  unfold modSub
  rw [wsub_mod h hy.le]
  split
  · have hlt : M - y < 2 ^ R.w := by omega
    rw [Nat.mod_eq_of_lt hlt]
    unfold wadd
    rw [Nat.mod_eq_of_lt (by omega), Nat.mod_eq_of_lt (by omega)]
  · rw [wsub_of_le (by omega) (by omega)]
    have : x + (M - y) = (x - y) + M := by omega
    rw [this, Nat.add_mod_right, Nat.mod_eq_of_lt (by omega)]

theorem modAdd_lt (h : Represents R M) {x y : Nat} (hx : x < M) (hy : y < M) :
    modAdd R x y < M := by
  rw [modAdd_eq h hx hy]; exact Nat.mod_lt _ h.pos

theorem modSub_lt (h : Represents R M) {x y : Nat} (hx : x < M) (hy : y < M) :
    modSub R x y < M := by
  rw [modSub_eq h hx hy]; exact Nat.mod_lt _ h.pos

theorem modMulBinaryLoop_eq (h : Represents R M) {r x y : Nat} (hr : r < M) (hx : x < M) :
    modMulBinaryLoop R r x y = (r + x * y) % M := by
  induction y using Nat.strongRecOn generalizing r x with
  | ind y ih =>
    unfold modMulBinaryLoop
    simp only
    have hr' : (if y % 2 = 1 then modAdd R r x else r) = (r + x * (y % 2)) % M := by
      split
      · rename_i h1
        rw [h1, modAdd_eq h hr hx, Nat.mul_one]
      · rename_i h1
        have : y % 2 = 0 := by omega
        rw [this, Nat.mul_zero, Nat.add_zero, Nat.mod_eq_of_lt hr]
    rw [hr']
    split
    · rename_i hne
      rw [ih (y / 2) (by omega) (Nat.mod_lt _ h.pos) (modAdd_lt h hx hx), modAdd_eq h hx hx]
      have key : r + x * y = (r + x * (y % 2)) + (x + x) * (y / 2) := by
        conv => lhs; rw [← Nat.div_add_mod y 2]
        ring
      rw [key]
      exact Nat.ModEq.add (Nat.mod_modEq _ _) (Nat.ModEq.mul_right _ (Nat.mod_modEq _ _))
    · rename_i hz
      have h2 : y % 2 = y := by omega
      rw [h2]

theorem modMul_eq (h : Represents R M) {x y : Nat} (hx : x < M) (hy : y < 2 ^ R.w) :
    modMul R x y = some (x * y % M) := by
  have hle := h.le
  unfold modMul
  split
  · rename_i hc
    simp only [Bool.and_eq_true, beq_iff_eq] at hc
    have : M = 2 ^ R.w := by
      rcases Nat.lt_or_eq_of_le hle with hlt | heq
      · have h1 := h.stored
        rw [Nat.mod_eq_of_lt hlt] at h1
        have := h.pos; omega
      · exact heq
    simp [wmul, this]
  · rename_i hc
    have hlt : M < 2 ^ R.w := by
      rcases Nat.lt_or_eq_of_le hle with hlt | heq
      · exact hlt
      · exfalso; apply hc
        simp [h.stored, h.static heq, heq]
    have hm : R.mod = M := by rw [h.stored, Nat.mod_eq_of_lt hlt]
    split
    · rename_i hw
      have hw32 : R.w ≤ 32 := by rcases h.width with h1 | h1 <;> omega
      have hp : (2 : Nat) ^ R.w ≤ 2 ^ 32 := Nat.pow_le_pow_right (by omega) hw32
      rw [hm, if_neg (by have := h.pos; omega)]
      have hxy : x * y < 2 ^ 64 := by
        calc x * y ≤ 2 ^ 32 * y := Nat.mul_le_mul_right _ (by omega)
          _ < 2 ^ 32 * 2 ^ 32 := Nat.mul_lt_mul_of_pos_left (by omega) (by decide)
          _ = 2 ^ 64 := by decide
      unfold wmul
      rw [Nat.mod_eq_of_lt hxy, Nat.mod_eq_of_lt (Nat.lt_trans (Nat.mod_lt _ h.pos) hlt)]
    · unfold modMulBinary
      rw [modMulBinaryLoop_eq h h.pos hx, Nat.zero_add]

/-- Congruence form of `modSub_eq`. -/
theorem modSub_modEq (h : Represents R M) {x y : Nat} (hx : x < M) (hy : y < M) :
    (modSub R x y : Int) ≡ x - y [ZMOD M] := by
  rw [modSub_eq h hx hy]
  rw [Int.natCast_mod]
  refine (Int.mod_modEq _ _).trans ?_
  rw [Int.modEq_iff_dvd]
  push_cast [Nat.cast_sub hy.le]
  exact ⟨-1, by ring⟩

theorem modAdd_modEq (h : Represents R M) {x y : Nat} (hx : x < M) (hy : y < M) :
    (modAdd R x y : Int) ≡ x + y [ZMOD M] := by
  rw [modAdd_eq h hx hy, Int.natCast_mod]
  refine (Int.mod_modEq _ _).trans ?_
  push_cast
  rfl

/-- Loop invariant of the extended Euclid loop, and its result. -/
theorem modDivLoop_spec (h : Represents R M) {y p q a b : Nat}
    (ha : a < M) (hb : b < M) (hpq : q ≠ 0 → p / q < M) (hq : q < M)
    (hpa : (p : Int) ≡ a * y [ZMOD M]) (hqb : (q : Int) ≡ b * y [ZMOD M]) :
    ∃ g c, modDivLoop R p q a b = some (g, c) ∧ g = Nat.gcd p q ∧ c < M ∧
      (g : Int) ≡ c * y [ZMOD M] := by
  induction q using Nat.strongRecOn generalizing p a b with
  | ind q ih =>
    unfold modDivLoop
    split
    · rename_i hq0
      subst hq0
      exact ⟨p, a, rfl, by simp, ha, hpa⟩
    · rename_i hq0
      have hle := h.le
      have hb' : b < 2 ^ R.w := by omega
      rw [modMul_eq h (hpq hq0) hb']
      simp only
      have ht : p / q * b % M < M := Nat.mod_lt _ h.pos
      have hlt : p % q < q := Nat.mod_lt _ (Nat.pos_of_ne_zero hq0)
      have key : ((p % q : Nat) : Int) ≡ (modSub R a (p / q * b % M) : Nat) * y [ZMOD M] := by
        have e1 : ((p % q : Nat) : Int) = p - (p / q : Nat) * q := by
          have := Nat.div_add_mod p q
          have h' : (p : Int) = q * (p / q : Nat) + (p % q : Nat) := by exact_mod_cast this.symm
          rw [h']; push_cast; ring
        rw [e1]
        have e2 : (((p / q * b % M : Nat)) : Int) ≡ (p / q : Nat) * b [ZMOD M] := by
          rw [Int.natCast_mod]; exact_mod_cast Int.mod_modEq (((p / q : Nat) : Int) * b) M
        have e3 := modSub_modEq h ha ht
        have e4 : ((modSub R a (p / q * b % M) : Nat) : Int) * y ≡
            (a - (p / q : Nat) * b) * y [ZMOD M] :=
          Int.ModEq.mul_right _ (e3.trans (Int.ModEq.sub_left _ e2))
        refine Int.ModEq.trans ?_ e4.symm
        have : ((a : Int) - (p / q : Nat) * b) * y = a * y - (p / q : Nat) * (b * y) := by ring
        rw [this]
        exact Int.ModEq.sub hpa (Int.ModEq.mul_left _ hqb)
      obtain ⟨g, c, h1, h2, h3, h4⟩ := ih (p % q) hlt (p := q) (a := b)
        (b := modSub R a (p / q * b % M)) hb (modSub_lt h ha ht)
        (fun _ => lt_of_le_of_lt (Nat.div_le_self _ _) hq) (by omega) hqb key
      refine ⟨g, c, h1, ?_, h3, h4⟩
      rw [h2, Nat.gcd_comm, ← Nat.gcd_rec, Nat.gcd_comm]

/-- The result of `mod_div`'s loop from its initial state. -/
theorem modDiv_loop_result (h : Represents R M) {y : Nat} (hy : y < M)
    (hy0 : y ≠ 0 ∨ M < 2 ^ R.w) :
    ∃ c, modDivLoop R (wsub R.w R.mod y) y (wsub R.w R.mod 1) (1 % 2 ^ R.w) =
        some (Nat.gcd M y, c) ∧ c < M ∧ ((Nat.gcd M y : Nat) : Int) ≡ c * y [ZMOD M] := by
  have hpos := h.pos
  have hle := h.le
  have hp : wsub R.w R.mod y = M - y := by
    rw [wsub_mod h hy.le, Nat.mod_eq_of_lt]; omega
  have ha : wsub R.w R.mod 1 = M - 1 := by
    rw [wsub_mod h (by omega), Nat.mod_eq_of_lt]; omega
  rw [hp, ha]
  by_cases hy1 : y = 0
  · subst hy1
    unfold modDivLoop
    simp only [dif_pos, Nat.sub_zero, Nat.gcd_zero_right]
    refine ⟨M - 1, rfl, by omega, ?_⟩
    rw [Int.modEq_iff_dvd]; exact ⟨-1, by simp⟩
  · have h1 : 1 % 2 ^ R.w = 1 := Nat.mod_eq_of_lt (by omega)
    rw [h1]
    have k1 : ((M - y : Nat) : Int) ≡ (M - 1 : Nat) * y [ZMOD M] := by
      rw [Int.modEq_iff_dvd]
      push_cast [Nat.cast_sub hy.le, Nat.cast_sub (show 1 ≤ M from hpos)]
      exact ⟨y - 1, by ring⟩
    obtain ⟨g, c, e1, e2, e3, e4⟩ := modDivLoop_spec h (y := y) (p := M - y) (q := y) (a := M - 1)
      (b := 1) (by omega) (by omega)
      (fun _ => lt_of_le_of_lt (Nat.div_le_self _ _) (by omega)) hy k1 (by simp)
    refine ⟨c, ?_, e3, ?_⟩
    · rw [e1, e2, Nat.gcd_sub_self_left hy.le]
    · rw [← Nat.gcd_sub_self_left hy.le, ← e2]; exact e4

end Actl.Modular
