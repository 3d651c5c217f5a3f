import Verif.Model.RingElement
import Verif.Props.Modular
import Mathlib.Data.ZMod.Basic
import Mathlib.Algebra.Field.ZMod

/-!
C105: programs over `ring_element` variables compute in the ring of integers modulo `M`.
-/

namespace Actl.Modular

/-! ## Specification: the same programs over the integers modulo `M` -/

/-- The variables of the mathematical program. -/
abbrev Env (M : Nat) := Nat → ZMod M

/-- What each operation means in `ZMod M`: `Meaning o ρ ρ'` says that `o` may lead from `ρ` to
`ρ'`.  A quotient is any `q` with `divisor * q = dividend`. -/
def Meaning {M : Nat} : Op → Env M → Env M → Prop
  | .dflt d, ρ, ρ' => ρ' = Function.update ρ d 0
  | .lit d k, ρ, ρ' => ρ' = Function.update ρ d (k : ZMod M)
  | .copy d a, ρ, ρ' => ρ' = Function.update ρ d (ρ a)
  | .addTo d a, ρ, ρ' => ρ' = Function.update ρ d (ρ d + ρ a)
  | .subTo d a, ρ, ρ' => ρ' = Function.update ρ d (ρ d - ρ a)
  | .mulTo d a, ρ, ρ' => ρ' = Function.update ρ d (ρ d * ρ a)
  | .divTo d a, ρ, ρ' => ∃ q, ρ a * q = ρ d ∧ ρ' = Function.update ρ d q
  | .add d a b, ρ, ρ' => ρ' = Function.update ρ d (ρ a + ρ b)
  | .sub d a b, ρ, ρ' => ρ' = Function.update ρ d (ρ a - ρ b)
  | .mul d a b, ρ, ρ' => ρ' = Function.update ρ d (ρ a * ρ b)
  | .div d a b, ρ, ρ' => ∃ q, ρ b * q = ρ a ∧ ρ' = Function.update ρ d q
  | .neg d a, ρ, ρ' => ρ' = Function.update ρ d (- ρ a)

/-- The operations of the list, one after the other. -/
def Meanings {M : Nat} : List Op → Env M → Env M → Prop
  | [], ρ, ρ' => ρ' = ρ
  | o :: os, ρ, ρ' => ∃ ρ₁, Meaning o ρ ρ₁ ∧ Meanings os ρ₁ ρ'

/-- `o` divides something by `y` in `ρ`: dividend `x`, divisor `y`. -/
def Divides {M : Nat} (o : Op) (ρ : Env M) (x y : ZMod M) : Prop :=
  (∃ d a, o = .divTo d a ∧ x = ρ d ∧ y = ρ a) ∨ (∃ d a b, o = .div d a b ∧ x = ρ a ∧ y = ρ b)

/-- The residue classes of the stored values. -/
def classes (M : Nat) (s : Store) : Env M := fun i => (s i : ZMod M)

/-- Every variable holds the representative in `[0, M)`. -/
def Canonical (M : Nat) (s : Store) : Prop := ∀ i, s i < M

/-- The numbers elements are constructed from are residues. -/
def LitOk (M : Nat) : Op → Prop
  | .lit _ k => 0 ≤ k ∧ k < M
  | _ => True

/-! ## Lemmas -/

variable {R : Ring} {M : Nat}

theorem classes_set (s : Store) (d v : Nat) :
    classes M (s.set d v) = Function.update (classes M s) d (v : ZMod M) := by
  funext i
  unfold classes Store.set Function.update
  by_cases h : i = d
  · subst h; simp
  · simp [h]

theorem canonical_set {s : Store} (hs : Canonical M s) {d v : Nat} (hv : v < M) :
    Canonical M (s.set d v) := by
  intro i
  unfold Store.set
  split
  · exact hv
  · exact hs i

theorem cast_of_int_emod {v : Nat} {z : Int} (h : (v : Int) = z % M) : (v : ZMod M) = (z : ZMod M) := by
  have h2 : (((v : Int)) : ZMod M) = ((z % M : Int) : ZMod M) := by rw [h]
  rw [ZMod.intCast_mod] at h2
  simpa using h2

theorem cast_modAdd (h : Represents R M) {x y : Nat} (hx : x < M) (hy : y < M) :
    ((modAdd R x y : Nat) : ZMod M) = x + y := by
  rw [(modAdd_correct h hx hy).2, ZMod.natCast_mod, Nat.cast_add]

theorem cast_modSub (h : Represents R M) {x y : Nat} (hx : x < M) (hy : y < M) :
    ((modSub R x y : Nat) : ZMod M) = x - y := by
  rw [cast_of_int_emod (modSub_correct h hx hy).2]; simp

theorem cast_modNeg (h : Represents R M) {x : Nat} (hx : x < M) :
    ((modNeg R x : Nat) : ZMod M) = - (x : ZMod M) := by
  rw [cast_of_int_emod (modNeg_correct h hx).2]; simp

theorem literal_eq (h : Represents R M) {k : Int} (h0 : 0 ≤ k) (h1 : k < M) :
    literal R k = k.toNat := by
  unfold literal
  have := h.le
  rw [Int.emod_eq_of_lt h0 (by omega)]

theorem cast_eq_of_lt {x y : Nat} (hx : x < M) (hy : y < M) (h : (x : ZMod M) = y) : x = y := by
  rw [ZMod.natCast_eq_natCast_iff] at h
  unfold Nat.ModEq at h
  rwa [Nat.mod_eq_of_lt hx, Nat.mod_eq_of_lt hy] at h

/-- What the assignment of a product does. -/
theorem assignMul_ok (h : Represents R M) {s : Store} (hs : Canonical M s) (d : Nat)
    {x y : Nat} (hx : x < M) (hy : y < M) :
    ∃ s', assignMul R s d x y = .ok s' ∧ Canonical M s' ∧
      classes M s' = Function.update (classes M s) d ((x : ZMod M) * y) := by
  refine ⟨s.set d (x * y % M), ?_, canonical_set hs (Nat.mod_lt _ h.pos), ?_⟩
  · unfold assignMul; rw [modMul_correct h hx hy]
  · rw [classes_set, ZMod.natCast_mod, Nat.cast_mul]

/-- What the assignment of a quotient does. -/
theorem assignDiv_cases (h : Represents R M) {s : Store} (hs : Canonical M s) (d : Nat)
    {x y : Nat} (hx : x < M) (hy : y < M) :
    (∃ s' q, assignDiv R s d x y = .ok s' ∧ Canonical M s' ∧ (y : ZMod M) * q = x ∧
      classes M s' = Function.update (classes M s) d q) ∨
    (assignDiv R s d x y = .throws s ∧ ∀ q : ZMod M, (y : ZMod M) * q ≠ x) ∨
    (assignDiv R s d x y = .ub ∧ (y : ZMod M) = 0 ∧ M = 2 ^ R.w) := by
  by_cases h0 : y ≠ 0 ∨ M < 2 ^ R.w
  · rcases modDiv_correct h hx hy h0 with ⟨r, h1, h2, h3⟩ | ⟨h1, h2⟩
    · refine Or.inl ⟨s.set d r, (r : ZMod M), ?_, canonical_set hs h2, ?_, classes_set s d r⟩
      · unfold assignDiv; rw [h1]
      · rw [← Nat.cast_mul, ← ZMod.natCast_mod, h3]
    · refine Or.inr (Or.inl ⟨?_, ?_⟩)
      · unfold assignDiv; rw [h1]
      · intro q hq
        haveI : NeZero M := ⟨h.pos.ne'⟩
        apply h2 q.val
        apply cast_eq_of_lt (Nat.mod_lt _ h.pos) hx
        rw [ZMod.natCast_mod, Nat.cast_mul, ZMod.natCast_zmod_val, hq]
  · push Not at h0
    obtain ⟨h1, h2⟩ := h0
    have h3 : M = 2 ^ R.w := le_antisymm h.le h2
    refine Or.inr (Or.inr ⟨?_, by rw [h1]; simp, h3⟩)
    unfold assignDiv
    rw [h1, modDiv_ub (h3 ▸ h)]

/-- One operation. -/
theorem stepOp_cases (h : Represents R M) {s : Store} (hs : Canonical M s) (o : Op)
    (hl : LitOk M o) :
    (∃ s', stepOp R s o = .ok s' ∧ Canonical M s' ∧ Meaning o (classes M s) (classes M s')) ∨
    (∃ x y, stepOp R s o = .throws s ∧ Divides o (classes M s) x y ∧ ∀ q, y * q ≠ x) ∨
    (∃ x y, stepOp R s o = .ub ∧ Divides o (classes M s) x y ∧ y = 0 ∧ M = 2 ^ R.w) := by
  cases o with
  | dflt d =>
    refine Or.inl ⟨_, rfl, canonical_set hs h.pos, ?_⟩
    show _ = _
    rw [classes_set]; simp
  | lit d k =>
    refine Or.inl ⟨_, rfl, canonical_set hs ?_, ?_⟩
    · rw [literal_eq h hl.1 hl.2]; have := hl.1; have := hl.2; omega
    · show _ = _
      rw [classes_set, literal_eq h hl.1 hl.2]
      congr 1
      rw [← Int.cast_natCast, Int.toNat_of_nonneg hl.1]
  | copy d a =>
    refine Or.inl ⟨_, rfl, canonical_set hs (hs a), ?_⟩
    show _ = _
    rw [classes_set]; rfl
  | addTo d a =>
    refine Or.inl ⟨_, rfl, canonical_set hs (modAdd_correct h (hs d) (hs a)).1, ?_⟩
    show _ = _
    rw [classes_set, cast_modAdd h (hs d) (hs a)]; rfl
  | subTo d a =>
    refine Or.inl ⟨_, rfl, canonical_set hs (modSub_correct h (hs d) (hs a)).1, ?_⟩
    show _ = _
    rw [classes_set, cast_modSub h (hs d) (hs a)]; rfl
  | mulTo d a =>
    obtain ⟨s', h1, h2, h3⟩ := assignMul_ok h hs d (hs d) (hs a)
    exact Or.inl ⟨s', h1, h2, h3⟩
  | divTo d a =>
    rcases assignDiv_cases h hs d (hs d) (hs a) with ⟨s', q, h1, h2, h3, h4⟩ | ⟨h1, h2⟩ | ⟨h1, h2, h3⟩
    · exact Or.inl ⟨s', h1, h2, q, h3, h4⟩
    · exact Or.inr (Or.inl ⟨_, _, h1, Or.inl ⟨d, a, rfl, rfl, rfl⟩, h2⟩)
    · exact Or.inr (Or.inr ⟨_, _, h1, Or.inl ⟨d, a, rfl, rfl, rfl⟩, h2, h3⟩)
  | add d a b =>
    refine Or.inl ⟨_, rfl, canonical_set hs (modAdd_correct h (hs a) (hs b)).1, ?_⟩
    show _ = _
    rw [classes_set, cast_modAdd h (hs a) (hs b)]; rfl
  | sub d a b =>
    refine Or.inl ⟨_, rfl, canonical_set hs (modSub_correct h (hs a) (hs b)).1, ?_⟩
    show _ = _
    rw [classes_set, cast_modSub h (hs a) (hs b)]; rfl
  | mul d a b =>
    obtain ⟨s', h1, h2, h3⟩ := assignMul_ok h hs d (hs a) (hs b)
    exact Or.inl ⟨s', h1, h2, h3⟩
  | div d a b =>
    rcases assignDiv_cases h hs d (hs a) (hs b) with ⟨s', q, h1, h2, h3, h4⟩ | ⟨h1, h2⟩ | ⟨h1, h2, h3⟩
    · exact Or.inl ⟨s', h1, h2, q, h3, h4⟩
    · exact Or.inr (Or.inl ⟨_, _, h1, Or.inr ⟨d, a, b, rfl, rfl, rfl⟩, h2⟩)
    · exact Or.inr (Or.inr ⟨_, _, h1, Or.inr ⟨d, a, b, rfl, rfl, rfl⟩, h2, h3⟩)
  | neg d a =>
    refine Or.inl ⟨_, rfl, canonical_set hs (modNeg_correct h (hs a)).1, ?_⟩
    show _ = _
    rw [classes_set, cast_modNeg h (hs a)]; rfl

/-! ## Properties -/

/-- **C105**: every program over `ring_element` variables computes in the integers modulo `M`
and keeps every variable in `[0, M)`.  It stops early only at a division: with an exception
when no quotient exists, and then the variables are exactly what the completed operations
made them; in undefined behaviour only at a division by zero in the ring modulo `2 ^ w`. -/
theorem program_residues (h : Represents R M) (os : List Op) (hl : ∀ o ∈ os, LitOk M o)
    (s : Store) (hs : Canonical M s) :
    (∃ s', runOps R os s = .ok s' ∧ Canonical M s' ∧
      Meanings os (classes M s) (classes M s')) ∨
    (∃ pre o post s' x y, os = pre ++ o :: post ∧ Canonical M s' ∧
      Meanings pre (classes M s) (classes M s') ∧ Divides o (classes M s') x y ∧
      ((runOps R os s = .throws s' ∧ ∀ q, y * q ≠ x) ∨
       (runOps R os s = .ub ∧ y = 0 ∧ M = 2 ^ R.w))) := by
  induction os generalizing s with
  | nil => exact Or.inl ⟨s, rfl, hs, rfl⟩
  | cons o os ih =>
    rcases stepOp_cases h hs o (hl o (by simp)) with ⟨s₁, h1, h2, h3⟩ | ⟨x, y, h1, h2, h3⟩ |
      ⟨x, y, h1, h2, h3⟩
    · have hr : runOps R (o :: os) s = runOps R os s₁ := by simp only [runOps, h1]
      rw [hr]
      rcases ih (fun p hp => hl p (by simp [hp])) s₁ h2 with ⟨s', g1, g2, g3⟩ |
        ⟨pre, p, post, s', x, y, g1, g2, g3, g4, g5⟩
      · exact Or.inl ⟨s', g1, g2, _, h3, g3⟩
      · exact Or.inr ⟨o :: pre, p, post, s', x, y, by rw [g1]; rfl, g2, ⟨_, h3, g3⟩, g4, g5⟩
    · refine Or.inr ⟨[], o, os, s, x, y, rfl, hs, rfl, h2, Or.inl ⟨?_, h3⟩⟩
      simp only [runOps, h1]
    · refine Or.inr ⟨[], o, os, s, x, y, rfl, hs, rfl, h2, Or.inr ⟨?_, h3⟩⟩
      simp only [runOps, h1]

/-- **C105**: `==` on such variables is equality of residue classes. -/
theorem equalVars_iff {s : Store} (hs : Canonical M s) (a b : Nat) :
    equalVars s a b = true ↔ (s a : ZMod M) = s b := by
  unfold equalVars
  rw [beq_iff_eq]
  exact ⟨fun h => by rw [h], fun h => cast_eq_of_lt (hs a) (hs b) h⟩

/-- The meaning of an operation modulo a prime, where `/` is the division of the field. -/
def fieldOp {p : Nat} : Op → Env p → Env p
  | .dflt d, ρ => Function.update ρ d 0
  | .lit d k, ρ => Function.update ρ d (k : ZMod p)
  | .copy d a, ρ => Function.update ρ d (ρ a)
  | .addTo d a, ρ => Function.update ρ d (ρ d + ρ a)
  | .subTo d a, ρ => Function.update ρ d (ρ d - ρ a)
  | .mulTo d a, ρ => Function.update ρ d (ρ d * ρ a)
  | .divTo d a, ρ => Function.update ρ d (ρ d * (ρ a)⁻¹)
  | .add d a b, ρ => Function.update ρ d (ρ a + ρ b)
  | .sub d a b, ρ => Function.update ρ d (ρ a - ρ b)
  | .mul d a b, ρ => Function.update ρ d (ρ a * ρ b)
  | .div d a b, ρ => Function.update ρ d (ρ a * (ρ b)⁻¹)
  | .neg d a, ρ => Function.update ρ d (- ρ a)

/-- No operation of the program divides by zero. -/
def NoZeroDiv {p : Nat} : List Op → Env p → Prop
  | [], _ => True
  | o :: os, ρ => (∀ x y, Divides o ρ x y → y ≠ 0) ∧ NoZeroDiv os (fieldOp o ρ)

theorem meaning_field {p : Nat} [Fact p.Prime] {o : Op} {ρ ρ' : Env p} (h : Meaning o ρ ρ')
    (hd : ∀ x y, Divides o ρ x y → y ≠ 0) : ρ' = fieldOp o ρ := by
  have key : ∀ x y q : ZMod p, y ≠ 0 → y * q = x → q = x * y⁻¹ := by
    intro x y q hy hq
    rw [← hq, mul_comm y q, mul_assoc, mul_inv_cancel₀ hy, mul_one]
  cases o with
  | divTo d a =>
    obtain ⟨q, h1, h2⟩ := h
    rw [h2, key _ _ q (hd _ _ (Or.inl ⟨d, a, rfl, rfl, rfl⟩)) h1]; rfl
  | div d a b =>
    obtain ⟨q, h1, h2⟩ := h
    rw [h2, key _ _ q (hd _ _ (Or.inr ⟨d, a, b, rfl, rfl, rfl⟩)) h1]; rfl
  | _ => exact h

/-- **C105**: modulo a prime, a program that never divides by zero runs to the end and
computes exactly the values in the field of integers modulo the prime. -/
theorem program_prime {p : Nat} [Fact p.Prime] (h : Represents R p) (os : List Op)
    (hl : ∀ o ∈ os, LitOk p o) (s : Store) (hs : Canonical p s)
    (hd : NoZeroDiv os (classes p s)) :
    ∃ s', runOps R os s = .ok s' ∧ Canonical p s' ∧
      classes p s' = os.foldl (fun ρ o => fieldOp o ρ) (classes p s) := by
  induction os generalizing s with
  | nil => exact ⟨s, rfl, hs, rfl⟩
  | cons o os ih =>
    obtain ⟨hd1, hd2⟩ := hd
    rcases stepOp_cases h hs o (hl o (by simp)) with ⟨s₁, h1, h2, h3⟩ | ⟨x, y, h1, h2, h3⟩ |
      ⟨x, y, h1, h2, h3, -⟩
    · have hf := meaning_field h3 hd1
      obtain ⟨s', g1, g2, g3⟩ := ih (fun q hq => hl q (by simp [hq])) s₁ h2 (by rw [hf]; exact hd2)
      refine ⟨s', ?_, g2, ?_⟩
      · simp only [runOps, h1]; exact g1
      · rw [g3, hf]; rfl
    · exact absurd (by rw [mul_comm, mul_assoc, mul_comm y⁻¹,
        mul_inv_cancel₀ (hd1 x y h2), mul_one] : y * (x * y⁻¹) = x) (h3 _)
    · exact absurd h3 (hd1 x y h2)

/-- **C105** fails for elements constructed from a number that is not below the modulus: it is
kept unreduced, so that `==` with the element of the same residue class is false. -/
theorem unreduced_fails (h : Represents R M) {k : Nat} (h1 : M ≤ k) (h2 : k < 2 ^ R.w)
    (s : Store) :
    ∃ s', runOps R [.lit 0 k, .lit 1 (k % M : Nat)] s = .ok s' ∧ s' 0 = k ∧
      equalVars s' 0 1 = false ∧ (s' 0 : ZMod M) = s' 1 := by
  have e : ∀ n : Nat, n < 2 ^ R.w → literal R (n : Int) = n := by
    intro n hn
    unfold literal
    rw [Int.emod_eq_of_lt (by omega) (by omega)]; simp
  have hm : k % M < M := Nat.mod_lt _ h.pos
  refine ⟨_, rfl, ?_, ?_, ?_⟩
  · simp [Store.set, e k h2]
  · simp only [equalVars, Store.set, e k h2, e (k % M) (by omega)]
    simp only [if_true, if_neg (by decide : ¬ (0 = 1))]
    rw [beq_eq_false_iff_ne]; omega
  · simp only [Store.set, e k h2, e (k % M) (by omega)]
    simp

/-- **C105** fails for negative numbers: the element constructed from one never holds its
residue, unless the modulus divides `2 ^ w`. -/
theorem negative_fails (hM : 0 < M) (hd : ¬ M ∣ 2 ^ R.w) {k : Int} (h1 : k < 0)
    (h2 : -((2 ^ R.w : Nat) : Int) ≤ k) : (literal R k : Int) ≠ k % M := by
  have e : literal R k = (k + ((2 ^ R.w : Nat) : Int)).toNat := by
    unfold literal
    rw [← Int.add_emod_right, Int.emod_eq_of_lt (by omega) (by omega)]
  intro hc
  rw [e, Int.toNat_of_nonneg (by omega)] at hc
  apply hd
  have h3 : (M : Int) ∣ ((2 ^ R.w : Nat) : Int) := by
    have h4 := Int.emod_add_mul_ediv k M
    exact ⟨-(k / M), by rw [Int.mul_neg]; omega⟩
  exact Int.natCast_dvd_natCast.mp h3

/-- **C105**: `check()` asserts exactly that the value is canonical when the modulus fits the
word, and fails for every element of the ring modulo `2 ^ w`. -/
theorem check_iff (h : Represents R M) (s : Store) (a : Nat) :
    checkVar R s a = true ↔ s a < M ∧ M < 2 ^ R.w := by
  unfold checkVar
  rw [decide_eq_true_iff, h.stored]
  rcases Nat.lt_or_ge M (2 ^ R.w) with h1 | h1
  · rw [Nat.mod_eq_of_lt h1]; exact ⟨fun g => ⟨g, h1⟩, fun g => g.1⟩
  · have : M = 2 ^ R.w := le_antisymm h.le h1
    rw [this, Nat.mod_self]
    constructor
    · intro g; omega
    · intro g; omega

/-! Concrete cases meeting the hypotheses. -/

/-- `int_modulo<7>`: `a = 3; b = 5; c = a / b; c += c; a = -c; b -= b;` -/
def sampleOps : List Op :=
  [.lit 0 3, .lit 1 5, .div 2 0 1, .addTo 2 2, .neg 0 2, .subTo 1 1]

theorem mod7 : Represents ⟨32, 7, true⟩ 7 :=
  ⟨by decide, by decide, by decide, by decide, by decide⟩

example : ∀ o ∈ sampleOps, LitOk 7 o := by
  intro o ho
  simp only [sampleOps, List.mem_cons, List.not_mem_nil, or_false] at ho
  rcases ho with rfl | rfl | rfl | rfl | rfl | rfl <;> simp [LitOk]

example : (match runOps ⟨32, 7, true⟩ sampleOps (fun _ => 0) with
    | .ok s => [s 0, s 1, s 2]
    | _ => []) = [3, 0, 4] := by decide +kernel

example : NoZeroDiv sampleOps (classes 7 fun _ => 0) := by
  simp [NoZeroDiv, sampleOps, Divides, fieldOp]
  decide

example : (-1 : Int) % (7 : Nat) ≠ literal ⟨32, 7, true⟩ (-1) := by decide +kernel

end Actl.Modular
