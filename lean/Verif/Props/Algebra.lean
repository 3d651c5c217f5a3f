import Verif.Model.Algebra
import Verif.Props.Equality
import Mathlib.Tactic

/-! # C92: operations on numbers of the built-in integer types -/

namespace Actl.Algebra

open Equality (IntTy Elem promote common convert Mixed)

/-! ### What is meant -/

/-- A type that C++ has: of one bit only if it is `bool`, and that is unsigned. -/
def Proper (t : IntTy) : Prop := 0 < t.bits ∧ (t.signed = true → 2 ≤ t.bits)

/-- A value of a type that C++ has. -/
def Ok (e : Elem) : Prop := Proper e.ty ∧ e.Valid

/-- The `i`-th binary digit of a number, negative ones having infinitely many leading ones. -/
def bit (x : Int) (i : Nat) : Prop := x / 2 ^ i % 2 = 1

instance (x : Int) (i : Nat) : Decidable (bit x i) := inferInstanceAs (Decidable (_ = _))

/-- The type in which an operator of built-in types computes. -/
def resultTy (a b : Elem) : IntTy := common (promote a.ty) (promote b.ty)

/-! ### Types and conversions -/

private theorem pow_mono {a b : Nat} (h : a ≤ b) : (2 ^ a : Int) ≤ 2 ^ b :=
  pow_le_pow_right₀ (by norm_num) h

private theorem pow_split {n : Nat} (h : 0 < n) : (2 ^ n : Int) = 2 * 2 ^ (n - 1) := by
  obtain ⟨m, rfl⟩ : ∃ m, n = m + 1 := ⟨n - 1, by omega⟩
  simp [pow_succ]; ring

private theorem common_self (t : IntTy) : common t t = t := by
  obtain ⟨n, s⟩ := t; simp [common]

private theorem common_swap (s t : IntTy) : common s t = common t s := by
  obtain ⟨m, s⟩ := s
  obtain ⟨n, t⟩ := t
  cases s <;> cases t <;> simp [common, max_comm]

private theorem promote_idem (t : IntTy) : promote (promote t) = promote t := by
  unfold promote; split_ifs <;> simp_all

private theorem promote_wide (t : IntTy) : 32 ≤ (promote t).bits := by
  unfold promote; split_ifs <;> simp_all

private theorem common_wide (s t : IntTy) (hs : 32 ≤ s.bits) (ht : 32 ≤ t.bits) : 32 ≤ (common s t).bits := by
  unfold common; dsimp only; split_ifs <;> first | assumption | simp_all

private theorem promote_of_wide {t : IntTy} (h : 32 ≤ t.bits) : promote t = t := by
  unfold promote; rw [if_neg (by omega)]

private theorem resultTy_wide (a b : Elem) : 32 ≤ (resultTy a b).bits :=
  common_wide _ _ (promote_wide _) (promote_wide _)

private theorem promote_ge (t : IntTy) : t.bits ≤ (promote t).bits := by
  unfold promote; split_ifs <;> simp <;> omega

private theorem common_ge (s t : IntTy) : s.bits ≤ (common s t).bits := by
  obtain ⟨m, s⟩ := s
  obtain ⟨n, t⟩ := t
  cases s <;> cases t <;> simp [common] <;> split_ifs <;> simp <;> omega

private theorem resultTy_ge (a b : Elem) : a.ty.bits ≤ (resultTy a b).bits :=
  (promote_ge _).trans (common_ge _ _)

private theorem valid_promote {e : Elem} (h : e.Valid) : (⟨promote e.ty, e.val⟩ : Elem).Valid := by
  unfold promote
  split_ifs with hb
  · unfold Elem.Valid at *
    simp only [if_true]
    have h1 : (2 ^ e.ty.bits : Int) ≤ 2 ^ 31 := pow_mono (by omega)
    have h2 : (2 ^ (e.ty.bits - 1) : Int) ≤ 2 ^ 31 := pow_mono (by omega)
    norm_num at h1 h2 ⊢
    split_ifs at h <;> constructor <;> linarith [h.1, h.2]
  · exact h

/-- A value of a type is a value of every signed common type. -/
private theorem valid_common {x : Int} {s t : IntTy} (h : (⟨s, x⟩ : Elem).Valid)
    (hs : (common s t).signed = true) (h0 : 0 < s.bits) : (⟨common s t, x⟩ : Elem).Valid := by
  obtain ⟨m, s⟩ := s
  obtain ⟨n, t⟩ := t
  unfold Elem.Valid at *
  have key : ∀ k, m ≤ k → (2 ^ (m - 1) : Int) ≤ 2 ^ (k - 1) := fun k hk => pow_mono (by omega)
  have key' : ∀ k, m < k → (2 ^ m : Int) ≤ 2 ^ (k - 1) := fun k hk => pow_mono (by omega)
  have pos : ∀ k : Nat, (0 : Int) < 2 ^ k := fun k => by positivity
  cases s <;> cases t <;> simp only [common] at hs ⊢
  · simp at hs
  · simp only [Bool.false_eq_true, if_false, reduceCtorEq] at hs h ⊢
    by_cases h1 : n ≤ m
    · rw [if_pos h1] at hs; exact absurd hs (by simp)
    · rw [if_neg h1]
      simp only [if_true]
      have := key' n (by omega)
      have := pos (n - 1)
      omega
  · simp only [if_true, reduceCtorEq, if_false] at hs h ⊢
    by_cases h1 : m ≤ n
    · rw [if_pos h1] at hs; exact absurd hs (by simp)
    · rw [if_neg h1]; exact h
  · simp only [if_true] at h ⊢
    have := key (max m n) (le_max_left _ _)
    omega

private theorem valid_convert {x : Int} {t : IntTy} (h : t.signed = true → (⟨t, x⟩ : Elem).Valid) :
    (⟨t, convert t x⟩ : Elem).Valid := by
  unfold convert
  by_cases hs : t.signed = true
  · rw [if_pos hs]; exact h hs
  · rw [if_neg hs]
    unfold Elem.Valid
    simp only [hs, Bool.false_eq_true, if_false]
    exact ⟨Int.emod_nonneg _ (by positivity), Int.emod_lt_of_pos _ (by positivity)⟩

private theorem convert_valid {x : Int} {t : IntTy} (h : (⟨t, x⟩ : Elem).Valid) : convert t x = x := by
  unfold convert Elem.Valid at *
  split_ifs at * with hs
  · rfl
  · exact Int.emod_eq_of_lt h.1 h.2

private theorem convert_modEq (t : IntTy) (x : Int) : convert t x ≡ x [ZMOD 2 ^ t.bits] := by
  unfold convert
  split_ifs
  · rfl
  · exact Int.mod_modEq _ _

private theorem convert_result_left {a b : Elem} (ha : Ok a) :
    (⟨resultTy a b, convert (resultTy a b) a.val⟩ : Elem).Valid :=
  valid_convert fun hs => valid_common (valid_promote ha.2) hs (by have := promote_wide a.ty; omega)

/-! ### Sums and products -/

private theorem arith_spec {f : Int → Int → Int}
    (hf : ∀ {M x y x' y' : Int}, x ≡ x' [ZMOD M] → y ≡ y' [ZMOD M] → f x y ≡ f x' y' [ZMOD M])
    {a b z : Elem} (h : builtinArith f a b = some z) :
    z.ty = resultTy a b ∧ z.Valid ∧ z.val ≡ f a.val b.val [ZMOD 2 ^ z.ty.bits] ∧
      (z.ty.signed = true → z.val = f a.val b.val) := by
  unfold builtinArith at h
  unfold resultTy
  generalize common (promote a.ty) (promote b.ty) = T at *
  simp only at h
  by_cases hs : T.signed = true
  · have e : ∀ x, convert T x = x := by
      intro x; unfold convert; rw [if_pos hs]
    rw [if_pos hs] at h
    simp only [e] at h
    split_ifs at h with h1
    cases h
    refine ⟨rfl, ?_, rfl, fun _ => rfl⟩
    unfold Elem.Valid
    simp only [hs, if_true]
    exact h1
  · rw [if_neg hs] at h
    cases h
    refine ⟨rfl, ?_, ?_, fun h => absurd h hs⟩
    · unfold Elem.Valid
      simp only [hs, Bool.false_eq_true, if_false]
      exact ⟨Int.emod_nonneg _ (by positivity), Int.emod_lt_of_pos _ (by positivity)⟩
    · exact (Int.mod_modEq _ _).trans (hf (convert_modEq _ _) (convert_modEq _ _))

private theorem arith_defined {f : Int → Int → Int} {a b : Elem} :
    (builtinArith f a b).isSome = true ↔
      ((resultTy a b).signed = true → (⟨resultTy a b, f a.val b.val⟩ : Elem).Valid) := by
  unfold builtinArith resultTy
  generalize common (promote a.ty) (promote b.ty) = T
  simp only
  by_cases hs : T.signed = true
  · have e : ∀ x, convert T x = x := by
      intro x; unfold convert; rw [if_pos hs]
    unfold Elem.Valid
    simp only [e, hs, forall_const, if_true]
    split_ifs with h1
    · simpa using h1
    · simpa using h1
  · rw [if_neg hs]
    simp [hs]

/-- A sum of numbers of any two types is right modulo the width of its type, exact if that is signed. -/
theorem add_spec {a b z : Elem} (h : run .add a b = some z) :
    z.ty = resultTy a b ∧ z.Valid ∧ z.val ≡ a.val + b.val [ZMOD 2 ^ z.ty.bits] ∧
      (z.ty.signed = true → z.val = a.val + b.val) :=
  arith_spec (fun h1 h2 => h1.add h2) h

theorem mul_spec {a b z : Elem} (h : run .mul a b = some z) :
    z.ty = resultTy a b ∧ z.Valid ∧ z.val ≡ a.val * b.val [ZMOD 2 ^ z.ty.bits] ∧
      (z.ty.signed = true → z.val = a.val * b.val) :=
  arith_spec (fun h1 h2 => h1.mul h2) h

/-- A sum is undefined exactly if its type is signed and does not have the value. -/
theorem add_defined {a b : Elem} : (run .add a b).isSome = true ↔
    ((resultTy a b).signed = true → (⟨resultTy a b, a.val + b.val⟩ : Elem).Valid) := arith_defined

theorem mul_defined {a b : Elem} : (run .mul a b).isSome = true ↔
    ((resultTy a b).signed = true → (⟨resultTy a b, a.val * b.val⟩ : Elem).Valid) := arith_defined

/-! ### Bits -/

private theorem bit_modEq {x y : Int} {n i : Nat} (h : x ≡ y [ZMOD 2 ^ n]) (hi : i < n) : bit x i ↔ bit y i := by
  obtain ⟨k, hk⟩ := h.symm.dvd
  obtain ⟨m, rfl⟩ : ∃ m, n = i + 1 + m := ⟨n - (i + 1), by omega⟩
  have e : x = y + 2 ^ i * (2 * (2 ^ m * k)) := by
    have : x - y = 2 ^ (i + 1 + m) * k := hk
    rw [pow_add, pow_succ] at this
    linarith
  unfold bit
  rw [e, Int.add_mul_ediv_left _ _ (by positivity), Int.add_mul_emod_self_left]

private theorem bit_natCast (x i : Nat) : bit (x : Int) i ↔ x.testBit i = true := by
  unfold bit
  rw [Nat.testBit_eq_decide_div_mod_eq]
  simp only [decide_eq_true_eq]
  constructor
  · intro h; exact_mod_cast h
  · intro h; exact_mod_cast h

private theorem ofBits_modEq (t : IntTy) (z : BitVec t.bits) : (ofBits t z).val ≡ (z.toNat : Int) [ZMOD 2 ^ t.bits] := by
  unfold ofBits
  by_cases hs : t.signed = true
  · simp only [hs, if_true]
    rw [BitVec.toInt_eq_toNat_cond]
    split_ifs
    · rfl
    · push_cast
      exact (Int.modEq_iff_dvd.2 ⟨1, by ring⟩)
  · simp only [hs, Bool.false_eq_true, if_false]
    rfl

private theorem ofBits_bit (t : IntTy) (z : BitVec t.bits) {i : Nat} (hi : i < t.bits) :
    bit (ofBits t z).val i ↔ z.getLsbD i = true := by
  rw [bit_modEq (ofBits_modEq t z) hi, bit_natCast]
  rfl

private theorem ofBits_valid (t : IntTy) (z : BitVec t.bits) (h : 0 < t.bits) : (ofBits t z).Valid := by
  unfold ofBits Elem.Valid
  by_cases hs : t.signed = true
  · simp only [hs, if_true]
    have h1 := BitVec.le_two_mul_toInt (x := z)
    have h2 := BitVec.two_mul_toInt_lt (x := z)
    have h3 := pow_split h
    constructor <;> linarith
  · simp only [hs, Bool.false_eq_true, if_false]
    exact ⟨by positivity, by exact_mod_cast z.isLt⟩

private theorem ofInt_congr {n : Nat} {x y : Int} (h : x ≡ y [ZMOD 2 ^ n]) : BitVec.ofInt n x = BitVec.ofInt n y := by
  apply BitVec.eq_of_toNat_eq
  simp only [BitVec.toNat_ofInt]
  have : x % ((2 ^ n : Nat) : Int) = y % ((2 ^ n : Nat) : Int) := by push_cast; exact h
  rw [this]

private theorem ofInt_bit (n : Nat) (x : Int) {i : Nat} (hi : i < n) :
    (BitVec.ofInt n x).getLsbD i = true ↔ bit x i := by
  have h1 : ((BitVec.ofInt n x).toNat : Int) ≡ x [ZMOD 2 ^ n] := by
    rw [BitVec.toNat_ofInt, Int.toNat_of_nonneg (Int.emod_nonneg _ (by positivity))]
    push_cast
    exact Int.mod_modEq _ _
  rw [← bit_modEq h1 hi, bit_natCast]
  rfl

private theorem ofInt_ofBits (t : IntTy) (z : BitVec t.bits) : BitVec.ofInt t.bits (convert t (ofBits t z).val) = z := by
  have h := (convert_modEq t (ofBits t z).val).trans (ofBits_modEq t z)
  rw [ofInt_congr h]
  simp

private theorem ofBits_ofInt {t : IntTy} {x : Int} (h : (⟨t, x⟩ : Elem).Valid) (h0 : 0 < t.bits) :
    ofBits t (BitVec.ofInt t.bits x) = ⟨t, x⟩ := by
  unfold ofBits
  unfold Elem.Valid at h
  by_cases hs : t.signed = true
  · simp only [hs, if_true] at h ⊢
    rw [BitVec.toInt_ofInt, Int.bmod_eq_of_le]
    · have := pow_split h0
      push_cast; omega
    · have := pow_split h0
      push_cast; omega
  · simp only [hs, Bool.false_eq_true, if_false] at h ⊢
    rw [BitVec.toNat_ofInt, Int.toNat_of_nonneg (Int.emod_nonneg _ (by positivity))]
    push_cast
    rw [Int.emod_eq_of_lt h.1 h.2]

private theorem bits_at {f : ∀ {n : Nat}, BitVec n → BitVec n → BitVec n} {a b : Elem} {T : IntTy}
    (h : resultTy a b = T) :
    builtinBits f a b = ofBits T (f (BitVec.ofInt T.bits a.val) (BitVec.ofInt T.bits b.val)) := by
  subst h
  unfold builtinBits resultTy
  simp only
  rw [ofInt_congr (convert_modEq _ a.val), ofInt_congr (convert_modEq _ b.val)]

private theorem bits_spec {f : ∀ {n : Nat}, BitVec n → BitVec n → BitVec n} {g : Bool → Bool → Bool}
    (hf : ∀ {n : Nat} (x y : BitVec n) (i : Nat), i < n → (f x y).getLsbD i = g (x.getLsbD i) (y.getLsbD i))
    (a b : Elem) :
    (builtinBits f a b).ty = resultTy a b ∧ (builtinBits f a b).Valid ∧
      ∀ i, i < (resultTy a b).bits →
        (bit (builtinBits f a b).val i ↔ g (decide (bit a.val i)) (decide (bit b.val i)) = true) := by
  refine ⟨rfl, ofBits_valid _ _ (by have := resultTy_wide a b; unfold resultTy at this; omega), fun i hi => ?_⟩
  rw [bits_at rfl, ofBits_bit _ _ hi, hf _ _ _ hi]
  have e : ∀ x, (BitVec.ofInt (resultTy a b).bits x).getLsbD i = decide (bit x i) := by
    intro x
    rw [Bool.eq_iff_iff, decide_eq_true_eq, ofInt_bit _ _ hi]
  rw [e, e]

/-- The binary digits of `a & b`, for any two types. -/
theorem band_spec (a b : Elem) : ∃ z, run .band a b = some z ∧ z.ty = resultTy a b ∧ z.Valid ∧
    ∀ i, i < z.ty.bits → (bit z.val i ↔ bit a.val i ∧ bit b.val i) := by
  refine ⟨_, rfl, ?_⟩
  have h := bits_spec (f := (· &&& ·)) (g := (· && ·)) (fun x y i _ => by simp) a b
  exact ⟨h.1, h.2.1, fun i hi => (h.2.2 i hi).trans (by simp)⟩

theorem bor_spec (a b : Elem) : ∃ z, run .bor a b = some z ∧ z.ty = resultTy a b ∧ z.Valid ∧
    ∀ i, i < z.ty.bits → (bit z.val i ↔ bit a.val i ∨ bit b.val i) := by
  refine ⟨_, rfl, ?_⟩
  have h := bits_spec (f := (· ||| ·)) (g := (· || ·)) (fun x y i _ => by simp) a b
  exact ⟨h.1, h.2.1, fun i hi => (h.2.2 i hi).trans (by simp)⟩

theorem bxor_spec (a b : Elem) : ∃ z, run .bxor a b = some z ∧ z.ty = resultTy a b ∧ z.Valid ∧
    ∀ i, i < z.ty.bits → (bit z.val i ↔ ¬ (bit a.val i ↔ bit b.val i)) := by
  refine ⟨_, rfl, ?_⟩
  have h := bits_spec (f := (· ^^^ ·)) (g := Bool.xor) (fun x y i _ => by simp) a b
  refine ⟨h.1, h.2.1, fun i hi => (h.2.2 i hi).trans ?_⟩
  by_cases h1 : bit a.val i <;> by_cases h2 : bit b.val i <;> simp [h1, h2]

/-- The binary digits of `~a`; `-1 - a` for signed types. -/
theorem bnot_spec (a : Elem) : (bitNot a).ty = promote a.ty ∧ (bitNot a).Valid ∧
    ∀ i, i < (promote a.ty).bits → (bit (bitNot a).val i ↔ ¬ bit a.val i) := by
  refine ⟨rfl, ofBits_valid _ _ (by have := promote_wide a.ty; omega), fun i hi => ?_⟩
  unfold bitNot
  simp only
  rw [ofBits_bit _ _ hi, BitVec.getLsbD_not]
  simp only [hi, decide_true, Bool.true_and, Bool.not_eq_true', ← Bool.not_eq_true]
  rw [ofInt_bit _ _ hi, bit_modEq (convert_modEq _ _) hi]

/-! ### Laws -/

private theorem arith_comm {f : Int → Int → Int} (hf : ∀ x y, f x y = f y x) (a b : Elem) :
    builtinArith f a b = builtinArith f b a := by
  unfold builtinArith
  rw [common_swap (promote b.ty) (promote a.ty)]
  simp only [hf (convert _ b.val)]

private theorem bits_comm {f : ∀ {n : Nat}, BitVec n → BitVec n → BitVec n}
    (hf : ∀ {n : Nat} (x y : BitVec n), f x y = f y x) (a b : Elem) : builtinBits f a b = builtinBits f b a := by
  unfold builtinBits
  rw [common_swap (promote b.ty) (promote a.ty)]
  simp only [hf (BitVec.ofInt _ (convert _ b.val))]

private theorem lmax_comm {a b : Elem} (ha : Ok a) (hb : Ok b) : lmax a b = lmax b a := by
  unfold lmax ifElse isLess
  rw [common_swap (promote b.ty) (promote a.ty)]
  simp only [eq_comm (a := b.ty) (b := a.ty), decide_eq_true_eq]
  by_cases ht : a.ty = b.ty
  · rw [if_pos ht, if_pos ht, ← ht, common_self, convert_valid (valid_promote ha.2), ht,
      convert_valid (valid_promote hb.2)]
    by_cases h1 : a.val < b.val
    · rw [if_pos h1, if_neg (by omega)]
    · rw [if_neg h1]
      split_ifs with h2
      · rfl
      · obtain ⟨s, x⟩ := a
        obtain ⟨t, y⟩ := b
        simp only at *
        subst ht
        rw [show x = y by omega]
  · rw [if_neg ht, if_neg ht]
    generalize common (promote a.ty) (promote b.ty) = T
    by_cases h1 : convert T a.val < convert T b.val
    · rw [if_pos h1, if_neg (by omega)]
    · rw [if_neg h1]
      split_ifs with h2
      · rfl
      · rw [show convert T a.val = convert T b.val by omega]

/-- All the operations commute, for any two types, undefined cases included. -/
theorem run_comm (op : Op) {a b : Elem} (ha : Ok a) (hb : Ok b) : run op a b = run op b a := by
  cases op
  · exact arith_comm add_comm a b
  · exact arith_comm mul_comm a b
  · exact congrArg some (bits_comm (fun x y => BitVec.and_comm x y) a b)
  · exact congrArg some (bits_comm (fun x y => BitVec.or_comm x y) a b)
  · exact congrArg some (bits_comm (fun x y => BitVec.xor_comm x y) a b)
  · rfl
  · exact congrArg some (lmax_comm ha hb)

private theorem bits_assoc {f : ∀ {n : Nat}, BitVec n → BitVec n → BitVec n}
    (hf : ∀ {n : Nat} (x y z : BitVec n), f (f x y) z = f x (f y z)) {a b c : Elem}
    (hab : a.ty = b.ty) (hbc : b.ty = c.ty) :
    builtinBits f (builtinBits f a b) c = builtinBits f a (builtinBits f b c) := by
  obtain ⟨t, x⟩ := a
  obtain ⟨t', y⟩ := b
  obtain ⟨t'', w⟩ := c
  simp only at hab hbc
  subst hab hbc
  have r1 : ∀ x y : Int, resultTy ⟨t, x⟩ ⟨t, y⟩ = promote t := fun x y => common_self _
  have r2 : ∀ x y : Int, resultTy ⟨promote t, x⟩ ⟨t, y⟩ = promote t := fun x y => by
    unfold resultTy; simp only; rw [promote_idem, common_self]
  have r3 : ∀ x y : Int, resultTy ⟨t, x⟩ ⟨promote t, y⟩ = promote t := fun x y => by
    unfold resultTy; simp only; rw [promote_idem, common_self]
  have e : ∀ z : BitVec (promote t).bits, BitVec.ofInt (promote t).bits (ofBits (promote t) z).val = z := by
    intro z
    rw [← ofInt_congr (convert_modEq _ (ofBits (promote t) z).val), ofInt_ofBits]
  rw [bits_at (a := ⟨t, x⟩) (r1 _ _), bits_at (a := ⟨t, y⟩) (r1 _ _),
    bits_at (a := ofBits (promote t) _) (r2 _ _), bits_at (b := ofBits (promote t) _) (r3 _ _), e, e, hf]

/-- Two values of a type that are congruent modulo its width are equal. -/
private theorem valid_unique {a b : Elem} (ht : a.ty = b.ty) (h0 : 0 < a.ty.bits) (ha : a.Valid) (hb : b.Valid)
    (h : a.val ≡ b.val [ZMOD 2 ^ a.ty.bits]) : a = b := by
  obtain ⟨t, x⟩ := a
  obtain ⟨t', y⟩ := b
  simp only at ht h h0
  subst ht
  have : x = y := by
    unfold Elem.Valid at ha hb
    have h3 := pow_split h0
    obtain ⟨k, hk⟩ := h.dvd
    have pos : (0 : Int) < 2 ^ t.bits := by positivity
    have small : -(2 ^ t.bits : Int) < y - x ∧ y - x < 2 ^ t.bits := by
      simp only at ha hb
      split_ifs at ha hb <;> constructor <;> linarith [ha.1, ha.2, hb.1, hb.2]
    have : k = 0 := by
      rw [hk] at small
      by_contra hne
      rcases lt_or_gt_of_ne hne with h4 | h4
      · nlinarith [small.1]
      · nlinarith [small.2]
    subst this
    linarith
  rw [this]

private theorem resultTy_same {a b : Elem} (h : a.ty = b.ty) : resultTy a b = promote a.ty := by
  unfold resultTy; rw [← h, common_self]

private theorem resultTy_promoted {a b : Elem} (h : a.ty = promote b.ty) : resultTy a b = promote b.ty := by
  unfold resultTy; rw [h, promote_idem, common_self]

private theorem resultTy_promoted' {a b : Elem} (h : b.ty = promote a.ty) : resultTy a b = promote a.ty := by
  unfold resultTy; rw [h, promote_idem, common_self]

private theorem resultTy_swap (a b : Elem) : resultTy a b = resultTy b a := common_swap _ _

/-- Sums and products do not depend on the order of evaluation for three numbers of the same type, if both orders
are defined.  `run op` is bound over the first result. -/
theorem arith_assoc {op : Op} (hop : op = .add ∨ op = .mul) {a b c ab bc z z' : Elem}
    (h1 : a.ty = b.ty) (h2 : b.ty = c.ty)
    (hab : run op a b = some ab) (hz : run op ab c = some z) (hbc : run op b c = some bc)
    (hz' : run op a bc = some z') : z = z' := by
  have key : ∀ {f : Int → Int → Int},
      (∀ {M x y x' y' : Int}, x ≡ x' [ZMOD M] → y ≡ y' [ZMOD M] → f x y ≡ f x' y' [ZMOD M]) →
      (∀ x y z, f (f x y) z = f x (f y z)) →
      builtinArith f a b = some ab → builtinArith f ab c = some z → builtinArith f b c = some bc →
      builtinArith f a bc = some z' → z = z' := by
    intro f hf hass hab hz hbc hz'
    have s1 := arith_spec hf hab
    have s2 := arith_spec hf hz
    have s3 := arith_spec hf hbc
    have s4 := arith_spec hf hz'
    have t1 : ab.ty = promote c.ty := by rw [s1.1, resultTy_same h1, h1, h2]
    have t2 : z.ty = promote c.ty := by rw [s2.1, resultTy_promoted t1]
    have t3 : bc.ty = promote a.ty := by rw [s3.1, resultTy_same h2, h1]
    have t4 : z'.ty = promote c.ty := by rw [s4.1, resultTy_promoted' t3, h1, h2]
    refine valid_unique (t2.trans t4.symm) (by rw [t2]; have := promote_wide c.ty; omega) s2.2.1 s4.2.1 ?_
    have m1 := s1.2.2.1
    have m2 := s2.2.2.1
    have m3 := s3.2.2.1
    have m4 := s4.2.2.1
    rw [t1] at m1
    rw [t2] at m2
    rw [t3, h1, h2] at m3
    rw [t4] at m4
    rw [t2]
    calc z.val ≡ f ab.val c.val [ZMOD _] := m2
      _ ≡ f (f a.val b.val) c.val [ZMOD _] := hf m1 rfl
      _ = f a.val (f b.val c.val) := hass _ _ _
      _ ≡ f a.val bc.val [ZMOD _] := hf rfl m3.symm
      _ ≡ z'.val [ZMOD _] := m4.symm
  rcases hop with rfl | rfl
  · exact key (fun h1 h2 => h1.add h2) add_assoc hab hz hbc hz'
  · exact key (fun h1 h2 => h1.mul h2) mul_assoc hab hz hbc hz'

private theorem lmax_same {a b : Elem} (h : a.ty = b.ty) (ha : a.Valid) (hb : b.Valid) :
    lmax a b = ⟨a.ty, max a.val b.val⟩ := by
  unfold lmax ifElse isLess
  simp only
  rw [if_pos h.symm, ← h, common_self]
  have := valid_promote hb
  rw [← h] at this
  simp only [convert_valid this, convert_valid (valid_promote ha)]
  obtain ⟨t, x⟩ := a
  obtain ⟨t', y⟩ := b
  simp only at h
  subst h
  simp only [decide_eq_true_eq]
  split_ifs with h1
  · rw [max_eq_right (by omega)]
  · rw [max_eq_left (by omega)]

/-- The other operations never depend on the order of evaluation for three numbers of the same type, nor do sums
and products of an unsigned type of at least the width of `int`. -/
theorem run_assoc {op : Op} {a b c : Elem} (h1 : a.ty = b.ty) (h2 : b.ty = c.ty)
    (ha : Ok a) (hb : Ok b) (hc : Ok c)
    (hop : (op = .add ∨ op = .mul) → a.ty.signed = false ∧ 32 ≤ a.ty.bits) :
    ((run op a b).bind fun x => run op x c) = ((run op b c).bind fun x => run op a x) := by
  have key : ∀ op, (op = .add ∨ op = .mul) → (a.ty.signed = false ∧ 32 ≤ a.ty.bits) →
      ((run op a b).bind fun x => run op x c) = ((run op b c).bind fun x => run op a x) := by
    intro op hop ⟨hs, hw⟩
    have def' : ∀ x y : Elem, (resultTy x y).signed = false → (run op x y).isSome = true := by
      intro x y h
      rcases hop with rfl | rfl
      · exact add_defined.2 (fun h' => by simp [h] at h')
      · exact mul_defined.2 (fun h' => by simp [h] at h')
    have ty' : ∀ {x y z : Elem}, run op x y = some z → z.ty = resultTy x y := by
      intro x y z h
      rcases hop with rfl | rfl
      · exact (add_spec h).1
      · exact (mul_spec h).1
    have pa : promote a.ty = a.ty := promote_of_wide hw
    obtain ⟨ab, hab⟩ := Option.isSome_iff_exists.1 (def' a b (by rw [resultTy_same h1, pa, hs]))
    obtain ⟨bc, hbc⟩ := Option.isSome_iff_exists.1 (def' b c (by rw [resultTy_same h2, ← h1, pa, hs]))
    have tab : ab.ty = a.ty := by rw [ty' hab, resultTy_same h1, pa]
    have tbc : bc.ty = a.ty := by rw [ty' hbc, resultTy_same h2, ← h1, pa]
    obtain ⟨z, hz⟩ := Option.isSome_iff_exists.1
      (def' ab c (by rw [resultTy_same (tab.trans (h1.trans h2)), tab, pa, hs]))
    obtain ⟨z', hz'⟩ := Option.isSome_iff_exists.1
      (def' a bc (by rw [resultTy_same tbc.symm, pa, hs]))
    rw [hab, hbc, Option.bind_some, Option.bind_some, hz, hz', arith_assoc hop h1 h2 hab hz hbc hz']
  cases op
  · exact key _ (Or.inl rfl) (hop (Or.inl rfl))
  · exact key _ (Or.inr rfl) (hop (Or.inr rfl))
  · exact congrArg some (bits_assoc (fun x y z => BitVec.and_assoc x y z) h1 h2)
  · exact congrArg some (bits_assoc (fun x y z => BitVec.or_assoc x y z) h1 h2)
  · exact congrArg some (bits_assoc (fun x y z => BitVec.xor_assoc x y z) h1 h2)
  · rfl
  · simp only [run, Option.bind_some]
    have v : ∀ {x y : Elem}, x.ty = y.ty → x.Valid → y.Valid → (⟨x.ty, max x.val y.val⟩ : Elem).Valid := by
      intro x y h hx hy
      rcases max_choice x.val y.val with h' | h' <;> rw [h']
      · exact hx
      · rw [h]; exact hy
    rw [lmax_same h1 ha.2 hb.2, lmax_same h2 hb.2 hc.2,
      lmax_same (a := ⟨a.ty, max a.val b.val⟩) (h1.trans h2) (v h1 ha.2 hb.2) hc.2,
      lmax_same (b := ⟨b.ty, max b.val c.val⟩) h1 ha.2 (v h2 hb.2 hc.2), max_assoc]

/-- `max` is the greater number, unless a negative one is converted to an unsigned type. -/
theorem lmax_spec {a b : Elem} (ha : Ok a) (hb : Ok b) (h : ¬ Mixed a b) (h' : ¬ Mixed b a) :
    ∃ z, run .lmax a b = some z ∧ z.val = max a.val b.val := by
  refine ⟨_, rfl, ?_⟩
  by_cases ht : a.ty = b.ty
  · rw [lmax_same ht ha.2 hb.2]
  · have key : convert (resultTy a b) a.val = a.val ∧ convert (resultTy a b) b.val = b.val := by
      by_cases hs : (resultTy a b).signed = true
      · unfold convert; simp [hs]
      · have hs' : (resultTy a b).signed = false := by simpa using hs
        have nn : ∀ {a b : Elem}, Ok a → ¬ Mixed a b → (resultTy a b).signed = false → 0 ≤ a.val := by
          intro a b ha h hs'
          by_contra hneg
          have sa : a.ty.signed = true := by
            by_contra hu
            have := ha.2
            unfold Elem.Valid at this
            rw [if_neg hu] at this
            omega
          apply h
          refine ⟨by omega, ?_⟩
          have spa : (promote a.ty).signed = true := by unfold promote; split_ifs <;> simp [sa]
          unfold resultTy at hs'
          have hb' : (promote b.ty).signed = false ∧ (promote a.ty).bits ≤ (promote b.ty).bits := by
            unfold common at hs'
            rw [spa] at hs'
            by_cases hpb : (promote b.ty).signed = true
            · simp [hpb] at hs'
            · have hpb' : (promote b.ty).signed = false := by simpa using hpb
              refine ⟨hpb', ?_⟩
              simp only [hpb', if_true, reduceCtorEq, if_false] at hs'
              split_ifs at hs' with hle
              · exact hle
              · simp [spa] at hs'
          have hw : 32 ≤ b.ty.bits := by
            by_contra hlt
            have : promote b.ty = ⟨32, true⟩ := by unfold promote; rw [if_pos (by omega)]
            rw [this] at hb'
            simp at hb'
          rw [promote_of_wide hw] at hb'
          exact ⟨hb'.1, (promote_ge _).trans hb'.2, hw⟩
        have na := nn ha h hs'
        have nb := nn hb h' (by rw [resultTy_swap]; exact hs')
        have up : ∀ {e : Elem} {n : Nat}, Ok e → e.ty.bits ≤ n → e.val < 2 ^ n := by
          intro e n he hn
          have h1 := he.2
          have h2 : (2 ^ e.ty.bits : Int) ≤ 2 ^ n := pow_mono hn
          have h3 : (2 ^ (e.ty.bits - 1) : Int) ≤ 2 ^ n := pow_mono (by omega)
          unfold Elem.Valid at h1
          split_ifs at h1 <;> linarith [h1.2]
        unfold convert
        simp only [hs', Bool.false_eq_true, if_false]
        exact ⟨Int.emod_eq_of_lt na (up ha (resultTy_ge a b)),
          Int.emod_eq_of_lt nb (up hb (by rw [resultTy_swap]; exact resultTy_ge b a))⟩
    unfold lmax ifElse isLess
    rw [if_neg (fun h => ht h.symm), common_swap (promote b.ty) (promote a.ty)]
    unfold resultTy at key
    simp only [decide_eq_true_eq]
    rw [key.1, key.2]
    split_ifs with h1
    · rw [key.2, max_eq_right (by omega)]
    · rw [key.1, max_eq_left (by omega)]

/-! ### Identity elements -/

/-- `identity_element` gives a value of the type, and the operation with it on either side gives back the other
side: of the promoted type, or of the same type for `max`. -/
theorem identity_spec {op : Op} {e x : Elem} (hx : Ok x) (hop : op ≠ .lmin) (h : identity op x.ty = some e) :
    e.ty = x.ty ∧ Ok e ∧
      run op e x = some ⟨if op = .lmax then x.ty else promote x.ty, x.val⟩ ∧
      run op x e = some ⟨if op = .lmax then x.ty else promote x.ty, x.val⟩ := by
  have br : ∀ c, braces x.ty c = some e → e = ⟨x.ty, c⟩ ∧ Ok e := by
    intro c h
    unfold braces lowest highest at h
    split_ifs at h with h1 h2
    · cases h
      refine ⟨rfl, hx.1, ?_⟩
      unfold Elem.Valid
      simp only [h1, if_true]
      omega
    · cases h
      refine ⟨rfl, hx.1, ?_⟩
      unfold Elem.Valid
      simp only [h1, Bool.false_eq_true, if_false]
      omega
  have pv := valid_promote hx.2
  have pw := promote_wide x.ty
  have low : ∀ n : Nat, (0 : Int) < 2 ^ n := fun n => by positivity
  have arith : ∀ {f : Int → Int → Int} {c : Int}, (∀ y, f c y = y) → (∀ y, f y c = y) →
      (⟨promote x.ty, c⟩ : Elem).Valid →
      builtinArith f ⟨x.ty, c⟩ x = some ⟨promote x.ty, x.val⟩ ∧
        builtinArith f x ⟨x.ty, c⟩ = some ⟨promote x.ty, x.val⟩ := by
    intro f c h1 h2 hc
    unfold builtinArith
    simp only [common_self, convert_valid pv, convert_valid hc, h1, h2]
    unfold Elem.Valid at pv
    simp only at pv
    by_cases h3 : (promote x.ty).signed = true
    · rw [if_pos h3] at pv
      rw [if_pos h3, if_pos pv]
      exact ⟨rfl, rfl⟩
    · rw [if_neg h3] at pv
      rw [if_neg h3]
      rw [Int.emod_eq_of_lt pv.1 pv.2]
      exact ⟨rfl, rfl⟩
  have bits : ∀ {f : ∀ {n : Nat}, BitVec n → BitVec n → BitVec n} {c : Int},
      (∀ {n : Nat} (y : BitVec n), f (BitVec.ofInt n c) y = y) → (∀ {n : Nat} (y : BitVec n), f y (BitVec.ofInt n c) = y) →
      builtinBits f ⟨x.ty, c⟩ x = ⟨promote x.ty, x.val⟩ ∧ builtinBits f x ⟨x.ty, c⟩ = ⟨promote x.ty, x.val⟩ := by
    intro f c h1 h2
    rw [bits_at (a := ⟨x.ty, c⟩) (b := x) (resultTy_same rfl),
      bits_at (a := x) (b := ⟨x.ty, c⟩) (resultTy_same rfl), h1, h2]
    have p0 : 0 < (promote x.ty).bits := by omega
    exact ⟨ofBits_ofInt pv p0, ofBits_ofInt pv p0⟩
  have valid01 : ∀ c : Int, 0 ≤ c → c ≤ 1 → (⟨promote x.ty, c⟩ : Elem).Valid := by
    intro c h0 h1
    unfold Elem.Valid
    have e1 : (2 : Int) ^ 1 ≤ 2 ^ (promote x.ty).bits := pow_mono (by omega)
    have e2 : (2 : Int) ^ 1 ≤ 2 ^ ((promote x.ty).bits - 1) := pow_mono (by omega)
    simp only
    split_ifs <;> constructor <;> linarith
  cases op
  · obtain ⟨rfl, hok⟩ := br 0 h
    exact ⟨rfl, hok, arith (fun y => zero_add y) (fun y => add_zero y) (valid01 0 (by omega) (by omega))⟩
  · obtain ⟨rfl, hok⟩ := br 1 h
    exact ⟨rfl, hok, arith (fun y => one_mul y) (fun y => mul_one y) (valid01 1 (by omega) (by omega))⟩
  · obtain ⟨rfl, hok⟩ := br (-1) h
    have m1 : ∀ n, BitVec.ofInt n (-1) = BitVec.allOnes n := fun n => by
      rw [← BitVec.neg_one_eq_allOnes, BitVec.ofInt_neg]; simp
    have := bits (f := (· &&& ·)) (c := -1) (fun y => by rw [m1]; simp) (fun y => by rw [m1]; simp)
    exact ⟨rfl, hok, congrArg some this.1, congrArg some this.2⟩
  · obtain ⟨rfl, hok⟩ := br 0 h
    have := bits (f := (· ||| ·)) (c := 0) (fun y => by simp) (fun y => by simp)
    exact ⟨rfl, hok, congrArg some this.1, congrArg some this.2⟩
  · obtain ⟨rfl, hok⟩ := br 0 h
    have := bits (f := (· ^^^ ·)) (c := 0) (fun y => by simp) (fun y => by simp)
    exact ⟨rfl, hok, congrArg some this.1, congrArg some this.2⟩
  · exact absurd rfl hop
  · cases h
    have v : (⟨x.ty, lowest x.ty⟩ : Elem).Valid := by
      unfold Elem.Valid lowest
      have := low (x.ty.bits - 1)
      have := low x.ty.bits
      simp only
      split_ifs <;> omega
    have le : lowest x.ty ≤ x.val := by
      have := hx.2
      unfold Elem.Valid at this
      unfold lowest
      split_ifs at this ⊢ <;> exact this.1
    refine ⟨rfl, ⟨hx.1, v⟩, ?_, ?_⟩
    · simp only [run, if_true]
      rw [lmax_same (a := ⟨x.ty, lowest x.ty⟩) (b := x) rfl v hx.2, max_eq_right le]
    · simp only [run, if_true]
      rw [lmax_same (a := x) (b := ⟨x.ty, lowest x.ty⟩) rfl hx.2 v, max_eq_left le]

/-- Every operation but `bit_and` has its identity element for every type. -/
theorem identity_defined {op : Op} {t : IntTy} (ht : Proper t) (hop : op ≠ .band ∨ t.signed = true) :
    (identity op t).isSome = true := by
  have h1 : (0 : Int) < 2 ^ (t.bits - 1) := by positivity
  have h2 : (2 : Int) ^ 1 ≤ 2 ^ t.bits := pow_mono ht.1
  have h3 : t.signed = true → (2 : Int) ^ 1 ≤ 2 ^ (t.bits - 1) := fun h => pow_mono (by have := ht.2 h; omega)
  cases hs : t.signed <;> cases op <;> simp_all [identity, braces, lowest, highest] <;> omega

/-! ### Assignment to the target -/

/-- `op(inout{x}, y)` keeps the type of the target and gives it the result modulo its width; `bool` gets whether
the result is not zero. -/
theorem runInto_spec {op : Op} {x y z w : Elem} (hx : Proper x.ty) (h : run op x y = some z)
    (hw : runInto op x y = some w) :
    w.ty = x.ty ∧ w.Valid ∧ (x.ty.bits ≠ 1 → w.val ≡ z.val [ZMOD 2 ^ x.ty.bits]) ∧
      (x.ty.bits = 1 → (w.val = 0 ↔ z.val = 0)) := by
  unfold runInto at hw
  rw [h] at hw
  cases hw
  refine ⟨rfl, ?_, ?_, ?_⟩
  · unfold Elem.Valid castTo
    have h3 := pow_split hx.1
    have pos : (0 : Int) < 2 ^ x.ty.bits := by positivity
    by_cases h1 : x.ty.bits = 1
    · have hs : ¬ x.ty.signed = true := fun hs => by have := hx.2 hs; omega
      simp only [h1, if_true, hs, Bool.false_eq_true, if_false]
      split_ifs <;> norm_num
    · simp only [h1, if_false]
      have a1 := Int.emod_nonneg (z.val + 2 ^ (x.ty.bits - 1)) pos.ne'
      have a2 := Int.emod_lt_of_pos (z.val + 2 ^ (x.ty.bits - 1)) pos
      have a3 := Int.emod_nonneg z.val pos.ne'
      have a4 := Int.emod_lt_of_pos z.val pos
      split_ifs <;> constructor <;> linarith
  · intro h1
    unfold castTo
    simp only [h1, if_false]
    split_ifs
    · have := (Int.mod_modEq (z.val + 2 ^ (x.ty.bits - 1)) (2 ^ x.ty.bits)).sub_right (2 ^ (x.ty.bits - 1))
      simpa using this
    · exact Int.mod_modEq _ _
  · intro h1
    unfold castTo
    simp only [h1, if_true]
    split_ifs with h2 <;> simp [h2]

/-- `x += y` and `x *= y` are right modulo the width of `x`, whatever the type of `y`. -/
theorem arithInto_spec {x y w : Elem} (hx : Proper x.ty) (h1 : x.ty.bits ≠ 1) :
    (runInto .add x y = some w → w.ty = x.ty ∧ w.Valid ∧ w.val ≡ x.val + y.val [ZMOD 2 ^ x.ty.bits]) ∧
    (runInto .mul x y = some w → w.ty = x.ty ∧ w.Valid ∧ w.val ≡ x.val * y.val [ZMOD 2 ^ x.ty.bits]) := by
  have dv : (2 ^ x.ty.bits : Int) ∣ 2 ^ (resultTy x y).bits := pow_dvd_pow 2 (resultTy_ge x y)
  constructor
  · intro hw
    obtain ⟨z, hz⟩ : ∃ z, run .add x y = some z := by
      unfold runInto at hw
      cases h : run .add x y with
      | none => rw [h] at hw; cases hw
      | some z => exact ⟨z, rfl⟩
    have s := runInto_spec hx hz hw
    have t := add_spec hz
    have t2 := t.2.2.1
    rw [t.1] at t2
    exact ⟨s.1, s.2.1, (s.2.2.1 h1).trans (t2.of_dvd dv)⟩
  · intro hw
    obtain ⟨z, hz⟩ : ∃ z, run .mul x y = some z := by
      unfold runInto at hw
      cases h : run .mul x y with
      | none => rw [h] at hw; cases hw
      | some z => exact ⟨z, rfl⟩
    have s := runInto_spec hx hz hw
    have t := mul_spec hz
    have t2 := t.2.2.1
    rw [t.1] at t2
    exact ⟨s.1, s.2.1, (s.2.2.1 h1).trans (t2.of_dvd dv)⟩

/-- `x &= y`, `x |= y` and `x ^= y` act on each binary digit of `x`, whatever the type of `y`. -/
theorem bitsInto_spec {x y : Elem} (hx : Proper x.ty) (h1 : x.ty.bits ≠ 1) :
    (∃ w, runInto .band x y = some w ∧ w.ty = x.ty ∧ w.Valid ∧
      ∀ i, i < x.ty.bits → (bit w.val i ↔ bit x.val i ∧ bit y.val i)) ∧
    (∃ w, runInto .bor x y = some w ∧ w.ty = x.ty ∧ w.Valid ∧
      ∀ i, i < x.ty.bits → (bit w.val i ↔ bit x.val i ∨ bit y.val i)) ∧
    (∃ w, runInto .bxor x y = some w ∧ w.ty = x.ty ∧ w.Valid ∧
      ∀ i, i < x.ty.bits → (bit w.val i ↔ ¬ (bit x.val i ↔ bit y.val i))) := by
  have key : ∀ {op : Op} {z : Elem} {P : Nat → Prop}, run op x y = some z → z.ty = resultTy x y →
      (∀ i, i < z.ty.bits → (bit z.val i ↔ P i)) →
      ∃ w, runInto op x y = some w ∧ w.ty = x.ty ∧ w.Valid ∧ ∀ i, i < x.ty.bits → (bit w.val i ↔ P i) := by
    intro op z P hz ht hp
    have hw : runInto op x y = some ⟨x.ty, castTo x.ty z.val⟩ := by unfold runInto; rw [hz]; rfl
    have s := runInto_spec hx hz hw
    refine ⟨_, hw, s.1, s.2.1, fun i hi => ?_⟩
    rw [bit_modEq (s.2.2.1 h1) hi]
    exact hp i (by rw [ht]; exact lt_of_lt_of_le hi (resultTy_ge x y))
  obtain ⟨z1, a1, a2, -, a3⟩ := band_spec x y
  obtain ⟨z2, b1, b2, -, b3⟩ := bor_spec x y
  obtain ⟨z3, c1, c2, -, c3⟩ := bxor_spec x y
  exact ⟨key a1 a2 a3, key b1 b2 b3, key c1 c2 c3⟩

/-- The position of the target does not matter. -/
theorem runInto_right {op : Op} {x y : Elem} (hx : Ok x) (hy : Ok y) : runIntoRight op y x = runInto op x y := by
  unfold runIntoRight runInto
  rw [run_comm op hy hx]

/-! ### Where it goes wrong -/

/-- `add` declares itself associative, but whenever `a + b` overflows, `a + (b + -b)` is `a` and `(a + b) + -b` is
undefined. -/
theorem add_assoc_fails {t : IntTy} (hs : t.signed = true) (hw : 32 ≤ t.bits) {x y : Int}
    (hx : Ok ⟨t, x⟩) (hy : Ok ⟨t, y⟩) (hy' : Ok ⟨t, -y⟩) (hover : ¬ (⟨t, x + y⟩ : Elem).Valid) :
    ((run .add ⟨t, x⟩ ⟨t, y⟩).bind fun s => run .add s ⟨t, -y⟩) = none ∧
      ((run .add ⟨t, y⟩ ⟨t, -y⟩).bind fun s => run .add ⟨t, x⟩ s) = some ⟨t, x⟩ := by
  have pt : promote t = t := promote_of_wide hw
  have rt : ∀ u v : Int, resultTy ⟨t, u⟩ ⟨t, v⟩ = t := fun u v => by
    rw [resultTy_same (a := ⟨t, u⟩) (b := ⟨t, v⟩) rfl]; exact pt
  have val0 : (⟨t, 0⟩ : Elem).Valid := by
    unfold Elem.Valid
    simp only [hs, if_true]
    have : (0 : Int) < 2 ^ (t.bits - 1) := by positivity
    omega
  have sum : ∀ u v : Int, (⟨t, u + v⟩ : Elem).Valid → run .add ⟨t, u⟩ ⟨t, v⟩ = some ⟨t, u + v⟩ := by
    intro u v h
    obtain ⟨z, hz⟩ := Option.isSome_iff_exists.1 (add_defined.2 (fun _ => by rw [rt]; exact h) :
      (run .add ⟨t, u⟩ ⟨t, v⟩).isSome = true)
    have s := add_spec hz
    have e1 : z.ty = t := by rw [s.1, rt]
    have e2 := s.2.2.2 (by rw [e1, hs])
    obtain ⟨zt, zv⟩ := z
    simp only at e1 e2
    rw [hz, e1, e2]
  constructor
  · have : run .add ⟨t, x⟩ ⟨t, y⟩ = none := by
      cases h : run .add ⟨t, x⟩ ⟨t, y⟩ with
      | none => rfl
      | some z =>
        exfalso
        have d := add_defined.1 (by rw [h]; rfl : (run .add ⟨t, x⟩ ⟨t, y⟩).isSome = true)
        rw [rt] at d
        exact hover (d hs)
    rw [this]; rfl
  · have e0 : y + -y = 0 := by ring
    rw [sum y (-y) (by rw [e0]; exact val0), e0, Option.bind_some, sum x 0 (by rw [add_zero]; exact hx.2), add_zero]

/-- `add`, `bit_or` and `bit_xor` declare themselves associative, but are not across types, even for their
identity elements: for every negative `int` `x`, `(x + 0u) + 0l` is `x + 2 ^ 32`, while `x + (0u + 0l)` is `x`. -/
theorem mixed_assoc_fails {op : Op} (hop : op = .add ∨ op = .bor ∨ op = .bxor) {x : Int}
    (hx : -(2 ^ 31) ≤ x) (hneg : x < 0) :
    ((run op ⟨⟨32, true⟩, x⟩ ⟨⟨32, false⟩, 0⟩).bind fun s => run op s ⟨⟨64, true⟩, 0⟩) =
        some ⟨⟨64, true⟩, x + 2 ^ 32⟩ ∧
      ((run op ⟨⟨32, false⟩, 0⟩ ⟨⟨64, true⟩, 0⟩).bind fun s => run op ⟨⟨32, true⟩, x⟩ s) =
        some ⟨⟨64, true⟩, x⟩ := by
  have m1 : x % 2 ^ 32 = x + 2 ^ 32 := by
    rw [← Int.add_emod_right]
    exact Int.emod_eq_of_lt (by norm_num at *; omega) (by norm_num at *; omega)
  have c1 : common (promote ⟨32, true⟩) (promote ⟨32, false⟩) = ⟨32, false⟩ := by decide
  have c2 : common (promote ⟨32, false⟩) (promote ⟨64, true⟩) = ⟨64, true⟩ := by decide
  have c3 : common (promote ⟨32, true⟩) (promote ⟨64, true⟩) = ⟨64, true⟩ := by decide
  have v64 : ∀ y : Int, -(2 ^ 31) ≤ y → y < 2 ^ 33 → (⟨⟨64, true⟩, y⟩ : Elem).Valid := by
    intro y h1 h2
    unfold Elem.Valid
    simp only [if_true]
    norm_num at *
    omega
  have v32 : (⟨⟨32, false⟩, x + 2 ^ 32⟩ : Elem).Valid := by
    unfold Elem.Valid
    simp only [Bool.false_eq_true, if_false]
    norm_num at *
    omega
  have bits : ∀ {f : ∀ {n : Nat}, BitVec n → BitVec n → BitVec n},
      (∀ {n : Nat} (y : BitVec n), f y (BitVec.ofInt n 0) = y) →
      builtinBits f (builtinBits f ⟨⟨32, true⟩, x⟩ ⟨⟨32, false⟩, 0⟩) ⟨⟨64, true⟩, 0⟩ = ⟨⟨64, true⟩, x + 2 ^ 32⟩ ∧
      builtinBits f ⟨⟨32, true⟩, x⟩ (builtinBits f ⟨⟨32, false⟩, 0⟩ ⟨⟨64, true⟩, 0⟩) = ⟨⟨64, true⟩, x⟩ := by
    intro f hf
    have e1 : builtinBits f ⟨⟨32, true⟩, x⟩ ⟨⟨32, false⟩, 0⟩ = ⟨⟨32, false⟩, x + 2 ^ 32⟩ := by
      rw [bits_at (a := ⟨⟨32, true⟩, x⟩) (b := ⟨⟨32, false⟩, 0⟩) (T := ⟨32, false⟩) c1, hf, ofInt_congr (y := x + 2 ^ 32) (Int.modEq_iff_dvd.2 ⟨1, by ring⟩)]
      exact ofBits_ofInt v32 (by decide)
    have e2 : builtinBits f ⟨⟨32, false⟩, 0⟩ ⟨⟨64, true⟩, 0⟩ = ⟨⟨64, true⟩, 0⟩ := by
      rw [bits_at (a := ⟨⟨32, false⟩, 0⟩) (b := ⟨⟨64, true⟩, 0⟩) (T := ⟨64, true⟩) c2, hf]
      exact ofBits_ofInt (v64 0 (by norm_num) (by norm_num)) (by decide)
    rw [e1, e2]
    constructor
    · rw [bits_at (a := ⟨⟨32, false⟩, x + 2 ^ 32⟩) (b := ⟨⟨64, true⟩, 0⟩) (T := ⟨64, true⟩) c2, hf]
      exact ofBits_ofInt (v64 _ (by norm_num at *; omega) (by norm_num at *; omega)) (by decide)
    · rw [bits_at (a := ⟨⟨32, true⟩, x⟩) (b := ⟨⟨64, true⟩, 0⟩) (T := ⟨64, true⟩) c3, hf]
      exact ofBits_ofInt (v64 _ (by norm_num at *; omega) (by norm_num at *; omega)) (by decide)
  rcases hop with rfl | rfl | rfl
  · simp only [run, addInteger, builtinArith, c1, c2, convert, Bool.false_eq_true, if_false, if_true,
      Option.bind_some]
    norm_num at m1 hx ⊢
    rw [m1]
    simp only [c2, c3]
    norm_num
    omega
  · have := bits (f := (· ||| ·)) (fun y => by simp)
    exact ⟨congrArg some this.1, congrArg some this.2⟩
  · have := bits (f := (· ^^^ ·)) (fun y => by simp)
    exact ⟨congrArg some this.1, congrArg some this.2⟩

/-- `bit_and` has no identity element for any unsigned type, although every such type has one. -/
theorem identity_band_fails {t : IntTy} (hs : t.signed = false) (ht : Proper t) :
    identity .band t = none ∧ ∀ x : Elem, x.ty = t → Ok x →
      run .band ⟨t, 2 ^ t.bits - 1⟩ x = some ⟨promote t, x.val⟩ := by
  constructor
  · simp [identity, braces, lowest, hs]
  · intro x hx hok
    have pv := valid_promote hok.2
    rw [hx] at pv
    change some (builtinBits (· &&& ·) ⟨t, 2 ^ t.bits - 1⟩ x) = _
    congr 1
    rw [bits_at (T := promote t) (resultTy_same hx.symm)]
    have key : BitVec.ofInt (promote t).bits (2 ^ t.bits - 1) &&& BitVec.ofInt (promote t).bits x.val =
        BitVec.ofInt (promote t).bits x.val := by
      have hxv := hok.2
      unfold Elem.Valid at hxv
      rw [hx, if_neg (by simp [hs])] at hxv
      obtain ⟨n, hn⟩ := Int.eq_ofNat_of_zero_le hxv.1
      have hn' : n < 2 ^ t.bits := by rw [hn] at hxv; exact_mod_cast hxv.2
      have e1 : (2 ^ t.bits - 1 : Int) = ((2 ^ t.bits - 1 : Nat) : Int) := by
        rw [Nat.cast_sub (Nat.one_le_two_pow)]; push_cast; rfl
      rw [e1, hn, BitVec.ofInt_natCast, BitVec.ofInt_natCast]
      apply BitVec.eq_of_toNat_eq
      have le : 2 ^ t.bits ≤ 2 ^ (promote t).bits := Nat.pow_le_pow_right (by norm_num) (promote_ge t)
      rw [BitVec.toNat_and, BitVec.toNat_ofNat, BitVec.toNat_ofNat, Nat.mod_eq_of_lt (by omega),
        Nat.mod_eq_of_lt (by omega), Nat.and_comm, Nat.and_two_pow_sub_one_eq_mod, Nat.mod_eq_of_lt hn']
    rw [key]
    exact ofBits_ofInt pv (by have := promote_wide t; omega)

/-- `min` of numbers does not compile, so its identity element is never used. -/
theorem lmin_fails (a b : Elem) : run .lmin a b = none := rfl

/-- `max` of a negative number and one of an unsigned type at least as wide is the negative one, turned into a
large one, unless the other is larger still. -/
theorem lmax_mixed_fails {a b : Elem} (hab : Mixed a b) (ha : Ok a) (hb : Ok b) (hlt : b.val ≤ a.val + 2 ^ b.ty.bits) :
    run .lmax a b = some ⟨b.ty, a.val + 2 ^ b.ty.bits⟩ ∧ max a.val b.val = b.val := by
  obtain ⟨hn, hu, hw, h32⟩ := hab
  have vb := hb.2
  unfold Elem.Valid at vb
  rw [if_neg (by simp [hu])] at vb
  have sa : a.ty.signed = true := by
    by_contra hc
    have := ha.2
    unfold Elem.Valid at this
    rw [if_neg hc] at this
    omega
  have va := ha.2
  unfold Elem.Valid at va
  rw [if_pos sa] at va
  have spa : (promote a.ty).signed = true := by unfold promote; split_ifs <;> simp [sa]
  have wpa : (promote a.ty).bits ≤ b.ty.bits := by unfold promote; split_ifs <;> assumption
  have hc : common (promote a.ty) (promote b.ty) = b.ty := by
    rw [promote_of_wide h32]; unfold common
    simp [spa, hu, wpa]
  have hne : b.ty ≠ a.ty := fun h => by rw [h, sa] at hu; simp at hu
  have ca : convert b.ty a.val = a.val + 2 ^ b.ty.bits := by
    unfold convert
    simp only [hu, Bool.false_eq_true, if_false]
    rw [← Int.add_emod_right]
    have : (2 ^ (a.ty.bits - 1) : Int) ≤ 2 ^ b.ty.bits := pow_mono (by omega)
    exact Int.emod_eq_of_lt (by omega) (by omega)
  have cb : convert b.ty b.val = b.val := by
    unfold convert
    simp only [hu, Bool.false_eq_true, if_false]
    exact Int.emod_eq_of_lt vb.1 vb.2
  refine ⟨?_, max_eq_right (by omega)⟩
  have il : isLess a b = false := by
    unfold isLess
    simp only [hc, ca, cb]
    simpa using hlt
  simp only [run, lmax, ifElse]
  rw [if_neg hne, common_swap (promote b.ty) (promote a.ty), hc, il]
  simp only [Bool.false_eq_true, if_false, ca]

end Actl.Algebra

/-! ### Examples -/

namespace Actl.Algebra

open Equality (IntTy Elem promote common convert Mixed)

/-- `int8_t`, `int`, `unsigned`, `long`. -/
private abbrev i8 : IntTy := ⟨8, true⟩
private abbrev i32 : IntTy := ⟨32, true⟩
private abbrev u32 : IntTy := ⟨32, false⟩
private abbrev i64 : IntTy := ⟨64, true⟩

-- The sum of two `int8_t` does not overflow, being an `int`; as an assignment it wraps.
example : run .add ⟨i8, 100⟩ ⟨i8, 100⟩ = some ⟨i32, 200⟩ := by decide +kernel
example : runInto .add ⟨i8, 100⟩ ⟨i8, 100⟩ = some ⟨i8, -56⟩ := by decide +kernel
example : runInto .add ⟨⟨1, false⟩, 1⟩ ⟨⟨1, false⟩, 1⟩ = some ⟨⟨1, false⟩, 1⟩ := by decide +kernel

-- `add_spec`, `add_defined`, `mul_spec`, `mul_defined`: `-1 + 0u`; the product of two large `int`s.
example : run .add ⟨i32, -1⟩ ⟨u32, 0⟩ = some ⟨u32, 4294967295⟩ := by decide +kernel
example : run .mul ⟨i32, 100000⟩ ⟨i32, 100000⟩ = none := by decide +kernel
example : run .mul ⟨i32, 100000⟩ ⟨i64, 100000⟩ = some ⟨i64, 10000000000⟩ := by decide +kernel

-- `band_spec`, `bor_spec`, `bxor_spec`, `bnot_spec`.
example : run .band ⟨i32, -4⟩ ⟨i8, 7⟩ = some ⟨i32, 4⟩ := by decide +kernel
example : run .bor ⟨i32, -4⟩ ⟨i64, 1⟩ = some ⟨i64, -3⟩ := by decide +kernel
example : run .bxor ⟨u32, 6⟩ ⟨i8, 3⟩ = some ⟨u32, 5⟩ := by decide +kernel
example : bitNot ⟨⟨8, false⟩, 5⟩ = ⟨i32, -6⟩ := by decide +kernel

-- `run_comm`, `arith_assoc`, `run_assoc`, `lmax_spec`: values of the types.
example : Ok ⟨i8, -128⟩ ∧ Ok ⟨u32, 4294967295⟩ ∧ ¬ Ok ⟨i8, 128⟩ := by
  refine ⟨⟨⟨by decide, by decide⟩, ?_⟩, ⟨⟨by decide, by decide⟩, ?_⟩, fun h => ?_⟩
  · norm_num [Elem.Valid]
  · norm_num [Elem.Valid]
  · have := h.2; norm_num [Elem.Valid] at this
example : ((run .add ⟨u32, 4294967295⟩ ⟨u32, 3⟩).bind fun x => run .add x ⟨u32, 4294967290⟩) =
    some ⟨u32, 4294967292⟩ := by decide +kernel
example : run .lmax ⟨i8, -3⟩ ⟨i64, 5⟩ = some ⟨i64, 5⟩ := by decide +kernel

-- `identity_spec`, `identity_defined`.
example : identity .band i8 = some ⟨i8, -1⟩ ∧ identity .mul u32 = some ⟨u32, 1⟩ ∧
    identity .lmax i8 = some ⟨i8, -128⟩ := by decide +kernel

-- `add_assoc_fails`: the largest `int` plus one, minus one.
example : ((run .add ⟨i32, 2147483647⟩ ⟨i32, 1⟩).bind fun s => run .add s ⟨i32, -1⟩) = none := by decide +kernel

-- `lmax_mixed_fails`: `max(-1, 1u)` is the largest `unsigned`.
example : Mixed ⟨i32, -1⟩ ⟨u32, 1⟩ ∧ run .lmax ⟨i32, -1⟩ ⟨u32, 1⟩ = some ⟨u32, 4294967295⟩ := by
  refine ⟨⟨by decide, rfl, by decide, by decide⟩, by decide +kernel⟩

end Actl.Algebra
