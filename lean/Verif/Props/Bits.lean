import Verif.Model.Bits
import Mathlib.Tactic.Cases
import Mathlib.Tactic.FinCases

/-!
C08: bit queries, bit updates and format flags, bit by bit.
`BitVec.getLsbD x i` is bit `i` of `x`.
-/

namespace Actl.Bits

variable {w : Nat}

theorem getLsbD_bit (i j : Nat) : (bit i : BitVec w).getLsbD j = (decide (j = i) && decide (j < w)) := by
  unfold bit
  simp only [BitVec.getLsbD_shiftLeft, BitVec.getLsbD_one]
  by_cases h1 : j < w <;> by_cases h2 : j < i <;> by_cases h3 : j = i <;>
    simp [h1, h2, h3] <;> omega

/-- **C08**: `has_bit` reads the bit. -/
theorem hasBit_iff (x : BitVec w) {i : Nat} : hasBit x i = x.getLsbD i := by
  unfold hasBit
  rw [Bool.eq_iff_iff]
  constructor
  · intro h
    simp only [bne_iff_ne, ne_eq] at h
    by_contra hc
    apply h
    apply BitVec.eq_of_getLsbD_eq
    intro j hj
    simp only [BitVec.getLsbD_and, BitVec.getLsbD_ushiftRight, BitVec.getLsbD_one,
      BitVec.getLsbD_zero]
    by_cases hj0 : j = 0
    · subst hj0; simp at hc; simp [hc]
    · simp [hj0]
  · intro h
    simp only [bne_iff_ne, ne_eq]
    intro hc
    have := congrArg (fun v => v.getLsbD 0) hc
    simp only [BitVec.getLsbD_and, BitVec.getLsbD_ushiftRight, BitVec.getLsbD_one,
      BitVec.getLsbD_zero, Nat.add_zero] at this
    have hw : 0 < w := by
      have := BitVec.lt_of_getLsbD h
      omega
    simp [h, hw] at this

/-- **C08**: `has_bits` holds exactly when every requested bit is set. -/
theorem hasBits_iff (x bits : BitVec w) :
    hasBits x bits = true ↔ ∀ i, bits.getLsbD i = true → x.getLsbD i = true := by
  unfold hasBits
  simp only [beq_iff_eq]
  constructor
  · intro h i hi
    have := congrArg (fun v => v.getLsbD i) h
    simpa [hi] using this
  · intro h
    apply BitVec.eq_of_getLsbD_eq
    intro i _
    rw [BitVec.getLsbD_and]
    cases hb : bits.getLsbD i
    · simp
    · simp [h i hb]

/-- **C08**: `clear_bits` clears exactly the given bits. -/
theorem clearBits_bit (x bits : BitVec w) (i : Nat) :
    (clearBits x bits).getLsbD i = (x.getLsbD i && !bits.getLsbD i) := by
  unfold clearBits
  rw [BitVec.getLsbD_and, BitVec.getLsbD_not]
  by_cases hi : i < w
  · simp [hi]
  · simp [BitVec.getLsbD_of_ge x i (by omega)]

/-- **C08**: `clear_bit` clears exactly the given bit. -/
theorem clearBit_bit (x : BitVec w) (i j : Nat) :
    (clearBit x i).getLsbD j = (x.getLsbD j && decide (j ≠ i)) := by
  unfold clearBit
  rw [clearBits_bit, getLsbD_bit]
  by_cases hj : j < w
  · simp [hj]
  · simp [BitVec.getLsbD_of_ge x j (by omega)]

/-- **C08**: `set_bits` takes the masked bits from `bits` and all others from `x`. -/
theorem setBits_bit (x mask bits : BitVec w) (i : Nat) :
    (setBits x mask bits).getLsbD i =
      if mask.getLsbD i = true then bits.getLsbD i else x.getLsbD i := by
  unfold setBits
  rw [BitVec.getLsbD_or, clearBits_bit, BitVec.getLsbD_and]
  cases mask.getLsbD i <;> simp

/-! ### Flags -/

theorem Flag.word_bit (f : Flag) : ∃ k, k < 32 ∧ f.word = bit k := by
  cases f
  · exact ⟨0, by decide, rfl⟩
  · exact ⟨1, by decide, rfl⟩
  · exact ⟨2, by decide, rfl⟩
  · exact ⟨3, by decide, rfl⟩
  · exact ⟨4, by decide, rfl⟩
  · exact ⟨5, by decide, rfl⟩
  · exact ⟨6, by decide, rfl⟩
  · exact ⟨7, by decide, rfl⟩

theorem getf_iff (flags : FlagT) (f : Flag) :
    getf flags f = true ↔ ∀ i, f.word.getLsbD i = true → flags.getLsbD i = true :=
  hasBits_iff _ _

/-- Two flags share a bit only if they are the same flag. -/
theorem Flag.word_disjoint (f g : Flag) (h : f ≠ g) : f.word &&& g.word = 0 := by
  cases f <;> cases g <;> first | exact absurd rfl h | decide

theorem Flag.word_disjoint_bit (f g : Flag) (h : f ≠ g) (i : Nat) :
    g.word.getLsbD i = true → f.word.getLsbD i = false := by
  intro hg
  have := congrArg (fun v => v.getLsbD i) (Flag.word_disjoint f g h)
  simpa [hg] using this

/-- Is the flag in the `floatfield` group? -/
def Flag.isFloat : Flag → Bool
  | .fixed | .scientific | .hexfloat => true
  | _ => false

/-- **C08**: after `setf(f)` the flag `f` is on and every other flag is as before. -/
theorem getf_setf (flags : FlagT) (f g : Flag) :
    getf (setf flags f) g = if g = f then true else getf flags g := by
  rw [Bool.eq_iff_iff]
  by_cases h : g = f
  · subst h
    simp only [if_true, iff_true, getf_iff]
    intro i hi
    unfold setf
    rw [BitVec.getLsbD_or, hi, Bool.or_true]
  · rw [if_neg h, getf_iff, getf_iff]
    have hd := Flag.word_disjoint_bit f g (fun e => h e.symm)
    unfold setf
    constructor <;> intro hh i hi <;> have := hh i hi <;> simp_all [BitVec.getLsbD_or]

/-- **C08**: after `unsetf(f)` the flag `f` is off and every other flag is as before. -/
theorem getf_unsetf (flags : FlagT) (f g : Flag) :
    getf (unsetf flags f) g = if g = f then false else getf flags g := by
  rw [Bool.eq_iff_iff]
  by_cases h : g = f
  · subst h
    simp only [if_true, getf_iff, Bool.false_eq_true, iff_false, not_forall]
    obtain ⟨k, hk, hw⟩ := g.word_bit
    refine ⟨k, ?_, ?_⟩
    · rw [hw, getLsbD_bit]; simp [hk]
    · unfold unsetf; rw [clearBits_bit, hw, getLsbD_bit]; simp [hk]
  · rw [if_neg h, getf_iff, getf_iff]
    have hd := Flag.word_disjoint_bit f g (fun e => h e.symm)
    unfold unsetf
    constructor <;> intro hh i hi <;> have := hh i hi <;> simp_all [clearBits_bit]

theorem floatfield_bit (g : Flag) (i : Nat) (hi : g.word.getLsbD i = true) :
    floatfield.getLsbD i = g.isFloat := by
  obtain ⟨k, hk, hw⟩ := g.word_bit
  have : i = k := by
    rw [hw, getLsbD_bit] at hi
    simp only [Bool.and_eq_true, decide_eq_true_eq] at hi
    exact hi.1
  subst this
  revert hi
  cases g <;> revert i <;> intro i hk hw hi <;>
    (rw [hw] at hi; clear hi; revert i; decide +kernel)

/-- **C08**: selecting a float format (`fixed`, `scientific`, `hexfloat`, `defaultfloat`) turns on
exactly the selected flag of the group, turns off the others, and leaves every flag outside of
the group as before. -/
theorem getf_setGroup (flags : FlagT) (sel : Option Flag) (hsel : ∀ f ∈ sel, f.isFloat = true)
    (g : Flag) :
    getf (manipulate flags (.group sel)) g =
      if g.isFloat = true then decide (sel = some g) else getf flags g := by
  obtain ⟨k, hk, hw⟩ := g.word_bit
  have hone : ∀ fl : FlagT, getf fl g = fl.getLsbD k := by
    intro fl
    rw [Bool.eq_iff_iff, getf_iff, hw]
    constructor
    · intro h; exact h k (by rw [getLsbD_bit]; simp [hk])
    · intro h i hi
      rw [getLsbD_bit] at hi
      simp only [Bool.and_eq_true, decide_eq_true_eq] at hi
      rw [hi.1]; exact h
  have hgk : g.word.getLsbD k = true := by rw [hw, getLsbD_bit]; simp [hk]
  rw [hone, hone]
  cases sel with
  | none =>
    simp only [manipulate, setGroup, setBits_bit, floatfield_bit g k hgk]
    cases hg : g.isFloat <;> simp
  | some f =>
    simp only [manipulate, setGroup, setBits_bit, floatfield_bit g k hgk]
    cases hg : g.isFloat
    · simp
    · simp only [if_true, Option.some.injEq]
      by_cases h : f = g
      · subst h; simp [hgk]
      · simp [h, Flag.word_disjoint_bit f g h k hgk]

/-- Abstract meaning of a manipulator on a set of flags. -/
def Manip.spec : Manip → (Flag → Bool) → (Flag → Bool)
  | .set f, s => fun g => if g = f then true else s g
  | .unset f, s => fun g => if g = f then false else s g
  | .group sel, s => fun g => if g.isFloat = true then decide (sel = some g) else s g

/-- Manipulators the library offers: a group manipulator selects a flag of the group. -/
def Manip.Ok : Manip → Prop
  | .group sel => ∀ f ∈ sel, f.isFloat = true
  | _ => True

/-- **C08**: under every sequence of manipulators the flag word behaves as a set of flags. -/
theorem flags_refine (ms : List Manip) (hok : ∀ m ∈ ms, m.Ok) (flags : FlagT) :
    getf (ms.foldl manipulate flags) = ms.foldl (fun s m => m.spec s) (getf flags) := by
  induction ms generalizing flags with
  | nil => rfl
  | cons m ms ih =>
    simp only [List.foldl_cons]
    rw [ih (fun m' h => hok m' (by simp [h]))]
    congr 1
    funext g
    have hm := hok m (by simp)
    cases m with
    | set f => exact getf_setf _ _ _
    | unset f => exact getf_unsetf _ _ _
    | group sel => exact getf_setGroup _ _ hm _

/-! Concrete cases. -/
example : setBits 0b10110101#8 0b00001111#8 0b11111010#8 = 0b10111010#8 := by decide
example : clearBit 0b1111#4 2 = 0b1011#4 := by decide
example : let fl := [Manip.set .uppercase, .group (some .fixed), .group (some .hexfloat),
      .unset .uppercase].foldl manipulate 0
    getf fl .hexfloat = true ∧ getf fl .fixed = false ∧ getf fl .uppercase = false := by decide

end Actl.Bits
