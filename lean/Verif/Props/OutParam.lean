import Verif.Model.OutParam
import Mathlib.Tactic

/-! # C93: output parameters -/

namespace Actl.OutParam

/-! ### What a wrapper denotes -/

/-- A parameter of a function that the wrapper is passed on to: `out` or `inout`, of a view or of the same type. -/
abbrev Param := Bool × Bool

/-- The wrapper is passed on through functions with these parameters. -/
def passOn : Wrapper → List Param → Option Wrapper
  | w, [] => some w
  | w, (i, v) :: ps => match convert w i v with
    | none => none
    | some w => passOn w ps

private theorem convert_addresses {w w' : Wrapper} {i v : Bool} (h : convert w i v = some w') :
    w'.inout = i ∧ w'.ref.addresses = w.ref.addresses ∧ (w'.inout = true → w.inout = true) ∧
      (v = false → w'.ref = w.ref) := by
  unfold convert at h
  split_ifs at h with h1
  cases hr : convertRef w.ref v with
  | none => rw [hr] at h; cases h
  | some r =>
    rw [hr] at h
    cases h
    refine ⟨rfl, ?_, ?_, ?_⟩
    · obtain ⟨wi, wr⟩ := w
      cases wr <;> cases v <;> simp [convertRef] at hr <;> subst hr <;> rfl
    · intro hi
      simp only at hi
      by_contra hw
      exact h1 ⟨hi, by simpa using hw⟩
    · rintro rfl
      obtain ⟨wi, wr⟩ := w
      cases wr <;> simp [convertRef] at hr <;> subst hr <;> rfl

/-- However often a wrapped reference is passed on, it denotes the same objects in the end; the reference itself is
the same unless it becomes a view; and it is an `inout` only if it was one at every step. -/
theorem passOn_denotes {w w' : Wrapper} {ps : List Param} (h : passOn w ps = some w') :
    (deref w').addresses = (deref w).addresses ∧
      ((∀ p ∈ ps, p.2 = false) → deref w' = deref w) ∧
      (w'.inout = true → w.inout = true ∧ ∀ p ∈ ps, p.1 = true) := by
  induction ps generalizing w with
  | nil => cases h; simp
  | cons p ps ih =>
    obtain ⟨i, v⟩ := p
    simp only [passOn] at h
    cases hc : convert w i v with
    | none => rw [hc] at h; cases h
    | some w1 =>
      rw [hc] at h
      obtain ⟨h1, h2, h3⟩ := ih h
      obtain ⟨c1, c2, c3, c4⟩ := convert_addresses hc
      refine ⟨h1.trans c2, fun hp => ?_, fun hi => ?_⟩
      · have hv : v = false := hp (i, v) (by simp)
        exact (h2 fun p hp' => hp p (by simp [hp'])).trans (c4 hv)
      · have := h3 hi
        refine ⟨c3 this.1, fun p hp => ?_⟩
        rcases List.mem_cons.1 hp with rfl | hp
        · rw [← c1]; exact this.1
        · exact this.2 p hp

/-- A reference is passed on to every chain of parameters of its own type. -/
theorem passOn_defined {w : Wrapper} {ps : List Param} (h : ∀ p ∈ ps, p.2 = false ∧ (p.1 = true → w.inout = true))
    (hdec : ps.Pairwise fun p q => q.1 = true → p.1 = true) : (passOn w ps).isSome = true := by
  induction ps generalizing w with
  | nil => rfl
  | cons p ps ih =>
    obtain ⟨i, v⟩ := p
    have h0 := h (i, v) (by simp)
    obtain ⟨hv, hi⟩ := h0
    simp only at hv hi
    subst hv
    have hc : convert w i false = some ⟨i, w.ref⟩ := by
      unfold convert
      rw [if_neg]
      · obtain ⟨wi, wr⟩ := w
        cases wr <;> rfl
      · rintro ⟨h1, h2⟩
        rw [hi h1] at h2
        cases h2
    simp only [passOn, hc]
    rw [List.pairwise_cons] at hdec
    exact ih (fun p hp => ⟨(h p (by simp [hp])).1, fun h1 => hdec.1 p hp h1⟩) hdec.2

/-- An output-only parameter never becomes an input. -/
theorem inout_from_out (w : Wrapper) (h : w.inout = false) :
    wrap true (.wrapped w) = none ∧ ∀ v, convert w true v = none := by
  simp [wrap, convert, h]

/-- Wrapping twice is wrapping once. -/
theorem wrap_wrap {i : Bool} {r : Ref} : (wrap i (.plain r)).bind (fun w => wrap i (.wrapped w)) = wrap i (.plain r) := by
  cases i <;> rfl

/-! ### Assignment -/

/-- The number that is assigned. -/
def Source.number (m : Mem) : Source → Option Nat
  | .value v => some v
  | .ref (.cell a) => some (m a)
  | .ref (.bit a i) => some (if (m a).testBit i then 1 else 0)
  | .wrapper ⟨_, .cell a⟩ _ => some (m a)
  | .wrapper ⟨_, .bit a i⟩ _ => some (if (m a).testBit i then 1 else 0)
  | _ => none

/-- The source is a constant of the class of the target, which wraps a number. -/
def Source.OwnConstant (w : Wrapper) : Source → Prop
  | .wrapper s c => s.inout = w.inout ∧ c = .constant ∧ ∃ b, s.ref = .cell b
  | _ => False

private theorem number_eq (m : Mem) (s : Source) : s.toNumber m = s.number m := by
  rcases s with v | r | ⟨⟨i, r⟩, c⟩
  · rfl
  · cases r <;> rfl
  · cases r <;> rfl

/-- Assignment to a wrapped number writes the number that is assigned, and nothing else; it never rebinds the
wrapper, and returns a reference to the number. -/
theorem assign_number {m : Mem} {w : Wrapper} {a v : Nat} {s : Source} (hw : w.ref = .cell a)
    (hs : s.number m = some v) (hc : ¬ s.OwnConstant w) :
    ∃ r, assignTo m w s = some r ∧ r.mem a = v ∧ (∀ b, b ≠ a → r.mem b = m b) ∧ r.self = .cell a ∧
      r.result = .cell a := by
  have key : assignTo m w s = assign m w.ref s := by
    rcases s with v' | r | ⟨⟨i, r⟩, c⟩
    · rfl
    · rfl
    · unfold assignTo
      simp only [hw]
      split_ifs with h1 h2
      · cases r <;> simp [sameType] at h1
        next b =>
        subst h2
        exact absurd ⟨h1.1, rfl, b, rfl⟩ hc
      · rfl
      · rfl
  refine ⟨⟨m.set a v, .cell a, .cell a⟩, ?_, by simp [Mem.set], fun b hb => by simp [Mem.set, hb], rfl, rfl⟩
  rw [key, hw]
  unfold assign
  simp only [number_eq, hs]
  rfl

private theorem testBit_flip (x i : Nat) : (x ^^^ 2 ^ i).testBit i = !x.testBit i ∧
    ∀ j, j ≠ i → (x ^^^ 2 ^ i).testBit j = x.testBit j := by
  refine ⟨?_, fun j hj => ?_⟩
  · rw [Nat.testBit_xor, Nat.testBit_two_pow]; simp
  · rw [Nat.testBit_xor, Nat.testBit_two_pow]; simp [Ne.symm hj]

private theorem setBit_spec (m : Mem) (a i : Nat) (v : Bool) : (m.setBit a i v a).testBit i = v ∧
    (∀ j, j ≠ i → (m.setBit a i v a).testBit j = (m a).testBit j) ∧ ∀ b, b ≠ a → m.setBit a i v b = m b := by
  unfold Mem.setBit Mem.set
  refine ⟨?_, fun j hj => ?_, fun b hb => by simp [hb]⟩
  · simp only [if_true]
    by_cases h : (m a).testBit i = v
    · rw [if_pos h]; exact h
    · rw [if_neg h, (testBit_flip _ _).1]
      cases hb : (m a).testBit i <;> cases v <;> simp_all
  · simp only [if_true]
    by_cases h : (m a).testBit i = v
    · rw [if_pos h]
    · rw [if_neg h, (testBit_flip _ _).2 j hj]

/-- Assignment to a wrapped bit writes this bit and nothing else. -/
theorem assign_bit {m : Mem} {w : Wrapper} {a i v : Nat} {s : Source} (hw : w.ref = .bit a i)
    (hs : s.number m = some v) :
    ∃ r, assignTo m w s = some r ∧ (r.mem a).testBit i = decide (v ≠ 0) ∧
      (∀ j, j ≠ i → (r.mem a).testBit j = (m a).testBit j) ∧ (∀ b, b ≠ a → r.mem b = m b) ∧
      r.self = .bit a i ∧ r.result = .bit a i := by
  have key : assignTo m w s = some ⟨m.setBit a i (v != 0), .bit a i, .bit a i⟩ := by
    have base : assign m w.ref s = some ⟨m.setBit a i (v != 0), .bit a i, .bit a i⟩ := by
      rw [hw]
      unfold assign
      simp only [number_eq, hs]
      rfl
    rcases s with v' | r | ⟨⟨k, r⟩, c⟩
    · exact base
    · exact base
    · unfold assignTo
      simp only [hw] at base ⊢
      split_ifs with h1 h2
      · cases r <;> simp [sameType] at h1
        next b j =>
        simp only [Source.number, Option.some.injEq] at hs
        simp only
        subst hs
        cases (m b).testBit j <;> rfl
      · cases r <;> simp [sameType] at h1
        next b j =>
        simp only [Source.number, Option.some.injEq] at hs
        simp only
        subst hs
        cases (m b).testBit j <;> rfl
      · exact base
  obtain ⟨h1, h2, h3⟩ := setBit_spec m a i (v != 0)
  exact ⟨_, key, h1.trans (by cases v <;> simp), h2, h3, rfl, rfl⟩

/-! ### Where it goes wrong -/

/-- A constant wrapper of a number cannot be assigned to a wrapper of the same class, although a variable or a
temporary can. -/
theorem assign_constant_fails (m : Mem) (i : Bool) (a b : Nat) :
    assignTo m ⟨i, .cell a⟩ (.wrapper ⟨i, .cell b⟩ .constant) = none := by
  simp [assignTo, sameType]

/-- Assignment to a wrapped view, if it compiles, changes no element of anything; and what it returns denotes the
source, not the target. -/
theorem assign_view_fails {m : Mem} {w : Wrapper} {a n : Nat} {s : Source} {r : Result} (hw : w.ref = .view a n)
    (h : assignTo m w s = some r) :
    r.mem = m ∧ ((∃ b k, (s = .ref (.view b k) ∨ s = .ref (.container b k) ∨
      ∃ i c, s = .wrapper ⟨i, .view b k⟩ c ∨ s = .wrapper ⟨i, .container b k⟩ c) ∧ r.result = .view b k)) := by
  have base : ∀ {r}, assign m w.ref s = some r → r.mem = m ∧ ((∃ b k, (s = .ref (.view b k) ∨ s = .ref (.container b k) ∨
      ∃ i c, s = .wrapper ⟨i, .view b k⟩ c ∨ s = .wrapper ⟨i, .container b k⟩ c) ∧ r.result = .view b k)) := by
    intro r h
    rw [hw] at h
    rcases s with v' | r' | ⟨⟨k, r'⟩, c⟩
    · simp [assign, Source.toView] at h
    · cases r' <;> simp [assign, Source.toView, convertRef] at h <;> subst h
      · exact ⟨rfl, _, _, Or.inr (Or.inl rfl), rfl⟩
      · exact ⟨rfl, _, _, Or.inl rfl, rfl⟩
    · cases r' <;> simp [assign, Source.toView, convertRef] at h <;> subst h
      · exact ⟨rfl, _, _, Or.inr (Or.inr ⟨_, _, Or.inr rfl⟩), rfl⟩
      · exact ⟨rfl, _, _, Or.inr (Or.inr ⟨_, _, Or.inl rfl⟩), rfl⟩
  rcases s with v' | r' | ⟨⟨k, r'⟩, c⟩
  · exact base h
  · exact base h
  · unfold assignTo at h
    simp only at h
    split_ifs at h with h1 h2
    · rw [hw] at h h1
      cases r' <;> simp [sameType] at h1
      simp only [Option.some.injEq] at h
      subst h
      exact ⟨rfl, _, _, Or.inr (Or.inr ⟨_, _, Or.inl rfl⟩), rfl⟩
    · rw [hw] at h h1
      cases r' <;> simp [sameType] at h1
      simp only [Option.some.injEq] at h
      subst h
      exact ⟨rfl, _, _, Or.inr (Or.inr ⟨_, _, Or.inl rfl⟩), rfl⟩
    · exact base h

/-- From a temporary wrapper of a view the target is rebound: from then on it denotes the source. -/
theorem assign_view_rebinds_fails (m : Mem) (i : Bool) (a n b k : Nat) :
    ∃ r, assignTo m ⟨i, .view a n⟩ (.wrapper ⟨i, .view b k⟩ .temporary) = some r ∧ r.self = .view b k := by
  exact ⟨_, by simp [assignTo, sameType]; rfl, rfl⟩

/-! ### Examples -/

/-- Cells 0, 1, 2, … with the values 10, 11, 12, …. -/
private def mem0 : Mem := fun a => 10 + a

-- `passOn_denotes`, `passOn_defined`: `inout<vector&>` to `inout<vector&>` to `out<span>`.
example : passOn ⟨true, .container 3 2⟩ [(true, false), (false, true)] = some ⟨false, .view 3 2⟩ := by decide +kernel
example : (Ref.view 3 2).addresses = [3, 4] := by decide +kernel
example : passOn ⟨false, .cell 3⟩ [(true, false)] = none := by decide +kernel

-- `assign_number`: `out{x} = out{y}`.
example : (assignTo mem0 ⟨false, .cell 3⟩ (.wrapper ⟨false, .cell 5⟩ .temporary)).map (fun r => (r.mem 3, r.mem 5, r.self)) =
    some (15, 15, .cell 3) := by decide +kernel
-- `assign_bit`: the bit 2 of 13.
example : (assignTo mem0 ⟨false, .bit 3 2⟩ (.value 0)).map (fun r => r.mem 3) = some 9 := by decide +kernel
-- `assign_view_fails`.
example : (assignTo mem0 ⟨false, .view 0 2⟩ (.ref (.view 5 2))).map (fun r => (r.mem 0, r.result)) =
    some (10, .view 5 2) := by decide +kernel

end Actl.OutParam
