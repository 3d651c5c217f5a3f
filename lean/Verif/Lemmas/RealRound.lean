import Verif.Model.RealRound
import Verif.Spec.RealRound
import Verif.Lemmas.RealParse

/-!
Two runs of the parser of real numbers with different roundings take the same way.
-/

namespace Actl.IntText

open Actl.Text Actl.Parser

variable {F : Type} [Field F]

theorem pointLoopR_id (B : Nat) : ∀ (k : Nat) (st : FloatSt F) (i : Nat) (s : List Byte),
    pointLoopR id B k st i s = pointLoop B k st i s
  | 0, _, _, _ => rfl
  | k + 1, st, i, s => by
    rw [pointLoopR, pointLoop]
    simp only [pointLoopR_id B k, id]

theorem integralLoopR_id (B : Nat) : ∀ (k : Nat) (st : FloatSt F) (i : Nat) (s : List Byte),
    integralLoopR id B k st i s = integralLoop B k st i s
  | 0, _, _, _ => rfl
  | k + 1, st, i, s => by
    rw [integralLoopR, integralLoop]
    simp only [integralLoopR_id B k, pointLoopR_id, id]

theorem floatParseR_id (B : Nat) : floatParseR (id : F → F) B = floatParse B := by
  funext st s
  unfold floatParseR floatParse signStepR signStep
  simp only [integralLoopR_id, pointLoopR_id, id]
  rfl

/-- Without rounding it is the model of `Verif.Model.RealParse`. -/
theorem readRealR_id (B : Nat) (chunks : List (List Byte)) : readRealR (id : F → F) B chunks = readReal B chunks := by
  unfold readRealR readReal
  rw [floatParseR_id]
  rfl

/-- A relation between the states of an exact run, after `k` characters, and of one with rounding, that the steps
keep. -/
structure Lockstep (fl : F → F) (B : Nat) (R : Nat → FloatSt F → FloatSt F → Prop) : Prop where
  init : R 0 .init .init
  state : ∀ {k st st'}, R k st st' → st'.state = st.state ∧ st'.negate = st.negate
  sign : ∀ {k st st'} (i : Nat) (n : Bool), R k st st' → st.state = .empty → i ≤ 1 →
    R (k + i) { st with negate := n, state := .sign } { st' with negate := n, state := .sign }
  first : ∀ {k st st'} (p l : Nat), R k st st' → st.state = .sign → 0 < l → p < B ^ l →
    R (k + l) { st with x := (p : F), state := .integral } { st' with x := fl p, state := .integral }
  integral : ∀ {k st st'} (p l : Nat), R k st st' → st.state = .integral → 0 < l → p < B ^ l →
    R (k + l) { st with x := st.x * ((B ^ l : Nat) : F) + p }
      { st' with x := fl (fl (st'.x * fl ((B ^ l : Nat) : F)) + fl p) }
  dot : ∀ {k st st'}, R k st st' → st.state = .integral →
    R (k + 1) { st with state := .point } { st' with state := .point }
  point : ∀ {k st st'} (p l : Nat), R k st st' → st.state = .point → 0 < l → p < B ^ l →
    R (k + l) { st with power := st.power / ((B ^ l : Nat) : F), x := st.x + p * (st.power / ((B ^ l : Nat) : F)) }
      { st' with power := fl (st'.power / fl ((B ^ l : Nat) : F)),
                 x := fl (st'.x + fl (fl p * fl (st'.power / fl ((B ^ l : Nat) : F)))) }

section
variable {B : Nat} (hB : 2 ≤ B) (hB' : B ≤ 36)
include hB hB'

theorem parseDigits_facts (s : List Byte) : ∃ p l, parseDigits B s = (p, l) ∧ p < B ^ l ∧ l ≤ maxLength B := by
  have e := parseDigits_eq hB hB' (mem_takeWhile_isDig (B := B) s) (noDigit_dropWhile (B := B) s)
  rw [List.takeWhile_append_dropWhile] at e
  refine ⟨_, _, e, numeral_lt fun c hc => mem_takeWhile_isDig s c (List.mem_of_mem_take hc), ?_⟩
  exact List.length_take_le _ _

variable {fl : F → F} {R : Nat → FloatSt F → FloatSt F → Prop} (hR : Lockstep fl B R)
include hR

theorem pointLoopR_lockstep : ∀ (n : Nat) {k : Nat} {st st' : FloatSt F} (i : Nat) (s : List Byte), R (k + i) st st' →
    st.state = .point →
    ∃ j r r', pointLoop B n st i s = (j, r) ∧ pointLoopR fl B n st' i s = (j, r') ∧ R (k + j) r r'
  | 0, k, st, st', i, s, h, _ => ⟨i, st, st', rfl, rfl, h⟩
  | n + 1, k, st, st', i, s, h, hs => by
    rw [pointLoop, pointLoopR]
    obtain ⟨p, l, e, hp, hl⟩ := parseDigits_facts hB hB' s
    by_cases h0 : s = []
    · simp only [h0, if_true]; exact ⟨i, st, st', rfl, rfl, h⟩
    · by_cases h1 : l = 0
      · simp only [h0, if_false, e, h1, if_true]; exact ⟨i, st, st', rfl, rfl, h⟩
      · simp only [h0, if_false, e, h1, basePower_small hB hB' hl]
        refine pointLoopR_lockstep n (k := k) (i + l) _ ?_ hs
        rw [← Nat.add_assoc]
        exact hR.point p l h hs (by omega) hp

theorem integralLoopR_lockstep : ∀ (n : Nat) {k : Nat} {st st' : FloatSt F} (i : Nat) (s : List Byte),
    R (k + i) st st' → st.state = .integral →
    ∃ j r r', integralLoop B n st i s = (j, r) ∧ integralLoopR fl B n st' i s = (j, r') ∧ R (k + j) r r'
  | 0, k, st, st', i, s, h, _ => ⟨i, st, st', rfl, rfl, h⟩
  | n + 1, k, st, st', i, s, h, hs => by
    rw [integralLoop, integralLoopR]
    obtain ⟨p, l, e, hp, hl⟩ := parseDigits_facts hB hB' s
    by_cases h0 : s = []
    · simp only [h0, if_true]; exact ⟨i, st, st', rfl, rfl, h⟩
    · by_cases h1 : l = 0
      · by_cases h2 : s.head? = some (lit '.')
        · simp only [h0, if_false, e, h1, h2, if_true]
          exact pointLoopR_lockstep hB hB' hR _ (k := k) (i + 1) _ (by rw [← Nat.add_assoc]; exact hR.dot h hs) rfl
        · simp only [h0, if_false, e, h1, h2, if_true]; exact ⟨i, st, st', rfl, rfl, h⟩
      · simp only [h0, if_false, e, h1, basePower_small hB hB' hl]
        refine integralLoopR_lockstep n (k := k) (i + l) _ ?_ hs
        rw [← Nat.add_assoc]
        exact hR.integral p l h hs (by omega) hp

theorem signStepR_lockstep {k : Nat} {st st' : FloatSt F} (i : Nat) (s : List Byte) (h : R (k + i) st st')
    (hs : st.state = .sign) :
    ∃ j r r', signStep B st i s = (j, r) ∧ signStepR fl B st' i s = (j, r') ∧ R (k + j) r r' := by
  unfold signStep signStepR
  obtain ⟨p, l, e, hp, hl⟩ := parseDigits_facts hB hB' s
  by_cases h1 : l = 0
  · simp only [e, h1, if_true]; exact ⟨i, st, st', rfl, rfl, h⟩
  · simp only [e, h1, if_false]
    refine integralLoopR_lockstep hB hB' hR _ (k := k) (i + l) _ ?_ rfl
    rw [← Nat.add_assoc]
    exact hR.first p l h hs (by omega) hp

theorem signParse_le {n : Bool} {s : List Byte} {i : Nat} {m : Bool} (h : signParse true n s = some (i, m)) : i ≤ 1 := by
  unfold signParse at h
  split at h
  · cases h
  · split_ifs at h <;> cases h <;> omega

theorem floatParseR_lockstep {k : Nat} {st st' : FloatSt F} (h : R k st st') (s : List Byte) :
    (floatParse B st s = none ∧ floatParseR fl B st' s = none) ∨
    ∃ j r r', floatParse B st s = some (j, r) ∧ floatParseR fl B st' s = some (j, r') ∧ R (k + j) r r' := by
  obtain ⟨e1, e2⟩ := hR.state h
  unfold floatParse floatParseR
  rw [e1, e2]
  cases hs : st.state with
  | empty =>
    cases hp : signParse true st.negate s with
    | none => exact .inl ⟨rfl, rfl⟩
    | some q =>
      obtain ⟨i, m⟩ := q
      right
      simp only
      have h' := hR.sign i m h hs (signParse_le hB hB' hR hp)
      split_ifs with hi
      · exact ⟨_, _, _, rfl, rfl, h'⟩
      · obtain ⟨j, r, r', a, b, c⟩ := signStepR_lockstep hB hB' hR i (s.drop i) h' rfl
        exact ⟨j, r, r', congrArg some a, congrArg some b, c⟩
  | sign =>
    obtain ⟨j, r, r', a, b, c⟩ := signStepR_lockstep hB hB' hR (k := k) 0 s h hs
    exact .inr ⟨j, r, r', congrArg some a, congrArg some b, c⟩
  | integral =>
    obtain ⟨j, r, r', a, b, c⟩ := integralLoopR_lockstep hB hB' hR (s.length + 1) (k := k) 0 s h hs
    exact .inr ⟨j, r, r', congrArg some a, congrArg some b, c⟩
  | point =>
    obtain ⟨j, r, r', a, b, c⟩ := pointLoopR_lockstep hB hB' hR (s.length + 1) (k := k) 0 s h hs
    exact .inr ⟨j, r, r', congrArg some a, congrArg some b, c⟩

theorem exec_lockstep : ∀ (chunks : List (List Byte)) {k : Nat} {st st' : FloatSt F}, R k st st' →
    (exec (floatParse B) st chunks = none ∧ exec (floatParseR fl B) st' chunks = none) ∨
    ∃ j r r', exec (floatParse B) st chunks = some (j, r) ∧ exec (floatParseR fl B) st' chunks = some (j, r') ∧
      R (k + j) r r'
  | [], k, st, st', h => .inr ⟨0, st, st', rfl, rfl, h⟩
  | s :: rest, k, st, st', h => by
    rw [exec, exec]
    by_cases he : s.isEmpty = true
    · simp only [he, if_true]; exact .inr ⟨0, st, st', rfl, rfl, h⟩
    · simp only [he]
      rcases floatParseR_lockstep hB hB' hR h s with ⟨a, b⟩ | ⟨j, r, r', a, b, c⟩
      · left; simp [a, b]
      · simp only [a, b]
        by_cases hj : j = s.length
        · simp only [hj, if_true]
          subst hj
          rcases exec_lockstep rest c with ⟨a', b'⟩ | ⟨j', q, q', a', b', c'⟩
          · left; simp [a', b']
          · right
            refine ⟨s.length + j', q, q', by simp [a'], by simp [b'], ?_⟩
            rw [← Nat.add_assoc]; exact c'
        · right
          exact ⟨j, r, r', by simp [hj], by simp [hj], c⟩

theorem readRealR_lockstep {b : Nat} (hb : (if b = 0 then 10 else b) = B) (chunks : List (List Byte)) {n : Nat}
    {o : Option F} (h : readReal b chunks = some (n, o)) :
    ∃ st st', R n st st' ∧ o = (if floatReady st then some (floatValue st) else none) ∧
      readRealR fl b chunks = some (n, if floatReady st then some (floatValue st') else none) := by
  unfold readReal at h
  unfold readRealR
  rw [hb] at h ⊢
  rcases exec_lockstep hB hB' hR chunks hR.init with ⟨a, -⟩ | ⟨j, r, r', a, b', c⟩
  · rw [a] at h; cases h
  · rw [a] at h
    simp only [Option.some.injEq, Prod.mk.injEq] at h
    rw [Nat.zero_add] at c
    obtain ⟨e1, -⟩ := hR.state c
    refine ⟨r, r', h.1 ▸ c, h.2.symm, ?_⟩
    rw [b']
    simp only [floatReady, e1, h.1]
    rfl

end

end Actl.IntText
