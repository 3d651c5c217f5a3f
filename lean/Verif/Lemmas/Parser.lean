import Verif.Model.Parser

namespace Actl.Parser

open Actl.Text

/-- A parser that works character by character: parsing `c` followed by `t` is parsing `c`, and
then `t` if `c` was accepted.  Besides, it is defined on every non-empty input.  `inv` is an
invariant of the parser states. -/
structure StepLaw {σ : Type} (inv : σ → Prop) (parse : σ → List Byte → Option (Nat × σ)) :
    Prop where
  one : ∀ st c, inv st → ∃ n st', parse st [c] = some (n, st') ∧ n ≤ 1 ∧ inv st'
  step : ∀ st c t, inv st → t ≠ [] → parse st (c :: t) =
    match parse st [c] with
    | none => none
    | some (n, st') =>
      if n = 1 then
        match parse st' t with
        | none => none
        | some (m, st'') => some (1 + m, st'')
      else some (n, st')

variable {σ : Type} {inv : σ → Prop} {parse : σ → List Byte → Option (Nat × σ)}

/-- One chunk is equivalent to its characters one at a time. -/
theorem exec_chunk (h : StepLaw inv parse) (s : List Byte) : ∀ (st : σ) (rest : List (List Byte)),
    inv st → s ≠ [] → exec parse st (s :: rest) = exec parse st (s.map (fun c => [c]) ++ rest) := by
  induction s with
  | nil => intro st rest _ hs; exact absurd rfl hs
  | cons c t ih =>
    intro st rest hi _
    by_cases ht : t = []
    · subst ht; rfl
    · obtain ⟨n, st', hp, hn, hi'⟩ := h.one st c hi
      have hstep := h.step st c t hi ht
      rw [hp] at hstep
      simp only at hstep
      rw [List.map_cons, List.cons_append, exec, exec]
      simp only [List.isEmpty_cons, Bool.false_eq_true, if_false, List.length_cons]
      rw [hstep, hp]
      simp only [List.length_nil, Nat.zero_add]
      by_cases h1 : n = 1
      · rw [if_pos h1, if_pos h1, ← ih st' rest hi' ht, exec]
        have hte : t.isEmpty = false := by cases t <;> simp_all
        rw [hte]
        simp only [Bool.false_eq_true, if_false]
        cases hpt : parse st' t with
        | none => rfl
        | some r =>
          obtain ⟨m, st''⟩ := r
          simp only
          by_cases hm : m = t.length
          · rw [if_pos (by omega), if_pos hm]
            cases exec parse st'' rest with
            | none => rfl
            | some r => simp only [Option.some.injEq, Prod.mk.injEq, and_true]; omega
          · rw [if_neg (by omega), if_neg hm]
            simp only [Option.some.injEq, Prod.mk.injEq, and_true]; omega
      · rw [if_neg h1, if_neg h1]
        simp only
        rw [if_neg (by omega)]

/-- Any chunks are equivalent to the single characters. -/
theorem exec_chars (h : StepLaw inv parse) (chunks : List (List Byte)) (hne : ∀ s ∈ chunks, s ≠ [])
    (st : σ) (hi : inv st) :
    exec parse st chunks = exec parse st (chunks.flatten.map (fun c => [c])) := by
  have key : ∀ (chunks : List (List Byte)), (∀ s ∈ chunks, s ≠ []) → ∀ (pre : List Byte) (st : σ), inv st →
      exec parse st (pre.map (fun c => [c]) ++ chunks) =
        exec parse st ((pre ++ chunks.flatten).map (fun c => [c])) := by
    intro chunks
    induction chunks with
    | nil => intro _ pre st _; simp
    | cons s rest ih =>
      intro hne pre st hi
      have e : exec parse st (pre.map (fun c => [c]) ++ s :: rest) =
          exec parse st ((pre ++ s).map (fun c => [c]) ++ rest) := by
        have hs := hne s (by simp)
        rw [List.map_append, List.append_assoc]
        clear ih
        induction pre generalizing st with
        | nil => simp only [List.map_nil, List.nil_append]; exact exec_chunk h s st rest hi hs
        | cons c pre ihp =>
          simp only [List.map_cons, List.cons_append, exec]
          obtain ⟨n, st', hp, -, hi'⟩ := h.one st c hi
          rw [hp]
          simp only [ihp st' hi']
      rw [e, ih (fun s hs => hne s (by simp [hs])) _ _ hi]
      simp
  exact key chunks hne [] st hi

/-! ### const_data_parser -/

theorem constParse_stepLaw : StepLaw (fun _ => True) constParse := by
  constructor
  · intro st c _
    refine ⟨_, _, rfl, ?_, trivial⟩
    cases st with
    | nil => simp [matching]
    | cons p ps => simp only [matching]; split <;> simp
  · intro st c t _ _
    cases st with
    | nil => simp [constParse, matching]
    | cons p ps =>
      by_cases hpc : p = c
      · subst hpc
        cases t with
        | nil => simp_all
        | cons a t =>
          have e1 : constParse (p :: ps) [p] = some (1, ps) := by simp [constParse, matching]
          rw [e1]
          simp only [constParse, matching, if_true]
          rw [Nat.add_comm 1, List.drop_succ_cons]
      · have e1 : constParse (p :: ps) [c] = some (0, p :: ps) := by simp [constParse, matching, hpc]
        rw [e1]
        simp [constParse, matching, hpc]

theorem matching_le_left (p s : List Byte) : matching p s ≤ p.length := by
  induction p generalizing s with
  | nil => simp [matching]
  | cons a p ih =>
    cases s with
    | nil => simp [matching]
    | cons c s =>
      simp only [matching]
      split
      · have := ih s; simp; omega
      · simp

theorem matching_take (p s : List Byte) : p.take (matching p s) = s.take (matching p s) := by
  induction p generalizing s with
  | nil => simp [matching]
  | cons a p ih =>
    cases s with
    | nil => simp [matching]
    | cons c s =>
      simp only [matching]
      split
      · rename_i h; subst h
        rw [Nat.add_comm]
        simp [ih s]
      · simp

theorem matching_max (p s : List Byte) (k : Nat) (hk : k ≤ p.length) (h : p.take k = s.take k)
    (hs : k ≤ s.length) : k ≤ matching p s := by
  induction p generalizing s k with
  | nil => simp at hk; omega
  | cons a p ih =>
    cases k with
    | zero => omega
    | succ k =>
      cases s with
      | nil => simp at hs
      | cons c s =>
        simp only [List.take_succ_cons, List.cons.injEq] at h
        simp only [matching, h.1, if_true]
        have := ih s k (by simpa using hk) h.2 (by simpa using hs)
        omega

theorem matching_eq_length_iff (p s : List Byte) : matching p s = p.length ↔ p <+: s := by
  constructor
  · intro h
    have := matching_take p s
    rw [h, List.take_length] at this
    rw [this]
    exact List.take_prefix _ _
  · rintro ⟨t, rfl⟩
    have := matching_max p (p ++ t) p.length (by omega) (by simp) (by simp)
    have := matching_le_left p (p ++ t)
    omega

/-- One chunk fed to a parser with an unbounded rest: `exec` on `[s]`. -/
theorem exec_single (parse : σ → List Byte → Option (Nat × σ)) (st : σ) (s : List Byte)
    (hs : s ≠ []) : exec parse st [s] = parse st s := by
  have : s.isEmpty = false := by cases s <;> simp_all
  simp only [exec, this, Bool.false_eq_true, if_false]
  cases parse st s with
  | none => rfl
  | some r => obtain ⟨n, st'⟩ := r; simp

/-- Chunks can be joined into one. -/
theorem exec_join (h : StepLaw inv parse) (chunks : List (List Byte)) (hne : ∀ s ∈ chunks, s ≠ [])
    (hfl : chunks.flatten ≠ []) (st : σ) (hi : inv st) :
    exec parse st chunks = parse st chunks.flatten := by
  rw [← exec_single parse st _ hfl, exec_chars h chunks hne st hi,
    exec_chars h [chunks.flatten] (by simpa using hfl) st hi]
  simp

/-! ### boolean_parser -/

/-- Before the first character the suffix parser is empty; in numeric mode it always is. -/
def BoolInv (alpha : Bool) (st : BoolSt) : Prop :=
  (st.started = false ∨ alpha = false) → st.suffix = []

theorem boolParse_stepLaw (alpha : Bool) : StepLaw (BoolInv alpha) (boolParse alpha) := by
  have hc := constParse_stepLaw
  have hnil : ∀ s, constParse [] s = some (0, []) := by intro s; simp [constParse, matching]
  constructor
  · rintro ⟨x, started, suffix⟩ c hi
    cases started <;> cases alpha
    · have : suffix = [] := hi (Or.inl rfl)
      subst this
      simp only [boolParse, if_true, Bool.false_eq_true, if_false]
      split
      · exact ⟨_, _, rfl, by omega, fun _ => rfl⟩
      · exact ⟨_, _, rfl, by omega, fun _ => rfl⟩
    · simp only [boolParse, if_true]
      obtain ⟨n, st', h, hn, -⟩ := hc.one (if (c == lit 't') = true then trueS else falseS) c trivial
      rw [h]
      exact ⟨_, _, rfl, hn, by rintro (h | h) <;> simp at h⟩
    · have : suffix = [] := hi (Or.inr rfl)
      subst this
      simp only [boolParse, Bool.true_eq_false, if_false, hnil]
      exact ⟨_, _, rfl, by omega, fun _ => rfl⟩
    · simp only [boolParse, Bool.true_eq_false, if_false]
      obtain ⟨n, st', h, hn, -⟩ := hc.one suffix c trivial
      rw [h]
      exact ⟨_, _, rfl, hn, by rintro (h | h) <;> simp at h⟩
  · rintro ⟨x, started, suffix⟩ c t hi ht
    cases started <;> cases alpha
    · have : suffix = [] := hi (Or.inl rfl)
      subst this
      simp only [boolParse, if_true, Bool.false_eq_true, if_false]
      by_cases hok : (c == lit '1' || c == lit '0') = true
      · simp [hok, hnil]
      · simp [hok]
    · simp only [boolParse, if_true]
      rw [hc.step _ c t trivial ht]
      obtain ⟨n, st', h, hn⟩ := hc.one (if (c == lit 't') = true then trueS else falseS) c trivial
      rw [h]
      simp only
      by_cases h1 : n = 1
      · simp only [h1, if_true, Bool.true_eq_false, if_false]
        cases constParse st' t with
        | none => rfl
        | some r => rfl
      · simp only [h1, if_false]
    · have : suffix = [] := hi (Or.inr rfl)
      subst this
      simp [boolParse, hnil]
    · simp only [boolParse, Bool.true_eq_false, if_false]
      rw [hc.step _ c t trivial ht]
      obtain ⟨n, st', h, hn⟩ := hc.one suffix c trivial
      rw [h]
      simp only
      by_cases h1 : n = 1
      · simp only [h1, if_true]
        cases constParse st' t with
        | none => rfl
        | some r => rfl
      · simp only [h1, if_false]

end Actl.Parser
