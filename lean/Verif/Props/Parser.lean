import Verif.Lemmas.Parser
import Verif.Props.Text

/-!
C14 (constant data and booleans), C15, C16.
-/

namespace Actl.Parser

open Actl.Text

/-- **C14** (constant data): the outcome does not depend on how the input is cut into buffers. -/
theorem readConst_chunks (data : List Byte) (c₁ c₂ : List (List Byte)) (h₁ : ∀ s ∈ c₁, s ≠ [])
    (h₂ : ∀ s ∈ c₂, s ≠ []) (h : c₁.flatten = c₂.flatten) :
    readConst data c₁ = readConst data c₂ := by
  unfold readConst
  rw [exec_chars constParse_stepLaw c₁ h₁ _ trivial, exec_chars constParse_stepLaw c₂ h₂ _ trivial, h]

example : readConst (bytes "abcd") [bytes "ab", bytes "c", bytes "dx"] =
    readConst (bytes "abcd") [bytes "abcdx"] :=
  readConst_chunks _ _ _ (by decide) (by decide) rfl

/-- **C14** (booleans). -/
theorem readBool_chunks (alpha : Bool) (c₁ c₂ : List (List Byte)) (h₁ : ∀ s ∈ c₁, s ≠ [])
    (h₂ : ∀ s ∈ c₂, s ≠ []) (h : c₁.flatten = c₂.flatten) :
    readBool alpha c₁ = readBool alpha c₂ := by
  unfold readBool
  rw [exec_chars (boolParse_stepLaw alpha) c₁ h₁ _ (fun _ => rfl),
    exec_chars (boolParse_stepLaw alpha) c₂ h₂ _ (fun _ => rfl), h]

example : readBool true [bytes "tr", bytes "u", bytes "e!"] = readBool true [bytes "true!"] :=
  readBool_chunks _ _ _ (by decide) (by decide) rfl

/-- **C16** Reading constant data consumes exactly the longest common prefix of the data and the
input, and succeeds exactly when the input starts with the data. -/
theorem readConst_correct (data : List Byte) (chunks : List (List Byte)) (hne : ∀ s ∈ chunks, s ≠ []) :
    ∃ n ok, readConst data chunks = some (n, ok) ∧
      (ok = true ↔ data <+: chunks.flatten) ∧
      n ≤ data.length ∧ n ≤ chunks.flatten.length ∧
      data.take n = chunks.flatten.take n ∧
      (∀ k, k ≤ data.length → k ≤ chunks.flatten.length → data.take k = chunks.flatten.take k →
        k ≤ n) := by
  have hr : readConst data chunks =
      some (matching data chunks.flatten, (data.drop (matching data chunks.flatten)).isEmpty) := by
    by_cases hfl : chunks.flatten = []
    · have : chunks = [] := by
        cases chunks with
        | nil => rfl
        | cons s t =>
          have := hne s (by simp)
          simp at hfl
          exact absurd hfl.1 this
      subst this
      cases data <;> rfl
    · unfold readConst
      rw [exec_join constParse_stepLaw chunks hne hfl _ trivial]
      rfl
  have hle : ∀ p s, matching p s ≤ s.length := by
    intro p
    induction p with
    | nil => intro s; simp [matching]
    | cons a p ih =>
      intro s
      cases s with
      | nil => simp [matching]
      | cons b s =>
        simp only [matching]
        split
        · have := ih s; simp; omega
        · omega
  refine ⟨_, _, hr, ?_, matching_le_left _ _, hle _ _, matching_take _ _,
    fun k h1 h2 h3 => matching_max _ _ _ h1 h3 h2⟩
  rw [List.isEmpty_iff, List.drop_eq_nil_iff, ← matching_eq_length_iff]
  have := matching_le_left data chunks.flatten
  omega

example : readConst (bytes "abc") [bytes "ab", bytes "d"] = some (2, false) := by decide +kernel

/-- Reading never leaves the input once it matched: after success exactly the data is consumed. -/
theorem readConst_success (data : List Byte) (chunks : List (List Byte)) (hne : ∀ s ∈ chunks, s ≠ [])
    (h : data <+: chunks.flatten) : readConst data chunks = some (data.length, true) := by
  obtain ⟨n, ok, h1, h2, h3, h4, h5, h6⟩ := readConst_correct data chunks hne
  have hok := h2.mpr h
  obtain ⟨t, ht⟩ := h
  have := h6 data.length (Nat.le_refl _) (by rw [← ht]; simp) (by rw [← ht]; simp)
  rw [h1, hok, show n = data.length by omega]

theorem bool_exec_join (alpha : Bool) (chunks : List (List Byte)) (hne : ∀ s ∈ chunks, s ≠ [])
    (hfl : chunks.flatten ≠ []) :
    exec (boolParse alpha) .init chunks = boolParse alpha .init chunks.flatten :=
  exec_join (boolParse_stepLaw alpha) chunks hne hfl _ (fun _ => rfl)

/-- **C15** In textual mode exactly inputs starting with `true` or `false` are accepted, with the
corresponding value, consuming exactly the word. -/
theorem readBool_alpha (chunks : List (List Byte)) (hne : ∀ s ∈ chunks, s ≠ []) :
    ∃ n v, readBool true chunks = some (n, v) ∧
      (v = some true ↔ bytes "true" <+: chunks.flatten) ∧
      (v = some false ↔ bytes "false" <+: chunks.flatten) ∧
      (v = some true → n = 4) ∧ (v = some false → n = 5) := by
  by_cases hfl : chunks.flatten = []
  · have : chunks = [] := by
      cases chunks with
      | nil => rfl
      | cons s t =>
        have := hne s (by simp)
        simp at hfl
        exact absurd hfl.1 this
    subst this
    refine ⟨0, none, by decide +kernel, ?_, ?_, by simp, by simp⟩ <;> decide
  · unfold readBool
    rw [bool_exec_join true chunks hne hfl]
    generalize chunks.flatten = s at *
    cases s with
    | nil => exact absurd rfl hfl
    | cons c t =>
      have hnotboth : ¬ (bytes "true" <+: c :: t ∧ c ≠ lit 't') := by
        rintro ⟨⟨u, hu⟩, hc⟩
        apply hc
        have := congrArg List.head? hu
        simp [bytes] at this
        exact this.symm
      have hnotboth' : ¬ (bytes "false" <+: c :: t ∧ c = lit 't') := by
        rintro ⟨⟨u, hu⟩, hc⟩
        have := congrArg List.head? hu
        simp [bytes, hc] at this
        revert this
        decide
      have hred : ∀ (d : List Byte) (n : Nat), (matching d (c :: t) = d.length) ↔
          (d.drop (matching d (c :: t))).isEmpty = true := by
        intro d _
        rw [List.isEmpty_iff, List.drop_eq_nil_iff]
        have := matching_le_left d (c :: t)
        omega
      by_cases hc : c = lit 't'
      · have hcb : (c == lit 't') = true := by simp [hc]
        simp only [boolParse, BoolSt.init, if_true, hcb, constParse, boolReady, constReady, Bool.and_true]
        refine ⟨_, _, rfl, ?_, ?_, ?_, ?_⟩
        · rw [show bytes "true" = trueS from rfl, ← matching_eq_length_iff, hred _ 0]
          split <;> simp_all
        · constructor
          · intro h
            split at h <;> simp at h
          · intro h
            exact absurd ⟨h, hc⟩ hnotboth'
        · intro h
          split at h
          · rename_i h'
            exact (hred trueS 0).mpr h'
          · simp at h
        · intro h
          split at h <;> simp at h
      · have hcb : (c == lit 't') = false := by simp [hc]
        simp only [boolParse, BoolSt.init, if_true, hcb, constParse, boolReady, constReady,
          Bool.and_true, Bool.false_eq_true, if_false]
        refine ⟨_, _, rfl, ?_, ?_, ?_, ?_⟩
        · constructor
          · intro h
            split at h <;> simp at h
          · intro h
            exact absurd ⟨h, hc⟩ hnotboth
        · rw [show bytes "false" = falseS from rfl, ← matching_eq_length_iff, hred _ 0]
          split <;> simp_all
        · intro h
          split at h <;> simp at h
        · intro h
          split at h
          · rename_i h'
            exact (hred falseS 0).mpr h'
          · simp at h

example : readBool true [bytes "fal", bytes "sey"] = some (5, some false) := by decide +kernel
example : readBool true [bytes "tru", bytes "x"] = some (3, none) := by decide +kernel

/-- **C15** In numeric mode exactly `1` and `0` are accepted, consuming one character. -/
theorem readBool_numeric (chunks : List (List Byte)) (hne : ∀ s ∈ chunks, s ≠ []) :
    readBool false chunks = some (
      if chunks.flatten.head? = some (lit '1') then (1, some true)
      else if chunks.flatten.head? = some (lit '0') then (1, some false)
      else (0, none)) := by
  by_cases hfl : chunks.flatten = []
  · have : chunks = [] := by
      cases chunks with
      | nil => rfl
      | cons s t =>
        have := hne s (by simp)
        simp at hfl
        exact absurd hfl.1 this
    subst this
    decide +kernel
  · unfold readBool
    rw [bool_exec_join false chunks hne hfl]
    generalize chunks.flatten = s at *
    cases s with
    | nil => exact absurd rfl hfl
    | cons c t =>
      have h01 : lit '1' ≠ lit '0' := by decide
      by_cases h1 : c = lit '1'
      · subst h1
        simp [boolParse, BoolSt.init, boolReady, constReady]
      · by_cases h0 : c = lit '0'
        · subst h0
          simp [boolParse, BoolSt.init, boolReady, constReady, Ne.symm h01]
        · simp [boolParse, BoolSt.init, boolReady, constReady, h1, h0]

example : readBool false [bytes "1", bytes "7"] = some (1, some true) := by decide +kernel

/-- **C15** What is written for a boolean reads back as the same boolean, whatever follows and
however the text is cut into buffers. -/
theorem readBool_encode (alpha x : Bool) (rest : List Byte) (chunks : List (List Byte))
    (hne : ∀ s ∈ chunks, s ≠ []) (h : chunks.flatten = encodeBool alpha x ++ rest) :
    readBool alpha chunks = some ((encodeBool alpha x).length, some x) := by
  cases alpha with
  | false =>
    rw [readBool_numeric chunks hne, h]
    have h01 : lit '0' ≠ lit '1' := by decide
    cases x
    · simp [encodeBool, h01]
    · simp [encodeBool]
  | true =>
    obtain ⟨n, v, h1, h2, h3, h4, h5⟩ := readBool_alpha chunks hne
    cases x with
    | true =>
      have hv : v = some true := h2.mpr (by rw [h]; exact List.prefix_append _ _)
      rw [h1, hv, h4 hv]
      rfl
    | false =>
      have hv : v = some false := h3.mpr (by rw [h]; exact List.prefix_append _ _)
      rw [h1, hv, h5 hv]
      rfl

example : encodeBool true false = bytes "false" ∧ encodeBool false true = bytes "1" := ⟨rfl, rfl⟩

end Actl.Parser
