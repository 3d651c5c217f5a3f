import Verif.Lemmas.IntParse
import Verif.Props.IntWrite

/-!
C13 (integer input is exact), C14 (chunk independence for integers), C12 (round trip).

The code violates C13 on a lone digit `0` followed by other input: it reports success but stores
a non-zero number.  `readInt_correct_partial` covers all other inputs, `readInt_lone_zero` proves
the violation for every such input.
-/

namespace Actl.IntText

open Actl.Text Actl.Parser

theorem flatten_eq_nil {chunks : List (List Byte)} (hne : ∀ s ∈ chunks, s ≠ [])
    (h : chunks.flatten = []) : chunks = [] := by
  cases chunks with
  | nil => rfl
  | cons s t =>
    have := hne s (by simp)
    simp at h
    exact absurd h.1 this

/-- **C14** (integers): the outcome does not depend on how the input is cut into buffers. -/
theorem readInt_chunks (w : Nat) (signed : Bool) (b : Nat) (c₁ c₂ : List (List Byte))
    (h₁ : ∀ s ∈ c₁, s ≠ []) (h₂ : ∀ s ∈ c₂, s ≠ []) (h : c₁.flatten = c₂.flatten) :
    readInt w signed b c₁ = readInt w signed b c₂ := by
  unfold readInt
  rw [exec_chars (intParse_stepLaw w signed) c₁ h₁ _ trivial,
    exec_chars (intParse_stepLaw w signed) c₂ h₂ _ trivial, h]

example : readInt 32 true 0 [bytes "-0", bytes "x", bytes "1", bytes "F"] =
    readInt 32 true 0 [bytes "-0x1F"] := readInt_chunks _ _ _ _ _ (by decide) (by decide) rfl

/-- The sign part of the parser. -/
theorem signParse_spec (signed : Bool) (c : Byte) (t : List Byte) :
    ∃ i, signParse signed false (c :: t) = some (i, (splitSign signed (c :: t)).1) ∧
      (c :: t).drop i = (splitSign signed (c :: t)).2 ∧ i ≤ 1 := by
  simp only [signParse, splitSign]
  have hpm : lit '+' ≠ lit '-' := by decide
  by_cases hm : c = lit '-' ∧ signed = true
  · simp [hm]
  · have : (signed && c == lit '-') = false := by
      cases signed <;> simp_all
    rw [this, if_neg hm]
    by_cases hp : c = lit '+'
    · simp [hp]
    · simp [hp]

/-- Everything about one read: the sign has been split off, `r` is what follows it. -/
theorem readInt_main {w : Nat} (hw : 8 ≤ w) (signed : Bool) {b : Nat}
    (hb : b = 0 ∨ (2 ≤ b ∧ b ≤ 36)) (chunks : List (List Byte)) (hne : ∀ s ∈ chunks, s ≠ []) :
    ∃ v, readInt w signed b chunks = some (specConsumed signed b chunks.flatten, v) ∧
      (¬ LoneZero signed b chunks.flatten → v = specValue w signed b chunks.flatten) ∧
      (LoneZero signed b chunks.flatten → ∃ x, v = some x ∧ x ≠ 0) := by
  by_cases hfl : chunks.flatten = []
  · have := flatten_eq_nil hne hfl
    subst this
    refine ⟨none, rfl, ?_, ?_⟩
    · intro _; simp [specValue, readDigits, splitSign, splitPrefix]
    · intro h
      simp [LoneZero, splitSign, splitPrefix] at h
  · unfold readInt
    rw [exec_join (intParse_stepLaw w signed) chunks hne hfl _ trivial]
    generalize chunks.flatten = s at *
    cases s with
    | nil => exact absurd rfl hfl
    | cons c t =>
      obtain ⟨i, hsp, hdrop, hi⟩ := signParse_spec signed c t
      have hunsigned : signed = false → (splitSign signed (c :: t)).1 = false := by
        intro h
        subst h
        simp only [splitSign, Bool.false_eq_true, and_false, if_false]
        split <;> rfl
      simp only [intParse, IntSt.init, hsp, hdrop]
      unfold specConsumed specValue LoneZero readDigits
      have hlen : (c :: t).length = i + (splitSign signed (c :: t)).2.length := by
        rw [← hdrop, List.length_drop]
        simp
        omega
      generalize hneg : (splitSign signed (c :: t)).1 = neg at *
      generalize hr' : (splitSign signed (c :: t)).2 = r at *
      by_cases hr : r = []
      · subst hr
        rw [if_pos (by rw [hlen]; simp)]
        simp only [splitPrefix]
        refine ⟨none, ?_, ?_, ?_⟩
        · simp only [intReady, List.takeWhile_nil, List.dropWhile_nil]
          simp [hlen]
        · intro _; simp
        · rintro ⟨⟨c, t, h, -⟩, -⟩; simp at h
      · have hrl : r.length ≠ 0 := by simpa using hr
        rw [if_neg (by omega)]
        obtain ⟨k, st', h1, h2, h3, h4, h5, h6, h7⟩ :=
          stepSign_spec hw signed hb neg 0 0 hr
        rw [stepSign_shift, h1]
        simp only [shift]
        generalize hB : (splitPrefix b r).1 = B at *
        generalize hr2 : (splitPrefix b r).2 = r₂ at *
        have hcount : i + k = (c :: t).length - (r₂.dropWhile (isDig B)).length := by
          rw [hlen]; omega
        rw [hcount]
        have hm := maxAbs_facts hw signed neg
        refine ⟨_, rfl, ?_, ?_⟩
        · intro hl
          simp only [intValue, h3]
          by_cases hds : r₂.takeWhile (isDig B) = []
          · rw [h4 hds, if_pos hds]; rfl
          · rw [if_neg hds]
            have hl' : ¬ (r₂ = r ∧ ∃ c t, r = lit '0' :: c :: t ∧ r₂.takeWhile (isDig B) = [lit '0']) := by
              rintro ⟨e, c', t', e1, e2⟩
              exact hl ⟨⟨c', t', by rw [e]; exact e1, e2⟩, e⟩
            have hfit : numeral B (r₂.takeWhile (isDig B)) ≤ maxAbs w signed neg ↔
                (if signed = true then
                  (-(2 ^ (w - 1) : Int) ≤ (if neg = true then -(numeral B (r₂.takeWhile (isDig B)) : Int)
                    else numeral B (r₂.takeWhile (isDig B))) ∧
                   (if neg = true then -(numeral B (r₂.takeWhile (isDig B)) : Int)
                    else numeral B (r₂.takeWhile (isDig B))) < 2 ^ (w - 1))
                 else (if neg = true then -(numeral B (r₂.takeWhile (isDig B)) : Int)
                    else numeral B (r₂.takeWhile (isDig B))) < 2 ^ w) := by
              generalize numeral B (r₂.takeWhile (isDig B)) = n
              have e1 : ((2 ^ (w - 1) : Nat) : Int) = 2 ^ (w - 1) := by push_cast; rfl
              have e2 : ((2 ^ w : Nat) : Int) = 2 ^ w := by push_cast; rfl
              have hp : 0 < 2 ^ (w - 1) := Nat.pow_pos (by norm_num)
              have hp' : 0 < 2 ^ w := Nat.pow_pos (by norm_num)
              rw [← e1, ← e2]
              cases signed with
              | true =>
                have hmm := hm.2.2 rfl
                cases neg
                · simp only [Bool.false_eq_true, if_false, if_true] at hmm ⊢
                  omega
                · simp only [if_true] at hmm ⊢
                  omega
              | false =>
                have := hunsigned rfl
                subst this
                simp only [Bool.false_eq_true, if_false, maxAbs]
                omega
            by_cases hn : numeral B (r₂.takeWhile (isDig B)) ≤ maxAbs w signed neg
            · obtain ⟨g1, g2⟩ := h5 hds hl' hn
              have hval : signValue w signed neg (numeral B (r₂.takeWhile (isDig B))) =
                  (if neg = true then -(numeral B (r₂.takeWhile (isDig B)) : Int)
                    else numeral B (r₂.takeWhile (isDig B))) := by
                cases neg with
                | false => exact signValue_pos hw signed hn
                | true =>
                  cases signed with
                  | true => exact signValue_neg hw hn
                  | false => simp at hunsigned
              have hf := hfit.mp hn
              rw [g1, g2, if_pos rfl, hval]
              cases signed with
              | true =>
                simp only [if_true] at hf ⊢
                rw [if_pos hf]
              | false =>
                simp only [Bool.false_eq_true, if_false] at hf ⊢
                rw [if_pos hf]
            · rw [h6 hds (by omega)]
              have hf := hn
              rw [hfit] at hf
              cases signed with
              | true =>
                simp only [if_true] at hf ⊢
                rw [if_neg hf]; rfl
              | false =>
                simp only [Bool.false_eq_true, if_false] at hf ⊢
                rw [if_neg hf]
        · rintro ⟨⟨c', t', e1, e2⟩, e⟩
          obtain ⟨g1, c2, t2, g2, g3, g4⟩ := h7 ⟨e, c', t', by rw [← e]; exact e1, e2⟩
          rw [g1, if_pos rfl]
          refine ⟨_, rfl, ?_⟩
          simp only [intValue, h3, g4]
          have hbb := splitPrefix_base hb hr
          rw [hB] at hbb
          obtain ⟨d1, -⟩ := toDigit_spec hw hbb.1 hbb.2 c2
          refine signValue_ne_zero hw _ _ ?_ (toDigit_lt _ _)
          intro h0
          have : isDig B c2 = true := d1.mp (by omega)
          rw [this] at g3
          simp at g3

/-- **C13** For all inputs except a lone digit zero followed by more input: the sign, the base
prefix and the longest run of digits are consumed, nothing else; the value stored is the number
they denote, and nothing is stored if there is no digit or the number does not fit the type.
Missing for the full claim: the excepted inputs, on which the code is wrong
(`readInt_lone_zero`). -/
theorem readInt_correct_partial {w : Nat} (hw : 8 ≤ w) (signed : Bool) {b : Nat}
    (hb : b = 0 ∨ (2 ≤ b ∧ b ≤ 36)) (chunks : List (List Byte)) (hne : ∀ s ∈ chunks, s ≠ [])
    (hz : ¬ LoneZero signed b chunks.flatten) :
    readInt w signed b chunks =
      some (specConsumed signed b chunks.flatten, specValue w signed b chunks.flatten) := by
  obtain ⟨v, h1, h2, -⟩ := readInt_main hw signed hb chunks hne
  rw [h1, h2 hz]

/-- **C13** (negation) For *every* input whose number is a lone zero followed by more input the
code consumes the right characters and reports success, but the value stored is not zero. -/
theorem readInt_lone_zero {w : Nat} (hw : 8 ≤ w) (signed : Bool) {b : Nat}
    (hb : b = 0 ∨ (2 ≤ b ∧ b ≤ 36)) (chunks : List (List Byte)) (hne : ∀ s ∈ chunks, s ≠ [])
    (hz : LoneZero signed b chunks.flatten) :
    specValue w signed b chunks.flatten = some 0 ∧
    ∃ v, readInt w signed b chunks = some (specConsumed signed b chunks.flatten, some v) ∧ v ≠ 0 := by
  obtain ⟨v, h1, -, h2⟩ := readInt_main hw signed hb chunks hne
  obtain ⟨x, rfl, hx⟩ := h2 hz
  refine ⟨?_, x, h1, hx⟩
  unfold LoneZero at hz
  obtain ⟨⟨c, t, e1, e2⟩, e3⟩ := hz
  have hr : (splitSign signed chunks.flatten).2 ≠ [] := by rw [← e3, e1]; simp
  have hB := splitPrefix_base hb hr
  have hrd : readDigits signed b chunks.flatten =
      ((splitPrefix b (splitSign signed chunks.flatten).2).1, [lit '0'],
        (readDigits signed b chunks.flatten).2.2) := by
    rw [← e2]; rfl
  have hp : (0 : Int) < 2 ^ (w - 1) := by positivity
  have hp' : (0 : Int) < 2 ^ w := by positivity
  unfold specValue
  rw [hrd]
  have hv : numeral (splitPrefix b (splitSign signed chunks.flatten).2).1 [lit '0'] = 0 := by
    rw [numeral_cons, (isDig_zero hB.1).2, numeral_nil]; simp
  simp [hv, hp, hp', hp.le]

/-- **C13** Reading an integer is never undefined, whatever the input. -/
theorem readInt_defined {w : Nat} (hw : 8 ≤ w) (signed : Bool) {b : Nat}
    (hb : b = 0 ∨ (2 ≤ b ∧ b ≤ 36)) (chunks : List (List Byte)) (hne : ∀ s ∈ chunks, s ≠ []) :
    ∃ v, readInt w signed b chunks = some (specConsumed signed b chunks.flatten, v) := by
  obtain ⟨v, h1, -, -⟩ := readInt_main hw signed hb chunks hne
  exact ⟨v, h1⟩

example : readInt 32 true 10 [bytes "0 "] = some (1, some (-16)) := by decide +kernel
example : LoneZero true 10 (bytes "0 ") :=
  ⟨⟨lit ' ', [], by decide +kernel, by decide +kernel⟩, by decide +kernel⟩
example : ¬ LoneZero true 10 (bytes "-128,") := by
  rintro ⟨⟨c, t, h, -⟩, -⟩
  have h' : bytes "128," = lit '0' :: c :: t := h
  have := congrArg List.head? h'
  simp [bytes] at this
  revert this
  decide
example : specValue 8 true 10 (bytes "-128,") = some (-128) := by decide +kernel
example : specValue 8 true 10 (bytes "128,") = none := by decide +kernel
example : specValue 16 false 0 (bytes "+0xfFzz") = some 255 := by decide +kernel
example : specConsumed false 0 (bytes "+0xfFzz") = 5 := by decide +kernel

/-- **C12** Every integer reads back from the text written for it: in the same base, or with base
detection for decimal numbers and for octal and hexadecimal ones written with their prefix.  The
text may be cut into buffers arbitrarily and, unless the number is zero, be followed by anything
that is not a digit.  Missing: zero followed by further text (`encode_zero_readInt_fails`). -/
theorem encode_readInt_partial {w : Nat} (hw : 8 ≤ w) (hw' : w ≤ 126) {signed : Bool} {f : Fmt}
    (hbase : f.base = 0 ∨ (2 ≤ f.base ∧ f.base ≤ 36)) {x : Int} (hx : InRange w signed x)
    {b : Nat} (hb : b = (if f.base = 0 then 10 else f.base) ∨
      (b = 0 ∧ (f.base = 0 ∨ f.base = 10 ∨ (f.showbase = true ∧ (f.base = 8 ∨ f.base = 16)))))
    {text rest : List Byte} (htext : encode w signed f x = some text)
    (hrest : rest = [] ∨
      (x ≠ 0 ∧ ∃ c t, rest = c :: t ∧ isDig (if f.base = 0 then 10 else f.base) c = false))
    (chunks : List (List Byte)) (hne : ∀ s ∈ chunks, s ≠ []) (hc : chunks.flatten = text ++ rest) :
    readInt w signed b chunks = some (text.length, some x) := by
  obtain ⟨ds, he, hcan⟩ := encode_correct (f := f) (by omega : 3 ≤ w) hw' hbase hx
  rw [htext] at he
  injection he with he
  generalize hB : (if f.base = 0 then 10 else f.base) = B at *
  have hB2 : 2 ≤ B := by rw [← hB]; split <;> omega
  have hB36 : B ≤ 36 := by rw [← hB]; split <;> omega
  have hbb : b = 0 ∨ (2 ≤ b ∧ b ≤ 36) := by omega
  have hdig : ∀ c ∈ ds, isDig B c = true := fun c h => (hcan.digits c h).1
  obtain ⟨d, ds', rfl⟩ : ∃ d ds', ds = d :: ds' := by
    cases ds with
    | nil => exact absurd rfl hcan.nonempty
    | cons d ds' => exact ⟨d, ds', rfl⟩
  have hd := hdig d (by simp)
  -- a character that is a digit is neither a sign nor, in base at most 10, a prefix letter
  have htab : ∀ c : Byte, (isDig 36 c = true → c ≠ lit '-' ∧ c ≠ lit '+') ∧
      (isDig 8 c = true → c ≠ lit 'x' ∧ c ≠ lit 'X' ∧ c ≠ lit 'b' ∧ c ≠ lit 'B') := by
    intro c
    exact of_decide_eq_true (forall_byte (p := fun c => decide (
      (isDig 36 c = true → c ≠ lit '-' ∧ c ≠ lit '+') ∧
      (isDig 8 c = true → c ≠ lit 'x' ∧ c ≠ lit 'X' ∧ c ≠ lit 'b' ∧ c ≠ lit 'B')))
      (by decide +kernel) c)
  have hmono : ∀ c, isDig B c = true → isDig 36 c = true := by
    intro c h
    unfold isDig at h ⊢
    cases hv : digitVal c with
    | none => rw [hv] at h; simp at h
    | some v => rw [hv] at h; simp at h ⊢; omega
  have hzdig := isDig_zero hB2
  have hx0 : d = lit '0' → x = 0 := by
    intro h
    have := hcan.canonical (by simp [h])
    have hv := hcan.value
    rw [this, numeral_cons, hzdig.2, numeral_nil] at hv
    simp at hv
    omega
  have hx0' : x = 0 → d = lit '0' ∧ ds' = [] := by
    intro h
    have hv := hcan.value
    rw [h] at hv
    by_cases hd0 : d = lit '0'
    · have := hcan.canonical (by simp [hd0])
      simp only [List.cons.injEq] at this
      exact ⟨hd0, this.2⟩
    · exfalso
      rw [numeral_cons] at hv
      have hpos : 0 < B ^ ds'.length := Nat.pow_pos (by omega)
      have hdv : dval d = 0 := by
        simp at hv
        rcases hv.1 with h | h
        · exact h
        · omega
      have : ∀ c : Byte, isDig 36 c = true → dval c = 0 → c = lit '0' := by
        intro c
        exact of_decide_eq_true (forall_byte (p := fun c => decide (
          isDig 36 c = true → dval c = 0 → c = lit '0')) (by decide +kernel) c)
      exact hd0 (this d (hmono d hd) hdv)
  -- the sign
  have hsignedneg : x < 0 → signed = true := by
    intro h
    unfold InRange at hx
    split at hx
    · assumption
    · omega
  set pre := prefixText f.showbase f.uppercase B x with hpre
  have hfirst : ∃ e u, pre ++ d :: ds' ++ rest = e :: u ∧ e ≠ lit '-' ∧ e ≠ lit '+' := by
    have h0 := htab (lit '0')
    have : pre = [] ∨ ∃ p', pre = lit '0' :: p' := by
      rw [hpre]
      unfold prefixText
      split
      · split
        · right; exact ⟨_, rfl⟩
        · split
          · right; exact ⟨_, rfl⟩
          · left; rfl
      · left; rfl
    rcases this with h | ⟨p', h⟩
    · rw [h]
      exact ⟨d, _, rfl, (htab d).1 (hmono d hd)⟩
    · rw [h]
      exact ⟨lit '0', _, rfl, h0.1 (by decide +kernel)⟩
  have hsplit : splitSign signed chunks.flatten = (decide (x < 0), pre ++ d :: ds' ++ rest) := by
    rw [hc, he]
    obtain ⟨e, u, e1, e2, e3⟩ := hfirst
    have hpm : lit '+' ≠ lit '-' := by decide
    unfold signText
    split
    · rename_i hneg
      simp only [List.cons_append, List.nil_append, splitSign, true_and]
      rw [if_pos (hsignedneg hneg)]
      simp [hneg]
    · rename_i hneg
      split
      · simp only [List.cons_append, List.nil_append, splitSign, hpm, false_and, if_false, if_true]
        simp [hneg]
      · simp only [List.nil_append]
        rw [e1]
        simp only [splitSign, e2, e3, false_and, if_false]
        simp [hneg]
  -- digits and what follows
  have htake : ∀ B' l, (∀ c ∈ l, isDig B' c = true) →
      (rest = [] ∨ ∃ c t, rest = c :: t ∧ isDig B' c = false) →
      (l ++ rest).takeWhile (isDig B') = l ∧ (l ++ rest).dropWhile (isDig B') = rest := by
    intro B' l hl hr
    rw [List.takeWhile_append_of_pos hl, List.dropWhile_append_of_pos hl]
    rcases hr with h | ⟨c, t, h, hcd⟩
    · subst h; simp
    · subst h; simp [hcd]
  have hrestB : rest = [] ∨ ∃ c t, rest = c :: t ∧ isDig B c = false := by
    rcases hrest with h | ⟨-, h⟩
    · exact Or.inl h
    · exact Or.inr h
  have htlen : text.length = (text ++ rest).length - rest.length := by simp
  -- enough: the digits read denote |x|
  have key : ∀ B' (D : List Byte), (splitPrefix b (pre ++ d :: ds' ++ rest)) = (B', D ++ rest) →
      D ≠ [] → (∀ c ∈ D, isDig B' c = true) →
      (rest = [] ∨ ∃ c t, rest = c :: t ∧ isDig B' c = false) → numeral B' D = x.natAbs →
      (x = 0 → rest = [] ∧ D = [lit '0']) → (x ≠ 0 → D = [lit '0'] → False) →
      readInt w signed b chunks = some (text.length, some x) := by
    intro B' D hsp hD hDd hr hnum hzero hnz
    obtain ⟨t1, t2⟩ := htake B' D hDd hr
    rw [readInt_correct_partial hw signed hbb chunks hne]
    · have hrd : readDigits signed b chunks.flatten = (B', D, rest) := by
        simp only [readDigits, hsplit, hsp, t1, t2]
      unfold specConsumed specValue
      rw [hrd]
      simp only [hD, if_false]
      rw [hsplit, hc, ← htlen]
      simp only [decide_eq_true_eq, hnum]
      have hval : (if x < 0 then -(x.natAbs : Int) else (x.natAbs : Int)) = x := by split <;> omega
      rw [hval]
      unfold InRange at hx
      cases signed with
      | true => simp only [if_true] at hx ⊢; rw [if_pos hx]
      | false => simp only [Bool.false_eq_true, if_false] at hx ⊢; rw [if_pos hx.2]
    · unfold LoneZero
      simp only [hsplit, hsp]
      rintro ⟨⟨c, t, h1, h2⟩, -⟩
      have hrd : (readDigits signed b chunks.flatten).2.1 = D := by
        simp only [readDigits, hsplit, hsp, t1]
      rw [hrd] at h2
      by_cases h0 : x = 0
      · obtain ⟨g1, g2⟩ := hzero h0
        rw [g1, g2] at h1
        simp at h1
      · exact hnz h0 h2
  by_cases h0 : x = 0
  · obtain ⟨g1, g2⟩ := hx0' h0
    have hr : rest = [] := by
      rcases hrest with h | ⟨h, -⟩
      · exact h
      · exact absurd h0 h
    have hp : pre = [] := by rw [hpre]; simp [prefixText, h0]
    subst g1 g2 hr
    have hz' := fun B' (h : 2 ≤ B') => isDig_zero (B := B') h
    refine key (if b = 0 then 8 else b) [lit '0'] ?_ (by simp) ?_ (Or.inl rfl) ?_ (by simp) (by simp [h0])
    · rw [hp]; simp [splitPrefix]
    · intro c hcm
      simp only [List.mem_singleton] at hcm
      rw [hcm]
      exact (hz' _ (by split <;> omega)).1
    · rw [numeral_cons, (hz' 2 (by omega)).2, numeral_nil, h0]; simp
  · have hd0 : d ≠ lit '0' := fun h => h0 (hx0 h)
    by_cases hsb : f.showbase = true ∧ (B = 8 ∨ B = 16)
    · rcases hsb.2 with h8 | h16
      · have hp : pre = [lit '0'] := by rw [hpre]; simp [prefixText, hsb.1, h0, h8]
        have hb8 : b = 8 ∨ b = 0 := by omega
        obtain ⟨n1, n2, n3, n4⟩ := (htab d).2 (by rw [← h8]; exact hd)
        refine key 8 (lit '0' :: d :: ds') ?_ (by simp) ?_ (by rw [← h8]; exact hrestB) ?_
          (by simp [h0]) (by simp)
        · rw [hp]
          rcases hb8 with h | h <;> simp [splitPrefix, n1, n2, n3, n4, h]
        · rw [← h8]
          intro c hcm
          rcases List.mem_cons.mp hcm with h | h
          · rw [h]; exact hzdig.1
          · exact hdig c h
        · rw [← h8, numeral_cons, hzdig.2, hcan.value]; simp
      · have hp : ∃ X, (X = lit 'x' ∨ X = lit 'X') ∧ pre = [lit '0', X] := by
          refine ⟨if f.uppercase = true then lit 'X' else lit 'x', ?_, ?_⟩
          · split <;> simp
          · rw [hpre]; simp [prefixText, hsb.1, h0, h16]
        obtain ⟨X, hX, hp⟩ := hp
        have hb16 : b = 16 ∨ b = 0 := by omega
        refine key 16 (d :: ds') ?_ (by simp) ?_ (by rw [← h16]; exact hrestB) ?_
          (by simp [h0]) (by simp [hd0])
        · rw [hp]
          rcases hb16 with h | h <;> simp [splitPrefix, hX, h]
        · rw [← h16]; exact hdig
        · rw [← h16, hcan.value]
    · have hp : pre = [] := by
        rw [hpre]
        unfold prefixText
        split
        · rename_i h
          simp only [Bool.and_eq_true] at h
          rw [if_neg (fun e => hsb ⟨h.1, Or.inl e⟩), if_neg (fun e => hsb ⟨h.1, Or.inr e⟩)]
        · rfl
      have hb10 : (if b = 0 then 10 else b) = B := by
        rcases hb with h | ⟨h, h'⟩
        · rw [if_neg (by omega)]; exact h
        · rw [if_pos h]
          rcases h' with h' | h' | ⟨h', h''⟩
          · rw [if_pos h'] at hB; exact hB
          · rw [if_neg (by omega)] at hB; omega
          · exfalso
            apply hsb
            refine ⟨h', ?_⟩
            rw [if_neg (by omega)] at hB
            omega
      refine key B (d :: ds') ?_ (by simp) hdig hrestB hcan.value (by simp [h0]) (by simp [hd0])
      rw [hp]
      simp [splitPrefix, hd0, hb10]

example : readInt 32 true 0 [bytes "-0X", bytes "FF;"] = some (5, some (-255)) :=
  encode_readInt_partial (w := 32) (f := ⟨16, true, false, true⟩) (x := -255) (rest := bytes ";")
    (text := bytes "-0XFF") (by omega) (by omega) (by simp) (by simp [InRange]) (by simp)
    (by decide +kernel) (Or.inr ⟨by decide, lit ';', [], rfl, by decide +kernel⟩) _ (by decide) rfl

/-- **C12** (negation) A zero that is followed by anything never reads back: for every type, every
format and every following text that neither continues the number nor turns it into a base prefix,
the right characters are consumed and success is reported, but the value stored is not zero. -/
theorem encode_zero_readInt_fails {w : Nat} (hw : 8 ≤ w) (hw' : w ≤ 126) {signed : Bool} {f : Fmt}
    (hbase : f.base = 0 ∨ (2 ≤ f.base ∧ f.base ≤ 36))
    {text t : List Byte} {c : Byte} (htext : encode w signed f 0 = some text)
    (hcd : isDig (if f.base = 0 then 10 else f.base) c = false)
    (hpx : c ≠ lit 'x' ∧ c ≠ lit 'X' ∧ c ≠ lit 'b' ∧ c ≠ lit 'B')
    (chunks : List (List Byte)) (hne : ∀ s ∈ chunks, s ≠ []) (hc : chunks.flatten = text ++ c :: t) :
    ∃ v, readInt w signed (if f.base = 0 then 10 else f.base) chunks =
      some (text.length, some v) ∧ v ≠ 0 := by
  have hx : InRange w signed 0 := by
    unfold InRange
    split
    · have : (0 : Int) < 2 ^ (w - 1) := by positivity
      constructor <;> omega
    · exact ⟨le_refl 0, by positivity⟩
  obtain ⟨ds, he, hcan⟩ := encode_correct (f := f) (by omega : 3 ≤ w) hw' hbase hx
  rw [htext] at he
  injection he with he
  generalize hB : (if f.base = 0 then 10 else f.base) = B at *
  have hB2 : 2 ≤ B := by rw [← hB]; split <;> omega
  have hB36 : B ≤ 36 := by rw [← hB]; split <;> omega
  have hzdig := isDig_zero hB2
  have hds : ds = [lit '0'] := by
    cases ds with
    | nil => exact absurd rfl hcan.nonempty
    | cons d ds' =>
      by_cases hd0 : d = lit '0'
      · exact hcan.canonical (by simp [hd0])
      · exfalso
        have hv := hcan.value
        rw [numeral_cons] at hv
        have hpos : 0 < B ^ ds'.length := Nat.pow_pos (by omega)
        have hdv : dval d = 0 := by
          simp at hv
          rcases hv.1 with h | h
          · exact h
          · omega
        have : ∀ c : Byte, isDig 36 c = true → dval c = 0 → c = lit '0' := by
          intro c
          exact of_decide_eq_true (forall_byte (p := fun c => decide (
            isDig 36 c = true → dval c = 0 → c = lit '0')) (by decide +kernel) c)
        refine hd0 (this d ?_ hdv)
        have h := (hcan.digits d (by simp)).1
        unfold isDig at h ⊢
        cases hv : digitVal d with
        | none => rw [hv] at h; simp at h
        | some v => rw [hv] at h; simp at h ⊢; omega
  subst hds
  have hsplit : splitSign signed chunks.flatten = (false, lit '0' :: c :: t) := by
    rw [hc, he]
    have hpm : lit '+' ≠ lit '-' := by decide
    have h0m : lit '0' ≠ lit '-' := by decide
    have h0p : lit '0' ≠ lit '+' := by decide
    unfold signText prefixText
    by_cases hs : (signed && f.showpos) = true
    · simp [hs, splitSign, hpm]
    · simp [hs, splitSign, h0m, h0p]
  have hsp : splitPrefix B (lit '0' :: c :: t) = (B, lit '0' :: c :: t) := by
    have : B ≠ 0 := by omega
    simp [splitPrefix, hpx, this]
  have hrd : readDigits signed B chunks.flatten = (B, [lit '0'], c :: t) := by
    simp [readDigits, hsplit, hsp, hzdig.1, hcd]
  have hlone : LoneZero signed B chunks.flatten := by
    unfold LoneZero
    simp only [hsplit, hsp, hrd]
    exact ⟨⟨c, t, rfl, trivial⟩, trivial⟩
  obtain ⟨-, v, h1, h2⟩ := readInt_lone_zero hw signed (Or.inr ⟨hB2, hB36⟩) chunks hne hlone
  refine ⟨v, ?_, h2⟩
  rw [h1]
  unfold specConsumed
  rw [hrd, hc]
  simp

example : ∃ v, readInt 32 true 10 [bytes "0", bytes " 5"] = some (1, some v) ∧ v ≠ 0 :=
  encode_zero_readInt_fails (w := 32) (f := ⟨10, false, false, false⟩) (text := bytes "0")
    (by omega) (by omega) (by simp) (by decide +kernel) (c := lit ' ') (t := bytes "5")
    (by decide +kernel) (by decide) _ (by decide) rfl

end Actl.IntText
