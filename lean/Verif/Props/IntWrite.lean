import Verif.Lemmas.IntWrite

/-!
C10, C11: integer output.
-/

namespace Actl.IntText

open Actl.Text

/-- **C10**: for every value of an integer type of any width from 3 to 126 bits, every base
2..36 (0 means 10) and all flags, the text is the required sign, the required base prefix and
the canonical numeral of the absolute value.  **C11**: the result is never `none`, i.e. no write
is outside of the fixed buffer. -/
theorem encode_correct {w : Nat} (hw : 3 ≤ w) (hw' : w ≤ 126) {signed : Bool} {f : Fmt}
    (hbase : f.base = 0 ∨ (2 ≤ f.base ∧ f.base ≤ 36)) {x : Int} (hx : InRange w signed x) :
    ∃ ds, encode w signed f x = some
        (signText signed f.showpos x ++
          prefixText f.showbase f.uppercase (if f.base = 0 then 10 else f.base) x ++ ds) ∧
      Canonical (if f.base = 0 then 10 else f.base) f.uppercase x.natAbs ds :=
  ⟨_, encode_eq hw hw' hbase hx,
    digitText_canonical (by split <;> omega) (by split <;> omega) _ _⟩

/-- **C11**: formatting an integer never writes before the start of its buffer, which holds one
character more than the binary digits of the widest value. -/
theorem encode_no_overrun {w : Nat} (hw : 3 ≤ w) (hw' : w ≤ 126) {signed : Bool} {f : Fmt}
    (hbase : f.base = 0 ∨ (2 ≤ f.base ∧ f.base ≤ 36)) {x : Int} (hx : InRange w signed x) :
    ∃ t, encode w signed f x = some t ∧ t.length ≤ w + 1 := by
  refine ⟨_, encode_eq (f := f) hw hw' hbase hx, ?_⟩
  have habs : x.natAbs < 2 ^ w := by
    have hcast : ((2 ^ w : Nat) : Int) = 2 ^ w := by push_cast; rfl
    have hp : (2 : Int) ^ w = 2 * 2 ^ (w - 1) := by
      conv => lhs; rw [show w = (w - 1) + 1 by omega]
      ring
    have hpos : (0 : Int) < 2 ^ (w - 1) := by positivity
    unfold InRange at hx
    split at hx <;> omega
  obtain ⟨p, -, hp, hl⟩ := uitoa_eq (f := f) (cap := w + 1) (x := x.natAbs)
    (base := if f.base = 0 then 10 else f.base) (by split <;> omega) hw habs rfl
  have hpe : prefixText f.showbase f.uppercase (if f.base = 0 then 10 else f.base) x = p := by
    rw [hp]
    unfold prefixText
    have : (x != 0) = (((x.natAbs : Nat) : Int) != 0) := by
      rw [Bool.eq_iff_iff]; simp only [bne_iff_ne, ne_eq]; omega
    rw [this]
  have hs : (signText signed f.showpos x).length ≤ 1 := by
    unfold signText
    split
    · simp
    · split <;> simp
  rw [hpe]
  simp only [List.length_append]
  omega

/-- **C10**: the text determines the value (two values never print alike). -/
theorem encode_injective {w : Nat} (hw : 3 ≤ w) (hw' : w ≤ 126) {signed : Bool} {f : Fmt}
    (hbase : f.base = 0 ∨ (2 ≤ f.base ∧ f.base ≤ 36)) {x y : Int} (hx : InRange w signed x)
    (hy : InRange w signed y) (h : encode w signed f x = encode w signed f y) : x = y := by
  obtain ⟨dx, ex, cx⟩ := encode_correct (f := f) hw hw' hbase hx
  obtain ⟨dy, ey, cy⟩ := encode_correct (f := f) hw hw' hbase hy
  generalize hB : (if f.base = 0 then 10 else f.base) = B at *
  rw [ex, ey] at h
  have h := Option.some.inj h
  -- every character of a canonical numeral is a digit, hence not a sign
  have hdig : ∀ n d, Canonical B f.uppercase n d → ∀ c ∈ d, c ≠ lit '-' ∧ c ≠ lit '+' := by
    intro n d hc c hcm
    have h1 := (hc.digits c hcm).1
    refine ⟨?_, ?_⟩ <;> rintro rfl
    · have : digitVal (lit '-') = none := by decide +kernel
      simp [isDig, this] at h1
    · have : digitVal (lit '+') = none := by decide +kernel
      simp [isDig, this] at h1
  -- prefix characters are digits or letters
  have hval : ∀ (z : Int) d, Canonical B f.uppercase z.natAbs d → z.natAbs = 0 → d = [lit '0'] := by
    intro z d hc hz
    apply hc.canonical
    have hv := hc.value
    rw [hz] at hv
    cases d with
    | nil => exact absurd rfl hc.nonempty
    | cons c t =>
      have hB0 : 2 ≤ B := by subst hB; split <;> omega
      simp only [List.head?_cons, Option.some.injEq]
      unfold numeral at hv
      simp only [List.map_cons, List.reverse_cons, Nat.ofDigits_append, Nat.ofDigits_singleton] at hv
      have h2 : B ^ ((List.map dval t).reverse.length) * dval c = 0 := by omega
      have h3 : dval c = 0 := by
        rcases Nat.mul_eq_zero.mp h2 with h | h
        · exact absurd h (by positivity)
        · exact h
      have h4 := (hc.digits c (by simp)).1
      have : ∀ c : Fin 256, isDig 36 (BitVec.ofFin c) = true → dval (BitVec.ofFin c) = 0 →
        BitVec.ofFin c = lit '0' := by decide +kernel
      refine this c.toFin ?_ h3
      show isDig 36 c = true
      unfold isDig at h4 ⊢
      split at h4
      · have hB36 : B ≤ 36 := by subst hB; split <;> omega
        simp only [decide_eq_true_eq] at h4 ⊢; omega
      · simp at h4
  have hsign : (x < 0 ↔ y < 0) ∧
      prefixText f.showbase f.uppercase B x ++ dx = prefixText f.showbase f.uppercase B y ++ dy := by
    have hpfx : ∀ z : Int, ∀ c ∈ prefixText f.showbase f.uppercase B z, c ≠ lit '-' ∧ c ≠ lit '+' := by
      intro z c hc
      unfold prefixText at hc
      split at hc
      · split at hc
        · simp at hc; subst hc; decide
        · split at hc
          · simp only [List.mem_cons, List.not_mem_nil, or_false] at hc
            rcases hc with rfl | rfl
            · decide
            · split <;> decide
          · simp at hc
      · simp at hc
    have hbody : ∀ (z : Int) d, Canonical B f.uppercase z.natAbs d →
        ∃ c t, prefixText f.showbase f.uppercase B z ++ d = c :: t ∧ c ≠ lit '-' ∧ c ≠ lit '+' := by
      intro z d hc
      cases hh : prefixText f.showbase f.uppercase B z ++ d with
      | nil => simp at hh; exact absurd hh.2 hc.nonempty
      | cons c t =>
        refine ⟨c, t, rfl, ?_⟩
        have hm : c ∈ prefixText f.showbase f.uppercase B z ++ d := by rw [hh]; simp
        rcases List.mem_append.mp hm with hm | hm
        · exact hpfx z c hm
        · exact hdig _ _ hc c hm
    obtain ⟨c1, t1, e1, n1, p1⟩ := hbody x dx cx
    obtain ⟨c2, t2, e2, n2, p2⟩ := hbody y dy cy
    rw [List.append_assoc, List.append_assoc, e1, e2] at h
    rw [e1, e2]
    have hpm : lit '-' ≠ lit '+' := by decide
    by_cases hx0 : x < 0 <;> by_cases hy0 : y < 0
    · simp [signText, hx0, hy0] at h
      exact ⟨by omega, by simp [h]⟩
    · exfalso
      cases hsp : (signed && f.showpos)
      · simp only [signText, hx0, hy0, hsp, if_true, if_false, Bool.false_eq_true] at h
        simp at h; exact n2 h.1.symm
      · simp only [signText, hx0, hy0, hsp, if_true, if_false] at h
        simp at h; exact hpm h.1
    · exfalso
      cases hsp : (signed && f.showpos)
      · simp only [signText, hx0, hy0, hsp, if_true, if_false, Bool.false_eq_true] at h
        simp at h; exact n1 h.1
      · simp only [signText, hx0, hy0, hsp, if_true, if_false] at h
        simp at h; exact hpm h.1.symm
    · refine ⟨by omega, ?_⟩
      simp only [signText, hx0, hy0, if_false] at h
      exact List.append_cancel_left h
  obtain ⟨hs, hb⟩ := hsign
  have hlen0 : x = 0 ↔ y = 0 := by
    constructor
    · intro h0
      by_contra hne
      have hd := hval x dx cx (by omega)
      subst hd
      have hp : prefixText f.showbase f.uppercase B x = [] := by simp [prefixText, h0]
      rw [hp] at hb
      have hlen := congrArg List.length hb
      simp only [List.nil_append, List.length_cons, List.length_nil, List.length_append] at hlen
      have : dy.length ≠ 0 := by simp [cy.nonempty]
      have hpy : prefixText f.showbase f.uppercase B y = [] := by
        apply List.eq_nil_of_length_eq_zero; omega
      rw [hpy] at hb
      simp only [List.nil_append] at hb
      have v1 := cx.value
      have v2 := cy.value
      rw [← hb, v1] at v2
      omega
    · intro h0
      by_contra hne
      have hd := hval y dy cy (by omega)
      subst hd
      have hp : prefixText f.showbase f.uppercase B y = [] := by simp [prefixText, h0]
      rw [hp] at hb
      have hlen := congrArg List.length hb
      simp only [List.nil_append, List.length_cons, List.length_nil, List.length_append] at hlen
      have : dx.length ≠ 0 := by simp [cx.nonempty]
      have hpx : prefixText f.showbase f.uppercase B x = [] := by
        apply List.eq_nil_of_length_eq_zero; omega
      rw [hpx] at hb
      simp only [List.nil_append] at hb
      have v1 := cx.value
      have v2 := cy.value
      rw [hb, v2] at v1
      omega
  have hpe : prefixText f.showbase f.uppercase B x = prefixText f.showbase f.uppercase B y := by
    unfold prefixText
    have : (x != 0) = (y != 0) := by
      rw [Bool.eq_iff_iff]; simp only [bne_iff_ne, ne_eq]; rw [hlen0]
    rw [this]
  rw [hpe] at hb
  have hd := List.append_cancel_left hb
  have v1 := cx.value
  have v2 := cy.value
  rw [hd, v2] at v1
  omega

/-! Concrete cases: `int32_t` minimum in base 2 fills the buffer completely (33 characters). -/
example : InRange 32 true (-2147483648) := by simp [InRange]
example : encode 32 true ⟨2, true, true, false⟩ (-2147483648) =
    some (bytes "-10000000000000000000000000000000") := by decide +kernel
example : encode 32 true ⟨16, true, true, true⟩ 48879 = some (bytes "+0XBEEF") := by decide +kernel
example : encode 64 false ⟨36, false, true, false⟩ 18446744073709551615 =
    some (bytes "3w5e11264sgsf") := by decide +kernel
example : encode 32 true ⟨8, true, false, false⟩ 0 = some (bytes "0") := by decide +kernel

end Actl.IntText
