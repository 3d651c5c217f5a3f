import Verif.Lemmas.Literals

/-!
C07: integer constant literals.
-/

namespace Actl.Literals

/-- **C07**: a literal compiles to `v` exactly when it is a well-formed numeral of value `v`
(prefix selects the base, separators are ignored, all digits below the base) and `v` fits the
target type; in every other case it does not compile.  In particular intermediate values
never wrap. -/
theorem literal_correct {maxT maxU : Nat} (hT : maxT ≤ maxU) (hU : 16 ≤ maxU)
    (cs : List Char) (v : Nat) :
    literal maxT maxU cs = some v ↔ Denotes cs v ∧ v ≤ maxT := by
  obtain ⟨hb2, hb16⟩ := toNumber_base cs
  have hfold := fun ds w => fold_iff (maxU := maxU) hb2 hU hb16 ds 0 w (Nat.zero_le _)
  have hcont : ∀ base ds, cont base 0 ds = Nat.ofDigits base ds.reverse := by
    intro base ds; rw [cont_eq_ofDigits]; simp
  constructor
  · intro h
    unfold literal at h
    simp only at h
    split at h
    · simp at h
    · rename_i ds hds
      split at h
      · simp at h
      · rename_i w hw
        split at h
        · rename_i hle
          simp only [Option.some.injEq] at h
          subst h
          obtain ⟨h1, h2, -⟩ := (hfold _ _).mp hw
          obtain ⟨ds', hsp, he⟩ := (filterDigits_iff _ _ _).mp hds
          simp only [List.nil_append] at he
          subst he
          exact ⟨⟨(toNumber cs).1, (toNumber cs).2, ds, (hasBase_iff _ _ _).mpr rfl, hsp, h1,
            by rw [h2, hcont]⟩, hle⟩
        · simp at h
  · rintro ⟨⟨base, rest, ds, hbase, hsp, hlt, hv⟩, hle⟩
    rw [hasBase_iff] at hbase
    have hds : filterDigits [] rest = some ds := (filterDigits_iff _ _ _).mpr ⟨ds, hsp, by simp⟩
    rw [hbase] at hfold
    have hw := (hfold ds v).mpr ⟨hlt, by rw [hcont, hv], Nat.le_trans hle hT⟩
    unfold literal
    simp only [hbase, hds, hw]
    rw [if_pos hle]

/-- **C07**: a literal denotes at most one number, so `literal_correct` determines the outcome. -/
theorem denotes_unique {cs : List Char} {v w : Nat} (hv : Denotes cs v) (hw : Denotes cs w) :
    v = w := by
  have h1 := (literal_correct (maxT := max 16 (max v w)) (Nat.le_refl _) (by omega) cs v).mpr
    ⟨hv, by omega⟩
  have h2 := (literal_correct (maxT := max 16 (max v w)) (Nat.le_refl _) (by omega) cs w).mpr
    ⟨hw, by omega⟩
  rw [h1] at h2
  exact Option.some.inj h2

/-! Concrete cases: `int` (`maxT = 2^31-1`, `maxU = 2^32-1`). -/
example : literal 2147483647 4294967295 "0x1'Fc".toList = some 0x1fc := by decide +kernel
example : literal 2147483647 4294967295 "0b1012".toList = none := by decide +kernel
example : literal 2147483647 4294967295 "2147483648".toList = none := by decide +kernel
example : literal 4294967295 4294967295 "4294967296".toList = none := by decide +kernel
example : Denotes "017".toList 15 :=
  ((literal_correct (maxT := 16) (maxU := 16) (by decide) (by decide) _ _).mp (by decide +kernel)).1

end Actl.Literals
