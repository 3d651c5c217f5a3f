import Verif.Lemmas.Modular

/-!
C02, C03, C04: modular arithmetic is exact for every word width and every modulus.
-/

namespace Actl.Modular

variable {R : Ring} {M : Nat}

/-- **C02** (addition): the result is the residue of `x + y`, for every modulus up to
and including `2 ^ w`, although `x + y` itself may not fit in a word. -/
theorem modAdd_correct (h : Represents R M) {x y : Nat} (hx : x < M) (hy : y < M) :
    modAdd R x y < M ∧ modAdd R x y = (x + y) % M :=
  ⟨modAdd_lt h hx hy, modAdd_eq h hx hy⟩

/-- **C02** (subtraction): the result is the residue of the integer `x - y`. -/
theorem modSub_correct (h : Represents R M) {x y : Nat} (hx : x < M) (hy : y < M) :
    modSub R x y < M ∧ (modSub R x y : Int) = ((x : Int) - y) % M := by
  have hlt := modSub_lt h hx hy
  refine ⟨hlt, ?_⟩
  have := modSub_modEq h hx hy
  unfold Int.ModEq at this
  rwa [Int.emod_eq_of_lt (by omega) (by omega)] at this

/-- **C02** (negation): the result is the residue of `-x`. -/
theorem modNeg_correct (h : Represents R M) {x : Nat} (hx : x < M) :
    modNeg R x < M ∧ (modNeg R x : Int) = (-(x : Int)) % M := by
  have := modSub_correct h h.pos hx
  simpa [modNeg] using this

/-- **C03**: multiplication never hits undefined behaviour and returns the residue of the
mathematical product, on the wide path, on the doubling path and for the modulus `2 ^ w`. -/
theorem modMul_correct (h : Represents R M) {x y : Nat} (hx : x < M) (hy : y < M) :
    modMul R x y = some (x * y % M) :=
  modMul_eq h hx (Nat.lt_of_lt_of_le hy h.le)

/-- **C03**: the doubling path on its own is exact for *every* word width. -/
theorem modMulBinary_correct (h : Represents R M) {x y : Nat} (hx : x < M) :
    modMulBinary R x y = x * y % M := by
  unfold modMulBinary
  rw [modMulBinaryLoop_eq h h.pos hx, Nat.zero_add]

/-- **C02/C03**: every expression built with `+`, `-`, `*` and unary `-` from residues
evaluates, without undefined behaviour, to the residue in `[0, M)` of its integer value. -/
theorem eval_correct (h : Represents R M) (e : Expr) (he : e.Wf M) :
    ∃ v, e.eval R = some v ∧ v < M ∧ (v : Int) = e.value % M := by
  have emod_of : ∀ {v : Nat} {z : Int}, v < M → ((v : Int) ≡ z [ZMOD M]) → (v : Int) = z % M := by
    intro v z hv hz
    unfold Int.ModEq at hz
    rwa [Int.emod_eq_of_lt (by omega) (by omega)] at hz
  have of_emod : ∀ {v : Nat} {z : Int}, (v : Int) = z % M → ((v : Int) ≡ z [ZMOD M]) := by
    intro v z hz
    rw [hz]; exact Int.mod_modEq _ _
  induction e with
  | lit x =>
    refine ⟨x, rfl, he, ?_⟩
    simp only [Expr.value]
    rw [Int.emod_eq_of_lt (by omega)]
    exact_mod_cast he
  | add a b iha ihb =>
    obtain ⟨va, ea, la, ca⟩ := iha he.1
    obtain ⟨vb, eb, lb, cb⟩ := ihb he.2
    refine ⟨modAdd R va vb, by simp [Expr.eval, ea, eb], modAdd_lt h la lb, ?_⟩
    refine emod_of (modAdd_lt h la lb) ((modAdd_modEq h la lb).trans ?_)
    exact Int.ModEq.add (of_emod ca) (of_emod cb)
  | sub a b iha ihb =>
    obtain ⟨va, ea, la, ca⟩ := iha he.1
    obtain ⟨vb, eb, lb, cb⟩ := ihb he.2
    refine ⟨modSub R va vb, by simp [Expr.eval, ea, eb], modSub_lt h la lb, ?_⟩
    refine emod_of (modSub_lt h la lb) ((modSub_modEq h la lb).trans ?_)
    exact Int.ModEq.sub (of_emod ca) (of_emod cb)
  | mul a b iha ihb =>
    obtain ⟨va, ea, la, ca⟩ := iha he.1
    obtain ⟨vb, eb, lb, cb⟩ := ihb he.2
    have hlt : va * vb % M < M := Nat.mod_lt _ h.pos
    refine ⟨va * vb % M, by simp [Expr.eval, ea, eb, modMul_correct h la lb], hlt, ?_⟩
    refine emod_of hlt ?_
    rw [Int.natCast_mod]
    refine (Int.mod_modEq _ _).trans ?_
    push_cast
    exact Int.ModEq.mul (of_emod ca) (of_emod cb)
  | neg a iha =>
    obtain ⟨va, ea, la, ca⟩ := iha he
    refine ⟨modNeg R va, by simp [Expr.eval, ea], modSub_lt h h.pos la, ?_⟩
    refine emod_of (modSub_lt h h.pos la) ((modSub_modEq h h.pos la).trans ?_)
    simpa [Expr.value] using Int.ModEq.neg (of_emod ca)

/-- **C04**: division either returns a residue `r` with `y * r ≡ x`, or throws and then no
such `r` exists.  The only excluded case is division by `0` in the ring whose modulus is the
full word range (see `modDiv_ub`). -/
theorem modDiv_correct (h : Represents R M) {x y : Nat} (hx : x < M) (hy : y < M)
    (hy0 : y ≠ 0 ∨ M < 2 ^ R.w) :
    (∃ r, modDiv R x y = .ok r ∧ r < M ∧ y * r % M = x) ∨
    (modDiv R x y = .throws ∧ ∀ r, y * r % M ≠ x) := by
  obtain ⟨c, hloop, hc, hg⟩ := modDiv_loop_result h hy hy0
  have hgpos : 0 < Nat.gcd M y := Nat.gcd_pos_of_pos_left _ h.pos
  unfold modDiv
  simp only [hloop]
  rw [if_neg (by omega)]
  by_cases hdvd : x % Nat.gcd M y = 0
  · left
    rw [if_neg (by simpa using hdvd)]
    have hk : x / Nat.gcd M y < 2 ^ R.w :=
      lt_of_le_of_lt (Nat.div_le_self _ _) (lt_of_lt_of_le hx h.le)
    rw [modMul_eq h hc hk]
    refine ⟨c * (x / Nat.gcd M y) % M, rfl, Nat.mod_lt _ h.pos, ?_⟩
    have hxg : x = Nat.gcd M y * (x / Nat.gcd M y) := by
      conv => lhs; rw [← Nat.div_add_mod x (Nat.gcd M y), hdvd, Nat.add_zero]
    have e1 : ((y * (c * (x / Nat.gcd M y) % M) : Nat) : Int) ≡ (x : Nat) [ZMOD M] := by
      push_cast
      have e2 : ((c : Int) * (x / Nat.gcd M y : Nat)) % M ≡ c * (x / Nat.gcd M y : Nat) [ZMOD M] :=
        Int.mod_modEq _ _
      have e3 := Int.ModEq.mul_left (y : Int) e2
      push_cast at e3
      refine e3.trans ?_
      have e4 := Int.ModEq.mul_right ((x / Nat.gcd M y : Nat) : Int) hg.symm
      have e5 : (y : Int) * (c * ((x : Int) / (Nat.gcd M y : Nat))) =
          c * y * ((x / Nat.gcd M y : Nat) : Int) := by push_cast; ring
      rw [e5]
      refine e4.trans ?_
      conv => rhs; rw [hxg]
      push_cast; rfl
    have e2 : y * (c * (x / Nat.gcd M y) % M) ≡ x [MOD M] := Int.natCast_modEq_iff.mp e1
    unfold Nat.ModEq at e2
    rw [e2, Nat.mod_eq_of_lt hx]
  · right
    rw [if_pos hdvd]
    refine ⟨rfl, fun r hr => hdvd ?_⟩
    have h1 : Nat.gcd M y ∣ y * r := Dvd.dvd.mul_right (Nat.gcd_dvd_right _ _) _
    have h2 : Nat.gcd M y ∣ M := Nat.gcd_dvd_left _ _
    have h3 : Nat.gcd M y ∣ y * r % M := (Nat.dvd_mod_iff h2).mpr h1
    rw [hr] at h3
    exact Nat.mod_eq_zero_of_dvd h3

/-- **C04**: division throws exactly when `gcd (y, M)` does not divide `x`. -/
theorem modDiv_throws_iff (h : Represents R M) {x y : Nat} (hy : y < M)
    (hy0 : y ≠ 0 ∨ M < 2 ^ R.w) (hx : x < M) :
    modDiv R x y = .throws ↔ ¬ Nat.gcd y M ∣ x := by
  obtain ⟨c, hloop, hc, hg⟩ := modDiv_loop_result h hy hy0
  have hgpos : 0 < Nat.gcd M y := Nat.gcd_pos_of_pos_left _ h.pos
  have hk : x / Nat.gcd M y < 2 ^ R.w :=
    lt_of_le_of_lt (Nat.div_le_self _ _) (lt_of_lt_of_le hx h.le)
  unfold modDiv
  simp only [hloop]
  rw [if_neg (by omega), Nat.gcd_comm y M, Nat.dvd_iff_mod_eq_zero]
  by_cases hdvd : x % Nat.gcd M y = 0
  · simp [hdvd, modMul_eq h hc hk]
  · simp [hdvd]

/-- **C04**, prime modulus: division by a non-zero residue always succeeds. -/
theorem modDiv_prime (h : Represents R M) (hprime : ∀ d, d ∣ M → d = 1 ∨ d = M) {x y : Nat}
    (hx : x < M) (hy : y < M) (hy0 : y ≠ 0) :
    ∃ r, modDiv R x y = .ok r ∧ r < M ∧ y * r % M = x := by
  rcases modDiv_correct h hx hy (Or.inl hy0) with h1 | ⟨h1, -⟩
  · exact h1
  · exfalso
    rw [modDiv_throws_iff h hy (Or.inl hy0) hx] at h1
    apply h1
    rcases hprime _ (Nat.gcd_dvd_right y M) with h2 | h2
    · rw [h2]; exact one_dvd _
    · have : M ∣ y := h2 ▸ Nat.gcd_dvd_left y M
      have := Nat.le_of_dvd (by omega) this
      omega

/-- **C04 fails at one point of the code**: in the static ring of modulus `2 ^ w` (stored
modulus `0`, e.g. `int_modulo<4294967296>`) dividing anything by `0` computes `x % 0`,
which is undefined behaviour, instead of throwing. -/
theorem modDiv_ub (h : Represents R (2 ^ R.w)) (x : Nat) : modDiv R x 0 = .ub := by
  unfold modDiv
  have hp : wsub R.w R.mod 0 = 0 := by rw [wsub_mod h (Nat.zero_le _)]; simp
  simp only [hp]
  unfold modDivLoop
  simp

/-! Concrete cases meeting the hypotheses. -/

/-- A modulus for which `x + y` overflows the 64-bit word. -/
example : Represents ⟨64, 18446744073709551557, true⟩ 18446744073709551557 :=
  ⟨by decide, by decide, by decide, by decide, by decide⟩

/-- The full-width static ring stored as modulus 0. -/
example : Represents ⟨32, 0, true⟩ (2 ^ 32) :=
  ⟨by decide, by decide, by decide, by decide, by decide⟩

/-- A composite modulus: `347 / 222` throws, `5 / 3` does not. -/
example : modDiv ⟨32, 1000, true⟩ 347 222 = .throws ∧ modDiv ⟨32, 1000, true⟩ 5 3 = .ok 335 := by
  decide +kernel

example : ∃ v, (Expr.sub (.mul (.lit 255) (.lit 255)) (.neg (.lit 7))).eval ⟨8, 0, true⟩ = some v ∧
    v < 256 ∧ (v : Int) = (255 * 255 - -7) % 256 :=
  eval_correct (M := 256) ⟨by decide, by decide, by decide, by decide, by decide⟩ _
    (by simp [Expr.Wf])

end Actl.Modular
