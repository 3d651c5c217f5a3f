import Verif.Lemmas.RealTree

/-!
# C124: structured values with real numbers written as text read back

Values of the types of C98 with floating point numbers in them, at any depth: points, polygons, vectors of pairs of a name and a
number.
-/

namespace Actl.IntText

/-- A number of a binary floating point type with `prec` digits is written accurately with any precision for which the power of the
base is well below `2 ^ prec`. -/
theorem roundBinary_accurate {prec : Nat} (hp : 0 < prec) {x : ℚ} (h0 : 0 ≤ x) (hx : roundBinary prec x = x) {P : Nat}
    (hP : 4 * (P + 1) ≤ 2 ^ prec) : Accurate (roundBinary prec) ((P + 1) / 2 ^ prec) P x := by
  have hpos : (0 : ℚ) < 2 ^ prec := by positivity
  have hnat : ∀ {n : Nat}, n ≤ 2 ^ prec → roundBinary prec (n : ℚ) = n := fun h => roundBinary_nat hp h
  have hu := roundBinary_unit prec x
  obtain ⟨k, hk⟩ : ∃ k : Int, x = k * 2 ^ (Int.log 2 x + 1 - (prec : Int)) := ⟨_, hx.symm⟩
  have hparts : roundBinary prec (⌊x⌋₊ : ℚ) = ⌊x⌋₊ ∧ roundBinary prec (x - ⌊x⌋₊) = x - ⌊x⌋₊ := by
    rcases le_or_gt 0 (Int.log 2 x + 1 - (prec : Int)) with he | he
    · obtain ⟨e, he⟩ := Int.eq_ofNat_of_zero_le he
      have hxi : x = ((k * 2 ^ e : Int) : ℚ) := by rw [hk, he]; push_cast; norm_num
      have hfl : (⌊x⌋₊ : ℚ) = x := by
        have h1 : (0 : Int) ≤ k * 2 ^ e := by exact_mod_cast hxi ▸ h0
        obtain ⟨n, hn⟩ := Int.eq_ofNat_of_zero_le h1
        rw [hn] at hxi
        rw [hxi]
        simp
      rw [hfl]
      refine ⟨hx, ?_⟩
      have := hnat (n := 0) (Nat.zero_le _)
      simpa using this
    · obtain ⟨e, he⟩ : ∃ e : Nat, Int.log 2 x + 1 - (prec : Int) = -(e : Int) := ⟨(-(Int.log 2 x + 1 - (prec : Int))).toNat, by omega⟩
      have hlt : x < 2 ^ prec := by
        have h1 : x < (2 : ℚ) ^ (Int.log 2 x + 1) := by
          have := Int.lt_zpow_succ_log_self (R := ℚ) (b := 2) (by norm_num) x
          exact_mod_cast this
        refine h1.trans_le ?_
        rw [← zpow_natCast (2 : ℚ) prec]
        exact zpow_le_zpow_right₀ (by norm_num) (by omega)
      have hfloor : ⌊x⌋₊ ≤ 2 ^ prec := by
        have : (⌊x⌋₊ : ℚ) ≤ x := Nat.floor_le h0
        have : (⌊x⌋₊ : ℚ) ≤ 2 ^ prec := this.trans hlt.le
        exact_mod_cast this
      refine ⟨hnat hfloor, ?_⟩
      set y : ℚ := x - ⌊x⌋₊ with hy
      have hy0 : 0 ≤ y := by have := Nat.floor_le h0; rw [hy]; linarith
      have hyx : y ≤ x := by have : (0 : ℚ) ≤ ⌊x⌋₊ := Nat.cast_nonneg _; rw [hy]; linarith
      rcases hy0.eq_or_lt with hz | hpos'
      · rw [← hz]
        have := hnat (n := 0) (Nat.zero_le _)
        simpa using this
      have hlog : Int.log 2 y ≤ Int.log 2 x := Int.log_mono_right hpos' hyx
      obtain ⟨d, hd⟩ : ∃ d : Nat, Int.log 2 y + 1 - (prec : Int) = -(e : Int) - d :=
        ⟨(Int.log 2 x - Int.log 2 y).toNat, by omega⟩
      refine roundBinary_exact (k := (k - ⌊x⌋₊ * 2 ^ e) * 2 ^ d) ?_
      rw [hd]
      have h2 : x = k / 2 ^ e := by rw [hk, he, zpow_neg, zpow_natCast]; rfl
      rw [zpow_sub₀ (by norm_num), zpow_neg, zpow_natCast, zpow_natCast]
      push_cast
      have he2 : (0 : ℚ) < 2 ^ e := by positivity
      have hd2 : (0 : ℚ) < 2 ^ d := by positivity
      have hk2 : (k : ℚ) = x * 2 ^ e := by rw [h2]; field_simp
      rw [hk2, hy]
      field_simp
  refine ⟨by positivity, ?_, hnat (by omega), hparts.1, hparts.2, fun y hy hy1 => ?_⟩
  · rw [← mul_div_assoc, div_le_one hpos]
    exact_mod_cast hP
  · refine ((roundBinary_rounding hp).near y hy).trans ?_
    rw [div_eq_inv_mul]
    exact mul_le_mul_of_nonneg_left hy1 (by positivity)

end Actl.IntText

namespace Actl.RealTree

open Actl.Text
open Actl.TextTree (St RSt Reader body Pos White Rest)

variable {F : Type} [Field F] [LinearOrder F] [IsStrictOrderedRing F] [FloorSemiring F]
variable {c : Cfg F} {r : Reader} {ε u : F} {N : Nat}

/-! ### Writing -/

theorem shows_text (hs : c.Sound r u N) {tok : Token F} (hf : tok.Fits c ε) :
    tok.Shows c ε ((tok.erase c).text c.text) := by
  cases tok with
  | real x =>
    obtain ⟨s, e, h, -⟩ := real_leaf hs hf
    simpa [Token.erase, e, TextTree.Token.text] using h
  | plain tok => exact TextTree.fits_shows hs.text.base hf

/-- The text is the pieces of the value in order, the separator between any two of them and nowhere else. -/
theorem text_pieces (hs : c.Sound r u N) (t : Ty) (x : Val F t) (hv : Valid c ε t x) :
    ∃ pieces, List.Forall₂ (Token.Shows c ε) (tokens t x) pieces ∧
      text c t x = some (c.text.space.intercalate pieces) := by
  refine ⟨(tokens t x).map fun tok => (tok.erase c).text c.text, ?_, ?_⟩
  · rw [List.forall₂_map_right_iff, List.forall₂_same]
    exact fun tok h => shows_text hs (valid_tokens t x hv tok h)
  · rw [text, write_eq hs t x hv]
    simp [TextTree.body_intercalate, bodyR, Function.comp_def]

/-! ### Reading back -/

theorem start_pos {s more : List Byte} {toks : List TextTree.Token} (h : body c.text false toks = s) :
    Pos c.text r false ⟨s ++ more, false⟩ toks more := by
  cases r with
  | spaced => exact ⟨rfl, by simp [h]⟩
  | skipws => exact .inl ⟨[], by simp [White], by simp [h]⟩

/-- Reading the text into any object of the type gives a value of the same shape, with the same integers, booleans, characters and strings and
with real numbers that are the written ones up to half a unit of the last digit and the errors of the arithmetic (and
exactly the written ones if they are integers), exactly if everything that is not a real number survives as in C98.  Real numbers
always survive, also zero. -/
theorem read_text_close (hs : c.Sound r u N) {t : Ty} {x y : Val F t} (hv : Valid c ε t x) (hy : Ready t y)
    {s : List Byte} (hw : text c t x = some s) :
    (∃ z st, read c r t y ⟨s, false⟩ = some (true, z, st) ∧ Close c ε u N t x z) ↔
      ∀ a tok b, tokens t x = a ++ tok :: b → tok.Kept c r (b = []) (∀ t ∈ b, t.Blank) := by
  rw [text, write_eq hs t x hv] at hw
  simp only [List.nil_append, Option.map_some, Option.some.injEq] at hw
  obtain ⟨g1, g2⟩ := good_read hs t x y hv hy _ _ _ (.inl rfl) (start_pos (more := []) hw)
  have hk := nz_kept hs (valid_tokens t x hv) (rest := []) (.inl rfl)
  simp only [and_true, White, List.not_mem_nil, false_imp_iff, implies_true] at hk
  rw [← hk]
  rw [List.append_nil] at g1 g2
  constructor
  · rintro ⟨z, st, h, hz⟩
    by_contra hn
    exact g2 hn z st hz h
  · intro hz
    obtain ⟨z, st, -, hc, h, -⟩ := g1 hz
    exact ⟨z, st, h, hc⟩

/-- After reading a value that is close nothing is left, up to whitespace if whitespace is skipped. -/
theorem read_text_close_rest (hs : c.Sound r u N) {t : Ty} {x y z : Val F t} (hv : Valid c ε t x) (hy : Ready t y)
    {s : List Byte} (hw : text c t x = some s) {st : RSt} (h : read c r t y ⟨s, false⟩ = some (true, z, st))
    (hz : Close c ε u N t x z) : (r = .spaced → st.d = []) ∧ ∀ b ∈ st.d, isSpace b = true := by
  rw [text, write_eq hs t x hv] at hw
  simp only [List.nil_append, Option.map_some, Option.some.injEq] at hw
  obtain ⟨g1, g2⟩ := good_read hs t x y hv hy _ _ _ (.inl rfl) (start_pos (more := []) hw)
  rw [List.append_nil] at g1 g2
  have hn : NZ c r (tokens t x) [] := by
    by_contra hn
    exact g2 hn z st hz h
  obtain ⟨z', st', b, -, h', hp', -⟩ := g1 hn
  rw [h] at h'
  simp only [Option.some.injEq, Prod.mk.injEq, true_and] at h'
  obtain ⟨-, rfl⟩ := h'
  cases r with
  | spaced =>
    have : st.d = [] := by simpa [Pos, body] using hp'.2
    exact ⟨fun _ => this, by simp [this]⟩
  | skipws =>
    refine ⟨by simp, ?_⟩
    rcases hp' with ⟨ws, hw, hd⟩ | ⟨hw, -⟩
    · rw [hd]
      simp only [body, List.append_nil]
      exact hw
    · exact hw

/-- The same for a value followed by a separator and anything else. -/
theorem read_text_close_followed (hs : c.Sound r u N) {t : Ty} {x y : Val F t} (hv : Valid c ε t x) (hy : Ready t y)
    {s more : List Byte} (hw : text c t x = some s) :
    ((∃ z st, read c r t y ⟨s ++ (c.text.space ++ more), false⟩ = some (true, z, st) ∧ Close c ε u N t x z) ↔
      ∀ a tok b, tokens t x = a ++ tok :: b →
        tok.Kept c r False ((∀ t ∈ b, t.Blank) ∧ ∀ ch ∈ c.text.space ++ more, isSpace ch = true)) ∧
    ∀ z st, read c r t y ⟨s ++ (c.text.space ++ more), false⟩ = some (true, z, st) → Close c ε u N t x z →
      match r with
      | .spaced => st = ⟨c.text.space ++ more, true⟩
      | .skipws => (∃ ws, (∀ b ∈ ws, isSpace b = true) ∧ st.d = ws ++ c.text.space ++ more) ∨
          ((∀ b ∈ st.d, isSpace b = true) ∧ ∀ b ∈ more, isSpace b = true) := by
  rw [text, write_eq hs t x hv] at hw
  simp only [List.nil_append, Option.map_some, Option.some.injEq] at hw
  obtain ⟨g1, g2⟩ := good_read hs t x y hv hy _ _ _ (.inr ⟨more, rfl⟩) (start_pos (more := c.text.space ++ more) hw)
  have hk := nz_kept hs (valid_tokens t x hv) (rest := c.text.space ++ more) (.inr ⟨more, rfl⟩)
  have hne : c.text.space ++ more ≠ [] := by
    obtain ⟨b, s, hsp, -⟩ := hs.text.space
    simp [hsp]
  simp only [hne, and_false, White] at hk
  refine ⟨?_, ?_⟩
  · rw [← hk]
    constructor
    · rintro ⟨z, st, h, hz⟩
      by_contra hn
      exact g2 hn z st hz h
    · intro hz
      obtain ⟨z, st, -, hc, h, -⟩ := g1 hz
      exact ⟨z, st, h, hc⟩
  · intro z st h hz
    have hn : NZ c r (tokens t x) (c.text.space ++ more) := by
      by_contra hn
      exact g2 hn z st hz h
    obtain ⟨z', st', b, -, h', hp', hb⟩ := g1 hn
    rw [h] at h'
    simp only [Option.some.injEq, Prod.mk.injEq, true_and] at h'
    obtain ⟨-, rfl⟩ := h'
    cases r with
    | spaced =>
      obtain ⟨e1, e2⟩ := hp'
      cases st
      simp_all [body]
    | skipws =>
      rcases hp' with ⟨ws, hw, hd⟩ | ⟨hw, hd⟩
      · exact .inl ⟨ws, hw, by rw [hd]; simp [body]⟩
      · simp only [body, List.nil_append, TextTree.white_append] at hd
        exact .inr ⟨hw, hd.2⟩

/-! ### Without containers -/

mutual

/-- Types of which all values consist of real numbers and booleans: points, pairs of points, segments, arrays and
matrices of a fixed size. -/
def Ty.Fixed : Ty → Prop
  | .real => True
  | .plain t => t = .bool
  | .tuple ts => ts.Fixed
  | .array _ t => t.Fixed
  | .vec _ => False
  | .seq _ => False

/-- The same for the elements of a tuple. -/
def Tys.Fixed : Tys → Prop
  | .nil => True
  | .cons t ts => t.Fixed ∧ ts.Fixed

end

omit [IsStrictOrderedRing F] in
mutual

theorem fixed_kept {r : Reader} (t : Ty) (x : Val F t) (h : t.Fixed) {last blank : Prop} :
    ∀ tok ∈ tokens t x, tok.Kept c r last blank := by
  match t with
  | .real => intro tok ht; rw [tokens, List.mem_singleton] at ht; subst ht; trivial
  | .plain t =>
    obtain rfl : t = .bool := h
    intro tok ht
    rw [tokens, List.mem_map] at ht
    obtain ⟨tok, ht, rfl⟩ := ht
    obtain rfl := List.mem_singleton.mp (show tok ∈ [TextTree.Token.flag x] from ht)
    trivial
  | .tuple .nil => intro tok ht; rw [tokens, List.mem_singleton] at ht; subst ht; trivial
  | .tuple (.cons t ts) => exact fixed_keptTuple (.cons t ts) x h
  | .array n t =>
    intro tok ht
    rw [tokens] at ht
    split at ht
    · rw [List.mem_singleton] at ht; subst ht; trivial
    · obtain ⟨a, ha, ht⟩ := List.mem_flatMap.mp ht
      exact fixed_kept t a h tok ht
  | .vec t => exact h.elim
  | .seq t => exact h.elim

theorem fixed_keptTuple {r : Reader} (ts : Tys) (x : Vals F ts) (h : ts.Fixed) {last blank : Prop} :
    ∀ tok ∈ tokensTuple ts x, tok.Kept c r last blank := by
  match ts with
  | .nil => intro tok ht; simp [tokensTuple] at ht
  | .cons t ts =>
    intro tok ht
    rw [tokensTuple] at ht
    rcases List.mem_append.mp ht with ht | ht
    · exact fixed_kept t x.1 h.1 tok ht
    · exact fixed_keptTuple ts x.2 h.2 tok ht

end

/-- Points, segments and matrices of a fixed size are always read back. -/
theorem read_text_fixed (hs : c.Sound r u N) {t : Ty} (ht : t.Fixed) {x y : Val F t} (hv : Valid c ε t x)
    (hy : Ready t y) : ∃ s, text c t x = some s ∧
    ∃ z st, read c r t y ⟨s, false⟩ = some (true, z, st) ∧ Close c ε u N t x z := by
  obtain ⟨p, -, h⟩ := text_pieces hs t x hv
  refine ⟨_, h, (read_text_close hs hv hy h).mpr fun a tok b e => fixed_kept t x ht tok ?_⟩
  rw [e]
  simp

/-! ### Polygons of type `double` -/

/-- `std::vector<std::tuple<double, double, int>>`. -/
abbrev exTy : Ty := .vec (.tuple (.cons .real (.cons .real (.cons (.plain (.int 32 true)) .nil))))

/-- `{(-0.75, 0, 7), (3.141592…, 12, -5)}`; the third number is the `double` nearest to π. -/
abbrev exVal : Val ℚ exTy :=
  [((-3 / 4 : ℚ), ((0 : ℚ), ((7 : Int), ()))), ((7074237752028440 / 2 ^ 51 : ℚ), ((12 : ℚ), ((-5 : Int), ())))]

/-- Six digits after the point, separated by spaces. -/
abbrev exCfg : Cfg ℚ := ⟨⟨bytes " ", ⟨10, false, false, false⟩, true⟩, 6, false, IntText.roundBinary 53⟩

theorem exCfg_sound (r : Reader) : exCfg.Sound r ((2 : ℚ) ^ 53)⁻¹ (2 ^ 53) :=
  ⟨TextTree.exCfg_sound r, by rintro b s h; cases h; decide +kernel, .inl rfl, by decide,
    IntText.roundBinary_rounding (by omega), fun _ => IntText.roundBinary_nat (by omega), IntText.roundBinary_half (by omega)⟩

/-- Every number of type `double` below 10 ^ 18 is valid. -/
theorem exCfg_valid {x : ℚ} (hx : IntText.roundBinary 53 |x| = |x|) (h : |x| < 10 ^ 18) :
    ValidReal exCfg ((10 ^ 6 + 1) / 2 ^ 53) x := by
  refine ⟨?_, ?_⟩
  · have := IntText.roundBinary_accurate (prec := 53) (by omega) (abs_nonneg x) hx (P := 10 ^ 6) (by norm_num)
    have e : (((10 ^ 6 : Nat) : ℚ) + 1) / 2 ^ 53 = (10 ^ 6 + 1) / 2 ^ 53 := by norm_num
    rw [e] at this
    exact this
  · have : ((10 : Nat) : ℚ) * (|x| + 1) < 10 * (10 ^ 18 + 1) := by push_cast; linarith
    exact this.trans (by norm_num)

theorem exVal_valid : Valid exCfg ((10 ^ 6 + 1) / 2 ^ 53) exTy exVal := by
  refine ⟨by decide, ?_⟩
  intro y hy
  rcases List.mem_cons.mp hy with rfl | hy
  · refine ⟨exCfg_valid (by decide +kernel) (by decide +kernel), exCfg_valid (by decide +kernel) (by decide +kernel), ?_, trivial⟩
    show TextTree.Valid _ _
    simp [TextTree.Valid, IntText.InRange]
  · obtain rfl := List.mem_singleton.mp hy
    refine ⟨exCfg_valid (by decide +kernel) (by decide +kernel), exCfg_valid (by decide +kernel) (by decide +kernel), ?_, trivial⟩
    show TextTree.Valid _ _
    simp [TextTree.Valid, IntText.InRange]

theorem exVal_tokens : tokens exTy exVal = [.plain (.number 64 false 2), .real (-3 / 4), .real 0, .plain (.number 32 true 7),
    .real (7074237752028440 / 2 ^ 51), .real 12, .plain (.number 32 true (-5))] := rfl

example (r : Reader) : ∃ s, text exCfg exTy exVal = some s ∧ ∃ z st, read exCfg r exTy [] ⟨s, false⟩ = some (true, z, st) ∧
    Close exCfg ((10 ^ 6 + 1) / 2 ^ 53) ((2 : ℚ) ^ 53)⁻¹ (2 ^ 53) exTy exVal z := by
  obtain ⟨p, -, h⟩ := text_pieces (exCfg_sound r) exTy exVal exVal_valid
  refine ⟨_, h, (read_text_close (exCfg_sound r) exVal_valid (by intro y hy; cases hy) h).mpr fun a tok b e => ?_⟩
  have : tok ∈ tokens exTy exVal := by rw [e]; simp
  rw [exVal_tokens] at this
  simp only [List.mem_cons, List.not_mem_nil, or_false] at this
  rcases this with rfl | rfl | rfl | rfl | rfl | rfl | rfl <;> simp [Token.Kept, TextTree.Token.Kept]

def exTriple (x : ℚ × ℚ × Int × Unit) : List ℚ := [x.1, x.2.1, x.2.2.1]

/-- The numbers of a value. -/
def exShow (x : Val ℚ exTy) : List (List ℚ) := List.map exTriple x

/-- What is read from such a text. -/
example : (read exCfg .skipws exTy [] ⟨bytes "2 -0.750000 0.000000 7 3.500000 12.000000 -5", false⟩).map
    (fun p => (p.1, exShow p.2.1, p.2.2.d)) =
      some (true, [[-3 / 4, 0, 7], [7 / 2, 12, -5]], []) := by decide +kernel

abbrev exPoint : Ty := .tuple (.cons .real (.cons .real .nil))

/-- A point with a zero coordinate, which is read back although a pair of integers with a zero first is not. -/
example (r : Reader) : ∃ s, text exCfg exPoint ((0 : ℚ), ((5 / 2 : ℚ), ())) = some s ∧
    ∃ z st, read exCfg r exPoint ((1 : ℚ), ((1 : ℚ), ())) ⟨s, false⟩ = some (true, z, st) ∧
      Close exCfg ((10 ^ 6 + 1) / 2 ^ 53) ((2 : ℚ) ^ 53)⁻¹ (2 ^ 53) exPoint ((0 : ℚ), ((5 / 2 : ℚ), ())) z :=
  read_text_fixed (t := exPoint) (exCfg_sound r) ⟨trivial, trivial, trivial⟩
    ⟨exCfg_valid (by decide +kernel) (by decide +kernel), exCfg_valid (by decide +kernel) (by decide +kernel), trivial⟩
    ⟨trivial, trivial, trivial⟩

/-- The defect of C98: an empty polygon followed by anything is not read back. -/
theorem read_text_close_zero_fails (hs : c.Sound r u N) {t : Ty} {x y : Val F t} (hv : Valid c ε t x) (hy : Ready t y)
    {s : List Byte} (hw : text c t x = some s) {w : Nat} {sg : Bool}
    (ht : .plain (.number w sg 0) ∈ (tokens t x).dropLast) {z : Val F t} {st : RSt}
    (h : read c r t y ⟨s, false⟩ = some (true, z, st)) : ¬ Close c ε u N t x z := fun hz => by
  have hk := (read_text_close hs hv hy hw).mp ⟨z, st, h, hz⟩
  obtain ⟨a, b, hab⟩ := List.append_of_mem ht
  have hne : tokens t x ≠ [] := tokens_ne t x
  have := hk a _ (b ++ [(tokens t x).getLast hne]) (by
    rw [← List.cons_append, ← List.append_assoc, ← hab, List.dropLast_append_getLast])
  exact this.elim (by simp) (· rfl)

end Actl.RealTree
