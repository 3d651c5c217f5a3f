import Verif.Lemmas.TextTree

/-!
# C98: structured values written as text read back

A value built from integers, booleans, characters, strings, tuples, arrays and containers is written through `spaced{space} >>= text` and
read back through `skipws{} >>= text` or `spaced{space} >>= text`.
-/

namespace Actl.TextTree

open Actl.Text

/-! ### A value used in the examples -/

/-- `std::vector<std::tuple<int, bool>>`, `std::list<unsigned char>` and `std::string`. -/
abbrev exTy : Ty := .tuple (.cons (.vec (.tuple (.cons (.int 32 true) (.cons .bool .nil))))
  (.cons (.seq (.int 8 false)) (.cons .str .nil)))

/-- `({(12, false), (-3, true)}, {7}, "ab")`. -/
abbrev exVal : Val exTy :=
  ([((12 : Int), (false, ())), ((-3 : Int), (true, ()))], (([(7 : Int)] : List Int), (bytes "ab", ())))

abbrev exOld : Val exTy := ([((1 : Int), (true, ()))], (([] : List Int), (bytes "previous", ())))

abbrev exCfg : Cfg := ⟨bytes " ", ⟨10, false, false, false⟩, true⟩

theorem exCfg_sound (r : Reader) : exCfg.Sound r :=
  ⟨by decide, ⟨lit ' ', [], rfl, by decide +kernel, by decide +kernel⟩, fun _ => by decide +kernel⟩

theorem exVal_valid : Valid exTy exVal := by
  refine ⟨⟨by decide, ?_⟩, ⟨by decide, ?_⟩, trivial, trivial⟩
  · intro y hy
    rcases List.mem_cons.mp hy with rfl | hy
    · simp [Valid, ValidTuple, IntText.InRange]
    · obtain rfl := List.mem_singleton.mp hy
      simp [Valid, ValidTuple, IntText.InRange]
  · intro y hy
    obtain rfl := List.mem_singleton.mp hy
    simp [Valid, IntText.InRange]

theorem exOld_ready : Ready exTy exOld := by
  refine ⟨?_, rfl, trivial, trivial⟩
  intro y _
  simp [Ready, ReadyTuple]

theorem exVal_tokens : tokens exTy exVal = [.number 64 false 2, .number 32 true 12, .flag false, .number 32 true (-3),
    .flag true, .number 64 false 1, .number 8 false 7, .word (bytes "ab")] := rfl

/-! ### Writing -/

theorem fits_shows {c : Cfg} (hb : 2 ≤ c.num.base ∧ c.num.base ≤ 36) {tok : Token} (this : tok.Fits) :
    tok.Shows c (tok.text c) := by
  cases tok with
  | number w signed y =>
    simp only [Token.Fits] at this
    obtain ⟨ds, he, hc⟩ := IntText.encode_correct (f := c.num) (by have := wide this.1; omega : 3 ≤ w) this.2.1 (.inr hb) this.2.2
    rw [base_pos hb] at he hc
    exact ⟨ds, hc, by simp [Token.text, he]⟩
  | flag b => cases b <;> simp [Token.Shows, Token.text, Parser.encodeBool, Parser.trueS, Parser.falseS] <;> rfl
  | char b => rfl
  | word b => rfl
  | nothing => rfl

theorem text_shows {c : Cfg} (hb : 2 ≤ c.num.base ∧ c.num.base ≤ 36) (t : Ty) (x : Val t) (hv : Valid t x) :
    ∀ tok ∈ tokens t x, tok.Shows c (tok.text c) :=
  fun tok htok => fits_shows hb (valid_tokens t x hv tok htok)

/-- The text is the pieces of the value in order, the separator between any two of them and nowhere else: no separator
at the start, at the end or around nested values. -/
theorem text_pieces {c : Cfg} (hb : 2 ≤ c.num.base ∧ c.num.base ≤ 36) (t : Ty) (x : Val t) (hv : Valid t x) :
    ∃ pieces, List.Forall₂ (Token.Shows c) (tokens t x) pieces ∧
      text c t x = some (c.space.intercalate pieces) := by
  refine ⟨(tokens t x).map (Token.text c), ?_, ?_⟩
  · rw [List.forall₂_map_right_iff, List.forall₂_same]
    exact text_shows hb t x hv
  · rw [text, write_eq hb t x hv]
    simp [body_intercalate]

example : text exCfg exTy exVal = some (bytes "2 12 false -3 true 1 7 ab") := by decide +kernel

/-! ### Reading back -/

/-- Reading the text into any object of the type gives the value back exactly if
* no number written, sizes of containers included, is zero, except for the very last piece,
* no string has whitespace, and every string but the last piece is followed by a separator beginning with whitespace,
* if whitespace is skipped, no character is whitespace, and no string is empty unless only blank pieces follow.
Both directions hold for either way of reading. -/
theorem read_text_iff {c : Cfg} {r : Reader} (hs : c.Sound r) {t : Ty} {x y : Val t} (hv : Valid t x)
    (hy : Ready t y) {s : List Byte} (hw : text c t x = some s) :
    (∃ st, read c r t y ⟨s, false⟩ = some (true, x, st)) ↔
      ∀ a tok b, tokens t x = a ++ tok :: b → tok.Kept c r (b = []) (∀ t ∈ b, t.Blank) := by
  rw [text, write_eq hs.base t x hv] at hw
  simp only [List.nil_append, Option.map_some, Option.some.injEq] at hw
  have hp : Pos c r false ⟨s, false⟩ (tokens t x) [] := by
    cases r with
    | spaced => exact ⟨rfl, by simp [hw]⟩
    | skipws => exact .inl ⟨[], by simp [White], by simp [hw]⟩
  obtain ⟨g1, g2⟩ := good_read hs t x y hv hy _ _ _ (.inl rfl) hp
  have hk := nz_kept hs (valid_tokens t x hv) (rest := []) (.inl rfl)
  simp only [and_true, White, List.not_mem_nil, false_imp_iff, implies_true] at hk
  rw [← hk]
  constructor
  · rintro ⟨st, h⟩
    by_contra hz
    exact g2 hz st h
  · intro hz
    obtain ⟨st, -, h, -⟩ := g1 hz
    exact ⟨st, h⟩

theorem kept_of_all {c : Cfg} {r : Reader} {toks : List Token}
    (h : ∀ tok ∈ toks, tok.Kept c r False False) {a b : List Token} {tok : Token} {last blank : Prop}
    (e : toks = a ++ tok :: b) : tok.Kept c r last blank := by
  have := h tok (by simp [e])
  cases tok with
  | number w sg x => exact .inr (this.resolve_left id)
  | flag x => trivial
  | char x => exact this
  | nothing => trivial
  | word x => exact ⟨this.1, .inr (this.2.1.resolve_left id), fun h1 h2 => (this.2.2 h1 h2).elim⟩

theorem exVal_kept (r : Reader) : ∀ tok ∈ tokens exTy exVal, tok.Kept exCfg r False False := by
  rw [exVal_tokens]
  simp only [List.forall_mem_cons, List.not_mem_nil, false_imp_iff, implies_true, and_true, Token.Kept]
  refine ⟨by simp, by simp, trivial, by simp, trivial, by simp, by simp, ?_⟩
  exact ⟨by decide +kernel, .inr ⟨lit ' ', [], rfl, by decide +kernel⟩,
    fun _ h => absurd h (by decide +kernel)⟩

example (r : Reader) :
    ∃ st, read exCfg r exTy exOld ⟨bytes "2 12 false -3 true 1 7 ab", false⟩ = some (true, exVal, st) :=
  (read_text_iff (exCfg_sound r) exVal_valid exOld_ready (by decide +kernel)).mpr fun _ _ _ e =>
    kept_of_all (exVal_kept r) e

/-- After reading the value back nothing is left, up to whitespace if whitespace is skipped (the separators around
empty tuples and arrays). -/
theorem read_text_rest {c : Cfg} {r : Reader} (hs : c.Sound r) {t : Ty} {x y : Val t} (hv : Valid t x)
    (hy : Ready t y) {s : List Byte} (hw : text c t x = some s) {st : RSt}
    (h : read c r t y ⟨s, false⟩ = some (true, x, st)) :
    (r = .spaced → st.d = []) ∧ ∀ b ∈ st.d, isSpace b = true := by
  rw [text, write_eq hs.base t x hv] at hw
  simp only [List.nil_append, Option.map_some, Option.some.injEq] at hw
  have hp : Pos c r false ⟨s, false⟩ (tokens t x) [] := by
    cases r with
    | spaced => exact ⟨rfl, by simp [hw]⟩
    | skipws => exact .inl ⟨[], by simp [White], by simp [hw]⟩
  obtain ⟨g1, g2⟩ := good_read hs t x y hv hy _ _ _ (.inl rfl) hp
  have hz : NZ c r (tokens t x) [] := by
    by_contra hz
    exact g2 hz st h
  obtain ⟨st', b, h', hp', -⟩ := g1 hz
  rw [h] at h'
  simp only [Option.some.injEq, Prod.mk.injEq, true_and] at h'
  subst h'
  cases r with
  | spaced =>
    have : st.d = [] := by simpa [Pos, body] using hp'.2
    exact ⟨fun _ => this, by simp [this]⟩
  | skipws =>
    refine ⟨by simp, ?_⟩
    rcases hp' with ⟨ws, hw, hd⟩ | ⟨hw, -⟩
    · rw [hd]
      simp only [body, List.append_nil]
      exact hw
    · exact hw

/-- The same for a value followed by a separator and anything else: now no piece is the last one, and reading continues
before the separator (or behind a part of the whitespace, if whitespace is skipped). -/
theorem read_text_followed {c : Cfg} {r : Reader} (hs : c.Sound r) {t : Ty} {x y : Val t} (hv : Valid t x)
    (hy : Ready t y) {s more : List Byte} (hw : text c t x = some s) :
    ((∃ st, read c r t y ⟨s ++ c.space ++ more, false⟩ = some (true, x, st)) ↔
      ∀ a tok b, tokens t x = a ++ tok :: b →
        tok.Kept c r False ((∀ t ∈ b, t.Blank) ∧ ∀ ch ∈ c.space ++ more, isSpace ch = true)) ∧
    ∀ st, read c r t y ⟨s ++ c.space ++ more, false⟩ = some (true, x, st) →
      match r with
      | .spaced => st = ⟨c.space ++ more, true⟩
      | .skipws => (∃ ws, (∀ b ∈ ws, isSpace b = true) ∧ st.d = ws ++ c.space ++ more) ∨
          ((∀ b ∈ st.d, isSpace b = true) ∧ ∀ b ∈ more, isSpace b = true) := by
  rw [text, write_eq hs.base t x hv] at hw
  simp only [List.nil_append, Option.map_some, Option.some.injEq] at hw
  have hp : Pos c r false ⟨s ++ c.space ++ more, false⟩ (tokens t x) (c.space ++ more) := by
    cases r with
    | spaced => exact ⟨rfl, by simp [hw]⟩
    | skipws => exact .inl ⟨[], by simp [White], by simp [hw]⟩
  obtain ⟨g1, g2⟩ := good_read hs t x y hv hy _ _ _ (.inr ⟨more, rfl⟩) hp
  have hz := nz_kept hs (valid_tokens t x hv) (rest := c.space ++ more) (.inr ⟨more, rfl⟩)
  have hne : c.space ++ more ≠ [] := by
    obtain ⟨b, s, hsp, -⟩ := hs.space
    simp [hsp]
  simp only [hne, and_false, White] at hz
  refine ⟨?_, ?_⟩
  · rw [← hz]
    constructor
    · rintro ⟨st, h⟩
      by_contra hz
      exact g2 hz st h
    · intro hz
      obtain ⟨st, -, h, -⟩ := g1 hz
      exact ⟨st, h⟩
  · intro st h
    have hz : NZ c r (tokens t x) (c.space ++ more) := by
      by_contra hz
      exact g2 hz st h
    obtain ⟨st', b, h', hp', hb⟩ := g1 hz
    rw [h] at h'
    simp only [Option.some.injEq, Prod.mk.injEq, true_and] at h'
    subst h'
    cases r with
    | spaced =>
      obtain ⟨e1, e2⟩ := hp'
      cases st
      simp_all [body]
    | skipws =>
      rcases hp' with ⟨ws, hw, hd⟩ | ⟨hw, hd⟩
      · exact .inl ⟨ws, hw, by rw [hd]; simp [body]⟩
      · simp only [body, List.nil_append, white_append] at hd
        exact .inr ⟨hw, hd.2⟩

example (r : Reader) : ∃ st, read exCfg r exTy exOld ⟨bytes "2 12 false -3 true 1 7 ab" ++ exCfg.space ++ bytes "cd",
    false⟩ = some (true, exVal, st) :=
  (read_text_followed (exCfg_sound r) exVal_valid exOld_ready (by decide +kernel)).1.mpr fun _ _ _ e =>
    kept_of_all (exVal_kept r) e

/-- The defect: a value in which a zero, or an empty container, is followed by anything is never read back. -/
theorem read_text_zero_fails {c : Cfg} {r : Reader} (hs : c.Sound r) {t : Ty} {x y : Val t} (hv : Valid t x)
    (hy : Ready t y) {s : List Byte} (hw : text c t x = some s) {tok : Token} (ht : tok ∈ (tokens t x).dropLast)
    (hz : tok.isZero) (st : RSt) : read c r t y ⟨s, false⟩ ≠ some (true, x, st) := fun h => by
  have hk := (read_text_iff hs hv hy hw).mp ⟨st, h⟩
  obtain ⟨a, b, hab⟩ := List.append_of_mem ht
  have hne : tokens t x ≠ [] := tokens_ne t x
  have := hk a tok (b ++ [(tokens t x).getLast hne]) (by
    rw [← List.cons_append, ← List.append_assoc, ← hab, List.dropLast_append_getLast])
  cases tok with
  | number w sg n => exact this.elim (by simp) (· hz)
  | flag b => exact hz
  | char b => exact hz
  | nothing => exact hz
  | word b => exact hz

/-- `std::pair{0, 5}` is written as `0 5`; what is read back is another pair. -/
example : (read exCfg .skipws (.tuple (.cons (.int 32 true) (.cons (.int 32 true) .nil)))
    ((0 : Int), ((0 : Int), ())) ⟨bytes "0 5", false⟩).map (fun p => (p.1, decide (p.2.1.1 = (0 : Int)))) =
    some (true, false) := by decide +kernel

/-- A value with a string that has whitespace anywhere is never read back. -/
theorem read_text_word_fails {c : Cfg} {r : Reader} (hs : c.Sound r) {t : Ty} {x y : Val t} (hv : Valid t x)
    (hy : Ready t y) {s : List Byte} (hw : text c t x = some s) {w : List Byte} (ht : .word w ∈ tokens t x)
    {ch : Byte} (hc : ch ∈ w) (hsp : isSpace ch = true) (st : RSt) : read c r t y ⟨s, false⟩ ≠ some (true, x, st) :=
  fun h => by
  obtain ⟨a, b, hab⟩ := List.append_of_mem ht
  have := ((read_text_iff hs hv hy hw).mp ⟨st, h⟩ a _ b hab).1 ch hc
  simp [hsp] at this

/-- `"a b"` is read as `"a"`. -/
example : (read exCfg .skipws .str [] ⟨bytes "a b", false⟩).map (fun p => (p.1, (show List Byte from p.2.1), p.2.2.d)) =
    some (true, bytes "a", bytes " b") := by decide +kernel

/-- A value with a character that is whitespace is never read back if whitespace is skipped. -/
theorem read_text_char_fails {c : Cfg} (hs : c.Sound .skipws) {t : Ty} {x y : Val t} (hv : Valid t x)
    (hy : Ready t y) {s : List Byte} (hw : text c t x = some s) {ch : Byte} (ht : .char ch ∈ tokens t x)
    (hsp : isSpace ch = true) (st : RSt) : read c .skipws t y ⟨s, false⟩ ≠ some (true, x, st) := fun h => by
  obtain ⟨a, b, hab⟩ := List.append_of_mem ht
  have := (read_text_iff hs hv hy hw).mp ⟨st, h⟩ a _ b hab rfl
  simp [hsp] at this

/-- The pair of a line feed and `'x'`: read back through `spaced`, but through `skipws` the line feed is lost and the second character
is missing, it becomes the null character. -/
example : text exCfg (.tuple (.cons .char (.cons .char .nil))) (lit '\n', (lit 'x', ())) = some (bytes "\n x") ∧
    (read exCfg .spaced (.tuple (.cons .char (.cons .char .nil))) (lit 'a', (lit 'b', ())) ⟨bytes "\n x", false⟩).map
      (fun p => (p.1, (show Byte from p.2.1.1), (show Byte from p.2.1.2.1))) = some (true, lit '\n', lit 'x') ∧
    (read exCfg .skipws (.tuple (.cons .char (.cons .char .nil))) (lit 'a', (lit 'b', ())) ⟨bytes "\n x", false⟩).map
      (fun p => (p.1, (show Byte from p.2.1.1), (show Byte from p.2.1.2.1))) = some (false, lit 'x', 0#8) := by
  decide +kernel

/-- With a separator such as a comma a string that is followed by anything is never read back. -/
theorem read_text_comma_fails {c : Cfg} {r : Reader} (hs : c.Sound r) {t : Ty} {x y : Val t} (hv : Valid t x)
    (hy : Ready t y) {s : List Byte} (hw : text c t x = some s) {w : List Byte} (ht : .word w ∈ (tokens t x).dropLast)
    {b : Byte} {sp : List Byte} (hsp : c.space = b :: sp) (hb : isSpace b = false) (st : RSt) :
    read c r t y ⟨s, false⟩ ≠ some (true, x, st) := fun h => by
  have hk := (read_text_iff hs hv hy hw).mp ⟨st, h⟩
  obtain ⟨a, b', hab⟩ := List.append_of_mem ht
  have hne : tokens t x ≠ [] := tokens_ne t x
  obtain ⟨-, h2, -⟩ := hk a _ (b' ++ [(tokens t x).getLast hne]) (by
    rw [← List.cons_append, ← List.append_assoc, ← hab, List.dropLast_append_getLast])
  rcases h2 with h2 | ⟨b2, s2, e, h2⟩
  · simp at h2
  · rw [hsp] at e
    obtain ⟨rfl, -⟩ := List.cons.inj e
    simp [hb] at h2

/-- `std::pair{"a", 5}` with commas: the string read is `"a,5"`. -/
example : (read ⟨bytes ",", ⟨10, false, false, false⟩, true⟩ .spaced (.tuple (.cons .str (.cons (.int 32 true) .nil)))
    ([], ((0 : Int), ())) ⟨bytes "a,5", false⟩).map (fun p => (p.1, (show List Byte from p.2.1.1))) =
    some (false, bytes "a,5") := by decide +kernel

end Actl.TextTree
