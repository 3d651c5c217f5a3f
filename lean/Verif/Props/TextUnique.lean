import Verif.Props.TextTree

/-!
# C159: text tells values apart

Two values of a type that survive being written as text and read back never have the same text. Strings with separators in them
break this: then different values have the same text, so that no way of reading can tell them apart.
-/

namespace Actl.TextTree

open Actl.Text

mutual

/-- There is an object of every type to read into. -/
theorem ready_exists (t : Ty) : ∃ y : Val t, Ready t y := by
  match t with
  | .int w s => exact ⟨(0 : Int), by simp only [Ready]⟩
  | .bool => exact ⟨false, by simp only [Ready]⟩
  | .char => exact ⟨(0 : Byte), by simp only [Ready]⟩
  | .str => exact ⟨([] : List Byte), by simp only [Ready]⟩
  | .tuple ts =>
    obtain ⟨y, h⟩ := readyTuple_exists ts
    exact ⟨y, by simp only [Ready]; exact h⟩
  | .array n t =>
    obtain ⟨y, h⟩ := ready_exists t
    refine ⟨(List.replicate n y : List (Val t)), ?_⟩
    simp only [Ready]
    exact ⟨List.length_replicate .., fun z hz => (List.mem_replicate.mp hz).2 ▸ h⟩
  | .vec t =>
    refine ⟨([] : List (Val t)), ?_⟩
    simp only [Ready]
    exact fun z hz => absurd hz (List.not_mem_nil)
  | .seq t =>
    refine ⟨([] : List (Val t)), ?_⟩
    simp only [Ready]

theorem readyTuple_exists (ts : Tys) : ∃ y : Vals ts, ReadyTuple ts y := by
  match ts with
  | .nil => exact ⟨(), by simp only [ReadyTuple]⟩
  | .cons t ts =>
    obtain ⟨y, h⟩ := ready_exists t
    obtain ⟨z, h'⟩ := readyTuple_exists ts
    exact ⟨(y, z), by simp only [ReadyTuple]; exact ⟨h, h'⟩⟩

end

/-- Two values of a type whose pieces survive, for either way of reading, have different texts unless they are equal. -/
theorem text_unique {c : Cfg} {r : Reader} (hs : c.Sound r) {t : Ty} {x x' : Val t} (hv : Valid t x) (hv' : Valid t x')
    (hk : ∀ a tok b, tokens t x = a ++ tok :: b → tok.Kept c r (b = []) (∀ t ∈ b, t.Blank))
    (hk' : ∀ a tok b, tokens t x' = a ++ tok :: b → tok.Kept c r (b = []) (∀ t ∈ b, t.Blank))
    (h : text c t x = text c t x') : x = x' := by
  obtain ⟨y, hy⟩ := ready_exists t
  obtain ⟨s, hw⟩ : ∃ s, text c t x = some s := by
    rw [text, write_eq hs.base t x hv]
    exact ⟨_, rfl⟩
  obtain ⟨st, e⟩ := (read_text_iff hs hv hy hw).mpr hk
  obtain ⟨st', e'⟩ := (read_text_iff hs hv' hy (h ▸ hw)).mpr hk'
  rw [e] at e'
  simp only [Option.some.injEq, Prod.mk.injEq, true_and] at e'
  exact e'.1

/-- The value of the examples has a text that no other value with surviving pieces has. -/
example {x : Val exTy} (hv : Valid exTy x)
    (hk : ∀ a tok b, tokens exTy x = a ++ tok :: b → tok.Kept exCfg .skipws (b = []) (∀ t ∈ b, t.Blank))
    (h : text exCfg exTy x = some (bytes "2 12 false -3 true 1 7 ab")) : x = exVal :=
  text_unique (exCfg_sound .skipws) hv exVal_valid hk (fun _ _ _ e => kept_of_all (exVal_kept .skipws) e)
    (h.trans (by decide +kernel))

/-- The defect: whatever the settings, the pairs of strings `(u + space + v, w)` and `(u, v + space + w)` have the same text. -/
theorem text_words_fail (c : Cfg) (u v w : List Byte) :
    text c (.tuple (.cons .str (.cons .str .nil))) (u ++ c.space ++ v, (w, ())) =
      text c (.tuple (.cons .str (.cons .str .nil))) (u, (v ++ c.space ++ w, ())) ∧
    (text c (.tuple (.cons .str (.cons .str .nil))) (u, (v ++ c.space ++ w, ()))).isSome ∧
    (c.space ≠ [] → (u ++ c.space ++ v, w) ≠ (u, v ++ c.space ++ w)) := by
  refine ⟨?_, ?_, fun hne e => ?_⟩
  · simp [text, write, writeTuple, writeLeaf, St.unit, St.level]
  · simp [text, write, writeTuple, writeLeaf]
  · have := congrArg (List.length ∘ Prod.fst) e
    have hp := List.length_pos_of_ne_nil hne
    simp at this
    exact hne this.1

/-- `("a b", "c")` and `("a", "b c")`. -/
example : text exCfg (.tuple (.cons .str (.cons .str .nil))) (bytes "a b", (bytes "c", ())) = some (bytes "a b c") ∧
    text exCfg (.tuple (.cons .str (.cons .str .nil))) (bytes "a", (bytes "b c", ())) = some (bytes "a b c") := by
  decide +kernel

end Actl.TextTree
