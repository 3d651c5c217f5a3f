import Verif.Props.TextPrefix
import Verif.Props.TextAssoc

/-!
# C161: texts of sets and maps are unambiguous

Maps cannot be read back from text (C118), but their text determines them, together with where it ends.
-/

namespace Actl.TextAssoc

open Actl.Text
open TextTree (Token Reader St spc body Stops Ends ends_cons)

variable {c : Cfg} {less : Less} {S : Byte → Prop}

theorem ends_tail (hs : Stops c.text S) (hc : ∃ b s, c.colon = b :: s ∧ S b) {R : List Byte} (hR : Ends S R)
    (ps : List (Bool × Token)) : Ends S (tail c ps ++ R) := by
  cases ps with
  | nil => simpa [tail] using hR
  | cons p ps =>
    simp only [tail, List.flatMap_cons, List.append_assoc]
    split
    · exact ends_cons hc
    · exact ends_cons hs.space

theorem tail_append (a b : List (Bool × Token)) : tail c (a ++ b) = tail c a ++ tail c b := by
  simp [tail]

/-- No string of the pieces ends early. -/
def WordsA (S : Byte → Prop) (ps : List (Bool × Token)) : Prop := ∀ p ∈ ps, ∀ u, p.2 = .word u → ∀ b ∈ u, ¬ S b

theorem wordsA_colon {ps : List (Bool × Token)} (h : WordsA S (behindColon ps)) : WordsA S ps := by
  cases ps with
  | nil => exact h
  | cons p ps =>
    intro q hq u hu
    rcases List.mem_cons.mp hq with rfl | hq
    · exact h (true, q.2) (by simp [behindColon]) u hu
    · exact h q (by simp [behindColon, hq]) u hu

theorem wordsA_base {toks : List Token} (h : WordsA S (toks.map fun tok => (false, tok))) : TextTree.Words S toks :=
  fun u hu => h (false, .word u) (List.mem_map.mpr ⟨_, hu, rfl⟩) u rfl

theorem listA_unique (hs : Stops c.text S) (hc : ∃ b s, c.colon = b :: s ∧ S b) {α : Type}
    {tk : α → List (Bool × Token)} (hp : ∀ x, Plain (tk x)) {P : α → Prop}
    (h : ∀ x x', P x → P x' → ∀ sep R R', Ends S R → Ends S R' → bodyA c sep (tk x) ++ R = bodyA c sep (tk x') ++ R' →
      x = x' ∧ R = R') : ∀ (xs xs' : List α), xs.length = xs'.length → (∀ x ∈ xs, P x) → (∀ x ∈ xs', P x) →
      ∀ R R', Ends S R → Ends S R' → tail c (xs.flatMap tk) ++ R = tail c (xs'.flatMap tk) ++ R' → xs = xs' ∧ R = R'
  | [], [], _, _, _, _, _, _, _, e => ⟨rfl, by simpa [tail] using e⟩
  | [], _ :: _, hl, _, _, _, _, _, _, _ => by simp at hl
  | _ :: _, [], hl, _, _, _, _, _, _, _ => by simp at hl
  | x :: xs, x' :: xs', hl, hx, hx', R, R', hR, hR', e => by
    rw [List.flatMap_cons, List.flatMap_cons, tail_append, tail_append, tail_plain (hp x), tail_plain (hp x'),
      List.append_assoc, List.append_assoc] at e
    obtain ⟨rfl, e1⟩ := h x x' (hx x (by simp)) (hx' x' (by simp)) true _ _ (ends_tail hs hc hR _) (ends_tail hs hc hR' _) e
    obtain ⟨rfl, e2⟩ := listA_unique hs hc hp h xs xs' (by simpa using hl) (fun y hy => hx y (by simp [hy]))
      (fun y hy => hx' y (by simp [hy])) R R' hR hR' e1
    exact ⟨rfl, e2⟩

theorem sizedA_unique (hs : Stops c.text S) (hc : ∃ b s, c.colon = b :: s ∧ S b) {α : Type}
    {tk : α → List (Bool × Token)} (hp : ∀ x, Plain (tk x)) {P : α → Prop}
    (h : ∀ x x', P x → P x' → ∀ sep R R', Ends S R → Ends S R' → bodyA c sep (tk x) ++ R = bodyA c sep (tk x') ++ R' →
      x = x' ∧ R = R') {xs xs' : List α} (hl : xs.length < 2 ^ 63) (hl' : xs'.length < 2 ^ 63) (hx : ∀ x ∈ xs, P x)
    (hx' : ∀ x ∈ xs', P x) {sep : Bool} {R R' : List Byte} (hR : Ends S R) (hR' : Ends S R')
    (e : bodyA c sep ((false, .number 64 false xs.length) :: xs.flatMap tk) ++ R =
      bodyA c sep ((false, .number 64 false xs'.length) :: xs'.flatMap tk) ++ R') : xs = xs' ∧ R = R' := by
  simp only [bodyA, List.append_assoc, List.append_cancel_left_eq] at e
  obtain ⟨hn, e⟩ := TextTree.number_unique hs (TextTree.size_range hl) (TextTree.size_range hl') (ends_tail hs hc hR _)
    (ends_tail hs hc hR' _) e
  exact listA_unique hs hc hp h xs xs' (by omega) hx hx' R R' hR hR' e

theorem bodyA_unique (hs : Stops c.text S) (hc : ∃ b s, c.colon = b :: s ∧ S b) (t : Ty) (x x' : Val t)
    (hv : Valid less t x ∧ WordsA S (pieces t x)) (hv' : Valid less t x' ∧ WordsA S (pieces t x')) (sep : Bool)
    (R R' : List Byte) (hR : Ends S R) (hR' : Ends S R')
    (e : bodyA c sep (pieces t x) ++ R = bodyA c sep (pieces t x') ++ R') : x = x' ∧ R = R' := by
  induction t generalizing sep R R' with
  | base t =>
    rw [pieces, pieces, bodyA_base, bodyA_base] at e
    exact TextTree.body_unique hs t x x' ⟨hv.1, wordsA_base hv.2⟩ ⟨hv'.1, wordsA_base hv'.2⟩ sep R R' hR hR' e
  | pair a b iha ihb =>
    rw [pieces, pieces, bodyA_append (plain_ne (pieces_plain a x.1)), bodyA_append (plain_ne (pieces_plain a x'.1)),
      List.append_assoc, List.append_assoc] at e
    obtain ⟨e1, e⟩ := iha x.1 x'.1 ⟨hv.1.1, fun p h => hv.2 p (List.mem_append_left _ h)⟩
      ⟨hv'.1.1, fun p h => hv'.2 p (List.mem_append_left _ h)⟩ sep _ _ (ends_tail hs hc hR _) (ends_tail hs hc hR' _) e
    rw [tail_plain (pieces_plain b x.2), tail_plain (pieces_plain b x'.2)] at e
    obtain ⟨e2, e⟩ := ihb x.2 x'.2 ⟨hv.1.2, fun p h => hv.2 p (List.mem_append_right _ h)⟩
      ⟨hv'.1.2, fun p h => hv'.2 p (List.mem_append_right _ h)⟩ true _ _ hR hR' e
    exact ⟨Prod.ext e1 e2, e⟩
  | vec t ih =>
    exact sizedA_unique hs hc (pieces_plain t) (P := fun y => Valid less t y ∧ WordsA S (pieces t y)) ih hv.1.1 hv'.1.1
      (fun y hy => ⟨hv.1.2 y hy, fun p h => hv.2 p (List.mem_cons_of_mem _ (List.mem_flatMap.mpr ⟨y, hy, h⟩))⟩)
      (fun y hy => ⟨hv'.1.2 y hy, fun p h => hv'.2 p (List.mem_cons_of_mem _ (List.mem_flatMap.mpr ⟨y, hy, h⟩))⟩) hR hR' e
  | set u t ih =>
    exact sizedA_unique hs hc (pieces_plain t) (P := fun y => Valid less t y ∧ WordsA S (pieces t y)) ih hv.1.1 hv'.1.1
      (fun y hy => ⟨hv.1.2.2 y hy, fun p h => hv.2 p (List.mem_cons_of_mem _ (List.mem_flatMap.mpr ⟨y, hy, h⟩))⟩)
      (fun y hy => ⟨hv'.1.2.2 y hy, fun p h => hv'.2 p (List.mem_cons_of_mem _ (List.mem_flatMap.mpr ⟨y, hy, h⟩))⟩) hR hR' e
  | map u k t ih =>
    refine sizedA_unique hs hc (tk := fun e : TextTree.Val k × Val t =>
        (TextTree.tokens k e.1).map (fun tok => (false, tok)) ++ behindColon (pieces t e.2))
      (fun e => plain_append (plain_base k e.1))
      (P := fun y => (TextTree.Valid k y.1 ∧ Valid less t y.2) ∧
        WordsA S ((TextTree.tokens k y.1).map (fun tok => (false, tok)) ++ behindColon (pieces t y.2))) ?_ hv.1.1 hv'.1.1
      (fun y hy => ⟨hv.1.2.2 y hy, fun p h => hv.2 p (List.mem_cons_of_mem _ (List.mem_flatMap.mpr ⟨y, hy, h⟩))⟩)
      (fun y hy => ⟨hv'.1.2.2 y hy, fun p h => hv'.2 p (List.mem_cons_of_mem _ (List.mem_flatMap.mpr ⟨y, hy, h⟩))⟩) hR hR' e
    intro y y' hy hy' sep R R' hR hR' e
    rw [bodyA_append (plain_ne (plain_base k y.1)), bodyA_append (plain_ne (plain_base k y'.1)), bodyA_base, bodyA_base,
      List.append_assoc, List.append_assoc] at e
    obtain ⟨e1, e⟩ := TextTree.body_unique hs k y.1 y'.1
      ⟨hy.1.1, wordsA_base fun p h => hy.2 p (List.mem_append_left _ h)⟩
      ⟨hy'.1.1, wordsA_base fun p h => hy'.2 p (List.mem_append_left _ h)⟩ sep _ _ (ends_tail hs hc hR _)
      (ends_tail hs hc hR' _) e
    rw [tail_colon (pieces_plain t y.2), tail_colon (pieces_plain t y'.2), List.append_assoc, List.append_assoc,
      List.append_cancel_left_eq] at e
    obtain ⟨e2, e⟩ := ih y.2 y'.2 ⟨hy.1.2, wordsA_colon fun p h => hy.2 p (List.mem_append_right _ h)⟩
      ⟨hy'.1.2, wordsA_colon fun p h => hy'.2 p (List.mem_append_right _ h)⟩ false _ _ hR hR' e
    exact ⟨Prod.ext e1 e2, e⟩

/-- Texts of two values with sets and maps, each followed by nothing or by a separator and anything, are equal as a whole only if the values
and what follows are. Neither the separator nor the colon begins with a byte that continues a number or a base prefix or that is in a string
of the values. -/
theorem text_assoc_prefix (hb : 2 ≤ c.text.num.base ∧ c.text.num.base ≤ 36) {s0 c0 : Byte}
    (h0 : c.text.space.head? = some s0) (h1 : c.colon.head? = some c0)
    (hd : ∀ b ∈ [s0, c0], IntText.isDig c.text.num.base b = false ∧ b ∉ [lit 'x', lit 'X', lit 'b', lit 'B'])
    {t : Ty} {x x' : Val t} (hv : Valid less t x) (hv' : Valid less t x')
    (hw : ∀ p ∈ pieces t x, ∀ u, p.2 = .word u → s0 ∉ u ∧ c0 ∉ u)
    (hw' : ∀ p ∈ pieces t x', ∀ u, p.2 = .word u → s0 ∉ u ∧ c0 ∉ u) {s s' R R' : List Byte}
    (h : text c t x = some s) (h' : text c t x' = some s') (hR : R = [] ∨ ∃ q, R = c.text.space ++ q)
    (hR' : R' = [] ∨ ∃ q, R' = c.text.space ++ q) (e : s ++ R = s' ++ R') : x = x' ∧ R = R' := by
  rw [text, write_bodyA hb t x hv] at h
  rw [text, write_bodyA hb t x' hv'] at h'
  simp only [List.nil_append, Option.map_some, Option.some.injEq] at h h'
  subst h h'
  obtain ⟨q0, e0⟩ := List.head?_eq_some_iff.mp h0
  obtain ⟨q1, e1⟩ := List.head?_eq_some_iff.mp h1
  have hs : Stops c.text (· ∈ [s0, c0]) := ⟨hb, hd, s0, q0, e0, by simp⟩
  have ends : ∀ {T : List Byte}, (T = [] ∨ ∃ q, T = c.text.space ++ q) → Ends (· ∈ [s0, c0]) T := by
    rintro T (rfl | ⟨q, rfl⟩)
    · exact fun _ _ h => by cases h
    · exact ends_cons hs.space
  have words : ∀ {y : Val t}, (∀ p ∈ pieces t y, ∀ u, p.2 = .word u → s0 ∉ u ∧ c0 ∉ u) →
      WordsA (· ∈ [s0, c0]) (pieces t y) := by
    intro y hy p hp u hu b hb hm
    obtain ⟨n0, n1⟩ := hy p hp u hu
    rcases List.mem_cons.mp hm with rfl | hm
    · exact n0 hb
    · exact n1 (List.mem_singleton.mp hm ▸ hb)
  exact bodyA_unique hs ⟨c0, q1, e1, by simp⟩ t x x' ⟨hv, words hw⟩ ⟨hv', words hw'⟩ false R R' (ends hR) (ends hR') e

theorem exMapVal_valid : Valid exLess exMap exMapVal := by
  refine ⟨by decide, ?_, ?_⟩
  · exact List.Pairwise.cons (by simp [exLess]) (List.pairwise_singleton _ _)
  · intro y hy
    rcases List.mem_cons.mp hy with rfl | hy
    · refine ⟨by simp [TextTree.Valid, IntText.InRange], by decide, List.pairwise_singleton _ _, fun _ _ => trivial⟩
    · obtain rfl := List.mem_singleton.mp hy
      refine ⟨by simp [TextTree.Valid, IntText.InRange], by decide,
        List.Pairwise.cons (fun a h => by obtain rfl := List.mem_singleton.mp h; rfl) (List.pairwise_singleton _ _), fun _ _ => trivial⟩

/-- A map from numbers to sets of booleans has no strings. -/
theorem exMap_words (x : Val exMap) : ∀ p ∈ pieces exMap x, ∀ u, p.2 = .word u → lit ' ' ∉ u ∧ lit ':' ∉ u := by
  have h : WordsA (fun _ => True) (pieces exMap x) → ∀ p ∈ pieces exMap x, ∀ u, p.2 = .word u → u = [] := by
    intro h p hp u hu
    cases u with
    | nil => rfl
    | cons b q => exact absurd trivial (h p hp _ hu b (by simp))
  have key : WordsA (fun _ => True) (pieces exMap x) := by
    intro p hp u hu
    exfalso
    rcases List.mem_cons.mp hp with rfl | hp
    · cases hu
    · obtain ⟨e, -, hp⟩ := List.mem_flatMap.mp hp
      rcases List.mem_append.mp hp with hp | hp
      · simp only [TextTree.tokens, List.map_cons, List.map_nil, List.mem_singleton] at hp
        subst hp
        cases hu
      · rcases List.mem_cons.mp hp with rfl | hp
        · cases hu
        · obtain ⟨b, -, hp⟩ := List.mem_flatMap.mp hp
          simp only [pieces, TextTree.tokens, List.map_cons, List.map_nil, List.mem_singleton] at hp
          subst hp
          cases hu
  intro p hp u hu
  simp [h key p hp u hu]

/-- `{2: {true}, 5: {false, true}}` is the only map with its text, although no map is read back from text (C118). -/
example {x : Val exMap} (hv : Valid exLess exMap x)
    (h : text exColon exMap x = some (bytes "2 2: 1 true 5: 2 false true")) : x = exMapVal :=
  (text_assoc_prefix (c := exColon) (less := exLess) (s0 := lit ' ') (c0 := lit ':') ⟨by decide, by decide⟩ (by decide +kernel)
    (by decide +kernel) (by decide +kernel) hv exMapVal_valid (exMap_words x) (exMap_words exMapVal) h
    (show text exColon exMap exMapVal = some _ by decide +kernel) (.inl rfl) (.inl rfl) rfl).1

/-- The defect: whatever the settings, the maps of strings `{u + colon + v: w}` and `{u: v + colon + w}` have the same text. -/
theorem text_map_words_fail (c : Cfg) (u v w : List Byte) (unique : Bool) :
    text c (.map unique .str (.base .str)) [(u ++ c.colon ++ v, w)] =
      text c (.map unique .str (.base .str)) [(u, v ++ c.colon ++ w)] ∧
    (c.colon ≠ [] → [(u ++ c.colon ++ v, w)] ≠ [(u, v ++ c.colon ++ w)]) := by
  refine ⟨?_, fun hne e => ?_⟩
  · simp only [text, write, TextTree.write, List.length_cons, List.length_nil]
    cases TextTree.writeSize c.text (0 + 1) ((St.unit c.text ⟨[], false⟩).level true) with
    | none => rfl
    | some s => simp [TextTree.writeAll, TextTree.writeLeaf, TextTree.write, writeColon, St.unit, St.level]
  · have := congrArg List.length (congrArg Prod.fst (List.cons.inj e).1)
    have hp := List.length_pos_of_ne_nil hne
    simp only [List.length_append] at this
    omega

/-- `{"a: b": "c"}` and `{"a": "b: c"}`. -/
example : text exColon (.map true .str (.base .str)) [(bytes "a: b", bytes "c")] = some (bytes "1 a: b: c") ∧
    text exColon (.map true .str (.base .str)) [(bytes "a", bytes "b: c")] = some (bytes "1 a: b: c") := by
  decide +kernel

end Actl.TextAssoc
