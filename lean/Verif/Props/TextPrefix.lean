import Verif.Props.TextUnique

/-!
# C160: texts of different values differ even where they are not read back

Zeros and empty containers followed by anything are not read back (C98), but nothing is lost in their text: if no string has the first
byte of the separator in it, the text of a value, followed by nothing or by a separator and anything, determines the value and where its text
ends.
-/

namespace Actl.TextTree

open Actl.Text

variable {c : Cfg} {S : Byte → Prop}

theorem digits_unique {p : Byte → Bool} : ∀ {ds ds' R R' : List Byte}, (∀ d ∈ ds, p d = true) → (∀ d ∈ ds', p d = true) →
    (∀ b s, R = b :: s → p b = false) → (∀ b s, R' = b :: s → p b = false) → ds ++ R = ds' ++ R' → ds = ds' ∧ R = R'
  | [], [], _, _, _, _, _, _, e => ⟨rfl, e⟩
  | [], d :: ds', R, R', _, h', hR, _, e => by
    have := hR d (ds' ++ R') (by simpa using e)
    rw [h' d (by simp)] at this
    cases this
  | d :: ds, [], R, R', h, _, _, hR', e => by
    have := hR' d (ds ++ R) (by simpa using e.symm)
    rw [h d (by simp)] at this
    cases this
  | d :: ds, d' :: ds', R, R', h, h', hR, hR', e => by
    simp only [List.cons_append, List.cons.injEq] at e
    obtain ⟨rfl, e⟩ := e
    obtain ⟨rfl, e'⟩ := digits_unique (fun x hx => h x (by simp [hx])) (fun x hx => h' x (by simp [hx])) hR hR' e
    exact ⟨rfl, e'⟩

/-- The bytes at which a piece ends: they cannot continue a number or a base prefix, and the separator begins with one. -/
structure Stops (c : Cfg) (S : Byte → Prop) : Prop where
  base : 2 ≤ c.num.base ∧ c.num.base ≤ 36
  stop : ∀ b, S b → IntText.isDig c.num.base b = false ∧ b ∉ [lit 'x', lit 'X', lit 'b', lit 'B']
  space : ∃ b s, c.space = b :: s ∧ S b

/-- What may follow a piece. -/
def Ends (S : Byte → Prop) (R : List Byte) : Prop := ∀ b s, R = b :: s → S b

theorem ends_cons {S : Byte → Prop} {l R : List Byte} (h : ∃ b s, l = b :: s ∧ S b) : Ends S (l ++ R) := by
  obtain ⟨b, s, rfl, h⟩ := h
  intro b' s' e
  simp only [List.cons_append, List.cons.injEq] at e
  exact e.1 ▸ h

theorem ends_body {S : Byte → Prop} (hs : Stops c S) {R : List Byte} (hR : Ends S R) (toks : List Token) :
    Ends S (body c true toks ++ R) := by
  cases toks with
  | nil => simpa [body] using hR
  | cons t ts =>
    simp only [body, spc, if_true, List.append_assoc]
    exact ends_cons hs.space

theorem zero_dig {B : Nat} (h : 2 ≤ B) : IntText.isDig B (lit '0') = true := by
  have : IntText.digitVal (lit '0') = some 0 := by decide +kernel
  simp [IntText.isDig, this]
  omega

theorem magnitude_unique (hs : Stops c S) {x x' : Int} {ds ds' R R' : List Byte}
    (hd : IntText.Canonical c.num.base c.num.uppercase x.natAbs ds)
    (hd' : IntText.Canonical c.num.base c.num.uppercase x'.natAbs ds') (hR : Ends S R) (hR' : Ends S R') (hx : x = 0)
    (hx' : x' ≠ 0) (e : ds ++ R = IntText.prefixText c.num.showbase c.num.uppercase c.num.base x' ++ ds' ++ R') : False := by
  have p1 := fun d hd1 => (hd.digits d hd1).1
  have p2 := fun d hd1 => (hd'.digits d hd1).1
  have r1 := fun b s (e : R = b :: s) => (hs.stop b (hR b s e)).1
  have r2 := fun b s (e : R' = b :: s) => (hs.stop b (hR' b s e)).1
  rw [IntText.prefixText] at e
  split at e
  · split at e
    · obtain ⟨h, -⟩ := digits_unique (p := IntText.isDig c.num.base) p1 (ds' := lit '0' :: ds')
        (fun d h => by
          rcases List.mem_cons.mp h with rfl | h
          · exact zero_dig hs.base.1
          · exact p2 d h) r1 r2 (by simpa using e)
      have := hd.canonical (by rw [h]; rfl)
      rw [h] at this
      simp only [List.cons.injEq, true_and] at this
      exact hd'.nonempty this
    · split at e
      · obtain ⟨d, tl, rfl⟩ := List.exists_cons_of_ne_nil hd.nonempty
        simp only [List.cons_append, List.cons.injEq, List.nil_append] at e
        obtain ⟨rfl, e⟩ := e
        have := hd.canonical rfl
        simp only [List.cons.injEq, true_and] at this
        subst this
        rw [List.nil_append] at e
        have := (hs.stop _ (hR _ _ e)).2
        split at this <;> simp at this
      · obtain ⟨rfl, -⟩ := digits_unique p1 p2 r1 r2 (by simpa using e)
        have := hd.value.symm.trans hd'.value
        omega
  · obtain ⟨rfl, -⟩ := digits_unique p1 p2 r1 r2 (by simpa using e)
    have := hd.value.symm.trans hd'.value
    omega

theorem magnitude_eq (hs : Stops c S) {x x' : Int} {ds ds' R R' : List Byte}
    (hd : IntText.Canonical c.num.base c.num.uppercase x.natAbs ds)
    (hd' : IntText.Canonical c.num.base c.num.uppercase x'.natAbs ds') (hR : Ends S R) (hR' : Ends S R')
    (e : IntText.prefixText c.num.showbase c.num.uppercase c.num.base x ++ ds ++ R =
      IntText.prefixText c.num.showbase c.num.uppercase c.num.base x' ++ ds' ++ R') : x.natAbs = x'.natAbs ∧ R = R' := by
  have p1 := fun d hd1 => (hd.digits d hd1).1
  have p2 := fun d hd1 => (hd'.digits d hd1).1
  have r1 := fun b s (e : R = b :: s) => (hs.stop b (hR b s e)).1
  have r2 := fun b s (e : R' = b :: s) => (hs.stop b (hR' b s e)).1
  have h0 : IntText.prefixText c.num.showbase c.num.uppercase c.num.base 0 = [] := by simp [IntText.prefixText]
  by_cases hx : x = 0 <;> by_cases hx' : x' = 0
  · subst hx; subst hx'
    rw [h0, List.nil_append, List.nil_append] at e
    exact ⟨rfl, (digits_unique p1 p2 r1 r2 e).2⟩
  · subst hx
    rw [h0, List.nil_append] at e
    exact (magnitude_unique hs hd hd' hR hR' rfl hx' e).elim
  · subst hx'
    rw [h0, List.nil_append] at e
    exact (magnitude_unique hs hd' hd hR' hR rfl hx e.symm).elim
  · have : IntText.prefixText c.num.showbase c.num.uppercase c.num.base x =
        IntText.prefixText c.num.showbase c.num.uppercase c.num.base x' := by simp [IntText.prefixText, hx, hx']
    rw [this, List.append_assoc, List.append_assoc, List.append_cancel_left_eq] at e
    obtain ⟨rfl, h⟩ := digits_unique p1 p2 r1 r2 e
    exact ⟨hd.value.symm.trans hd'.value, h⟩

theorem magnitude_head (hb : 2 ≤ c.num.base) {x : Int} {ds R : List Byte}
    (hd : IntText.Canonical c.num.base c.num.uppercase x.natAbs ds) {b : Byte} {s : List Byte}
    (e : IntText.prefixText c.num.showbase c.num.uppercase c.num.base x ++ ds ++ R = b :: s) :
    IntText.isDig c.num.base b = true := by
  obtain ⟨d, tl, rfl⟩ := List.exists_cons_of_ne_nil hd.nonempty
  have h1 := (hd.digits d (by simp)).1
  have h2 := zero_dig hb
  rw [IntText.prefixText] at e
  split at e
  · split at e
    · simp only [List.cons_append, List.cons.injEq] at e
      exact e.1 ▸ h2
    · split at e
      · simp only [List.cons_append, List.cons.injEq] at e
        exact e.1 ▸ h2
      · simp only [List.cons_append, List.nil_append, List.cons.injEq] at e
        exact e.1 ▸ h1
  · simp only [List.cons_append, List.nil_append, List.cons.injEq] at e
    exact e.1 ▸ h1

theorem sign_dig (B : Nat) : IntText.isDig B (lit '-') = false := by
  have : IntText.digitVal (lit '-') = none := by decide +kernel
  simp [IntText.isDig, this]

theorem number_unique (hs : Stops c S) {w : Nat} {signed : Bool} {x x' : Int}
    (hx : (Token.number w signed x).Fits) (hx' : (Token.number w signed x').Fits) {R R' : List Byte} (hR : Ends S R)
    (hR' : Ends S R')
    (e : (Token.number w signed x).text c ++ R = (Token.number w signed x').text c ++ R') : x = x' ∧ R = R' := by
  have hb := hs.base
  have hb0 : c.num.base ≠ 0 := by omega
  obtain ⟨ds, he, hd⟩ := IntText.encode_correct (f := c.num) (by have := wide hx.1; omega : 3 ≤ w) hx.2.1 (.inr hb) hx.2.2
  obtain ⟨ds', he', hd'⟩ := IntText.encode_correct (f := c.num) (by have := wide hx'.1; omega : 3 ≤ w) hx'.2.1 (.inr hb) hx'.2.2
  simp only [hb0, if_false] at he he' hd hd'
  simp only [Token.text, he, he', Option.getD_some] at e
  have key : ∀ {y y' : Int} {es es' S S' : List Byte}, IntText.Canonical c.num.base c.num.uppercase y.natAbs es →
      IntText.Canonical c.num.base c.num.uppercase y'.natAbs es' → y < 0 → ¬ y' < 0 →
      IntText.signText signed c.num.showpos y ++ IntText.prefixText c.num.showbase c.num.uppercase c.num.base y ++ es ++ S =
      IntText.signText signed c.num.showpos y' ++ IntText.prefixText c.num.showbase c.num.uppercase c.num.base y' ++ es' ++ S' →
      False := by
    intro y y' es es' S S' h h' hy hy' e
    rw [IntText.signText, IntText.signText, if_pos hy, if_neg hy'] at e
    split at e
    · simp only [List.cons_append, List.cons.injEq] at e
      exact absurd e.1 (by decide)
    · have := magnitude_head (R := S') hb.1 h' (by simpa using e.symm)
      rw [sign_dig] at this
      cases this
  by_cases h1 : x < 0 <;> by_cases h2 : x' < 0
  · rw [IntText.signText, IntText.signText, if_pos h1, if_pos h2] at e
    obtain ⟨h, h'⟩ := magnitude_eq hs hd hd' hR hR' (by simpa using e)
    exact ⟨by omega, h'⟩
  · exact (key hd hd' h1 h2 e).elim
  · exact (key hd' hd h2 h1 e.symm).elim
  · rw [IntText.signText, IntText.signText, if_neg h1, if_neg h2] at e
    obtain ⟨h, h'⟩ := magnitude_eq hs hd hd' hR hR' (by
      rw [List.append_assoc, List.append_assoc, List.append_assoc, List.append_assoc, List.append_cancel_left_eq] at e
      simpa using e)
    exact ⟨by omega, h'⟩

theorem flag_unique {x x' : Bool} {R R' : List Byte}
    (e : (Token.flag x).text c ++ R = (Token.flag x').text c ++ R') : x = x' ∧ R = R' := by
  cases x <;> cases x' <;> cases ha : c.alpha <;>
    simp [Token.text, Parser.encodeBool, ha, Parser.trueS, Parser.falseS, bytes, lit] at e <;> first | exact ⟨rfl, e⟩ | skip

/-- No string ends early. -/
def Words (S : Byte → Prop) (toks : List Token) : Prop := ∀ u, .word u ∈ toks → ∀ b ∈ u, ¬ S b

theorem word_unique {x x' : List Byte} (hx : ∀ b ∈ x, ¬ S b) (hx' : ∀ b ∈ x', ¬ S b) {R R' : List Byte} (hR : Ends S R)
    (hR' : Ends S R') (e : x ++ R = x' ++ R') : x = x' ∧ R = R' := by
  classical
  exact digits_unique (p := fun d => !decide (S d)) (fun d hd => by simpa using hx d hd) (fun d hd => by simpa using hx' d hd)
    (fun b s h => by simpa using hR b s h) (fun b s h => by simpa using hR' b s h) e

theorem list_unique (hs : Stops c S) {α : Type} {tk : α → List Token} (hne : ∀ x, tk x ≠ []) {P : α → Prop}
    (h : ∀ x x', P x → P x' → ∀ sep R R', Ends S R → Ends S R' → body c sep (tk x) ++ R = body c sep (tk x') ++ R' →
      x = x' ∧ R = R') : ∀ (xs xs' : List α), xs.length = xs'.length → (∀ x ∈ xs, P x) → (∀ x ∈ xs', P x) →
      ∀ sep R R', Ends S R → Ends S R' →
        body c sep (xs.flatMap tk) ++ R = body c sep (xs'.flatMap tk) ++ R' → xs = xs' ∧ R = R'
  | [], [], _, _, _, _, _, _, _, _, e => ⟨rfl, by simpa [body] using e⟩
  | [], _ :: _, hl, _, _, _, _, _, _, _, _ => by simp at hl
  | _ :: _, [], hl, _, _, _, _, _, _, _, _ => by simp at hl
  | x :: xs, x' :: xs', hl, hp, hp', sep, R, R', hR, hR', e => by
    rw [List.flatMap_cons, List.flatMap_cons, body_append (hne x), body_append (hne x'), List.append_assoc,
      List.append_assoc] at e
    obtain ⟨rfl, e1⟩ := h x x' (hp x (by simp)) (hp' x' (by simp)) sep _ _ (ends_body hs hR _) (ends_body hs hR' _) e
    obtain ⟨rfl, e2⟩ := list_unique hs hne h xs xs' (by simpa using hl) (fun y hy => hp y (by simp [hy]))
      (fun y hy => hp' y (by simp [hy])) true R R' hR hR' e1
    exact ⟨rfl, e2⟩

theorem leaf_cancel {sep : Bool} {a a' : Token} {R R' : List Byte} (e : body c sep [a] ++ R = body c sep [a'] ++ R') :
    a.text c ++ R = a'.text c ++ R' := by
  simpa [body] using e

theorem sized_unique (hs : Stops c S) {t : Ty} {xs xs' : List (Val t)} (hl : xs.length < 2 ^ 63) (hl' : xs'.length < 2 ^ 63)
    {P : Val t → Prop} (hp : ∀ y ∈ xs, P y) (hp' : ∀ y ∈ xs', P y)
    (h : ∀ x x', P x → P x' → ∀ sep R R', Ends S R → Ends S R' →
      body c sep (tokens t x) ++ R = body c sep (tokens t x') ++ R' → x = x' ∧ R = R')
    {sep : Bool} {R R' : List Byte} (hR : Ends S R) (hR' : Ends S R')
    (e : body c sep (.number 64 false xs.length :: xs.flatMap (tokens t)) ++ R =
      body c sep (.number 64 false xs'.length :: xs'.flatMap (tokens t)) ++ R') : xs = xs' ∧ R = R' := by
  simp only [body, List.append_assoc, List.append_cancel_left_eq] at e
  obtain ⟨hn, e⟩ := number_unique hs (size_range hl) (size_range hl') (ends_body hs hR _) (ends_body hs hR' _) e
  exact list_unique hs (tokens_ne t) h xs xs' (by omega) hp hp' true R R' hR hR' e

mutual

theorem body_unique (hs : Stops c S) (t : Ty) (x x' : Val t) (hv : Valid t x ∧ Words S (tokens t x))
    (hv' : Valid t x' ∧ Words S (tokens t x')) (sep : Bool) (R R' : List Byte) (hR : Ends S R) (hR' : Ends S R')
    (e : body c sep (tokens t x) ++ R = body c sep (tokens t x') ++ R') : x = x' ∧ R = R' := by
  match t with
  | .int w s =>
    rw [tokens, tokens] at e
    exact number_unique hs hv.1 hv'.1 hR hR' (leaf_cancel e)
  | .bool =>
    rw [tokens, tokens] at e
    exact flag_unique (leaf_cancel e)
  | .char =>
    rw [tokens, tokens] at e
    exact List.cons.inj (leaf_cancel e)
  | .str =>
    rw [tokens, tokens] at e
    exact word_unique (hv.2 x (by simp [tokens])) (hv'.2 x' (by simp [tokens])) hR hR' (leaf_cancel e)
  | .tuple .nil =>
    rw [tokens, tokens] at e
    exact ⟨rfl, by simpa using e⟩
  | .tuple (.cons t ts) =>
    have he : ∀ y, tokens (.tuple (.cons t ts)) y = tokensTuple (.cons t ts) y := fun y => by simp only [tokens, tokensTuple]
    rw [he, he] at e
    exact bodyTuple_unique hs (.cons t ts) x x' ⟨by have := hv.1; rwa [Valid] at this, he x ▸ hv.2⟩
      ⟨by have := hv'.1; rwa [Valid] at this, he x' ▸ hv'.2⟩ sep R R' hR hR' e
  | .array n t =>
    have h1 := hv.1
    have h2 := hv'.1
    have w1 := hv.2
    have w2 := hv'.2
    simp only [Valid] at h1 h2
    rw [tokens] at w1 w2
    rw [tokens, tokens] at e
    match x, x' with
    | [], [] => exact ⟨rfl, by simpa using e⟩
    | [], _ :: _ => simp at h1 h2; omega
    | _ :: _, [] => simp at h1 h2; omega
    | y :: ys, y' :: ys' =>
      simp only [List.isEmpty_cons, Bool.false_eq_true, if_false] at e w1 w2
      exact list_unique hs (tokens_ne t) (P := fun z => Valid t z ∧ Words S (tokens t z)) (body_unique hs t) (y :: ys) (y' :: ys')
        (h1.1.trans h2.1.symm) (fun z hz => ⟨h1.2 z hz, fun u hu => w1 u (List.mem_flatMap.mpr ⟨z, hz, hu⟩)⟩)
        (fun z hz => ⟨h2.2 z hz, fun u hu => w2 u (List.mem_flatMap.mpr ⟨z, hz, hu⟩)⟩) sep R R' hR hR' e
  | .vec t =>
    have h1 := hv.1
    have h2 := hv'.1
    have w1 := hv.2
    have w2 := hv'.2
    simp only [Valid] at h1 h2
    rw [tokens] at w1 w2
    rw [tokens, tokens] at e
    exact sized_unique hs h1.1 h2.1 (P := fun z => Valid t z ∧ Words S (tokens t z))
      (fun z hz => ⟨h1.2 z hz, fun u hu => w1 u (List.mem_cons_of_mem _ (List.mem_flatMap.mpr ⟨z, hz, hu⟩))⟩)
      (fun z hz => ⟨h2.2 z hz, fun u hu => w2 u (List.mem_cons_of_mem _ (List.mem_flatMap.mpr ⟨z, hz, hu⟩))⟩)
      (body_unique hs t) hR hR' e
  | .seq t =>
    have h1 := hv.1
    have h2 := hv'.1
    have w1 := hv.2
    have w2 := hv'.2
    simp only [Valid] at h1 h2
    rw [tokens] at w1 w2
    rw [tokens, tokens] at e
    exact sized_unique hs h1.1 h2.1 (P := fun z => Valid t z ∧ Words S (tokens t z))
      (fun z hz => ⟨h1.2 z hz, fun u hu => w1 u (List.mem_cons_of_mem _ (List.mem_flatMap.mpr ⟨z, hz, hu⟩))⟩)
      (fun z hz => ⟨h2.2 z hz, fun u hu => w2 u (List.mem_cons_of_mem _ (List.mem_flatMap.mpr ⟨z, hz, hu⟩))⟩)
      (body_unique hs t) hR hR' e

theorem bodyTuple_unique (hs : Stops c S) (ts : Tys) (x x' : Vals ts) (hv : ValidTuple ts x ∧ Words S (tokensTuple ts x))
    (hv' : ValidTuple ts x' ∧ Words S (tokensTuple ts x')) (sep : Bool) (R R' : List Byte) (hR : Ends S R) (hR' : Ends S R')
    (e : body c sep (tokensTuple ts x) ++ R = body c sep (tokensTuple ts x') ++ R') : x = x' ∧ R = R' := by
  match ts with
  | .nil =>
    rw [tokensTuple, tokensTuple] at e
    exact ⟨rfl, by simpa using e⟩
  | .cons t ts =>
    have h1 := hv.1
    have h2 := hv'.1
    have w1 := hv.2
    have w2 := hv'.2
    rw [ValidTuple] at h1 h2
    rw [tokensTuple] at w1 w2
    rw [tokensTuple, tokensTuple, body_append (tokens_ne t x.1), body_append (tokens_ne t x'.1), List.append_assoc,
      List.append_assoc] at e
    obtain ⟨e1, e⟩ := body_unique hs t x.1 x'.1 ⟨h1.1, fun u hu => w1 u (by simp [hu])⟩ ⟨h2.1, fun u hu => w2 u (by simp [hu])⟩
      sep _ _ (ends_body hs hR _) (ends_body hs hR' _) e
    obtain ⟨e2, e⟩ := bodyTuple_unique hs ts x.2 x'.2 ⟨h1.2, fun u hu => w1 u (by simp [hu])⟩
      ⟨h2.2, fun u hu => w2 u (by simp [hu])⟩ true _ _ hR hR' e
    exact ⟨Prod.ext e1 e2, e⟩

end

/-- Texts of two values, each followed by nothing or by a separator and anything, are equal as a whole only if the values and what follows
are. Numbers may be zero, containers empty and characters anything; no string has the first byte of the separator in it. -/
theorem text_prefix (hs : c.Sound .spaced) {t : Ty} {x x' : Val t} (hv : Valid t x) (hv' : Valid t x')
    (hw : ∀ u, .word u ∈ tokens t x → ∀ b, c.space.head? = some b → b ∉ u)
    (hw' : ∀ u, .word u ∈ tokens t x' → ∀ b, c.space.head? = some b → b ∉ u) {s s' R R' : List Byte}
    (h : text c t x = some s) (h' : text c t x' = some s') (hR : R = [] ∨ ∃ q, R = c.space ++ q)
    (hR' : R' = [] ∨ ∃ q, R' = c.space ++ q) (e : s ++ R = s' ++ R') : x = x' ∧ R = R' := by
  rw [text, write_eq hs.base t x hv] at h
  rw [text, write_eq hs.base t x' hv'] at h'
  simp only [List.nil_append, Option.map_some, Option.some.injEq] at h h'
  subst h h'
  obtain ⟨b, q, hq, hd, hx⟩ := hs.space
  have hst : Stops c fun d => c.space.head? = some d :=
    ⟨hs.base, fun d h => by rw [hq, List.head?_cons, Option.some.injEq] at h; exact h ▸ ⟨hd, hx⟩, b, q, hq, by rw [hq]; rfl⟩
  have ends : ∀ {T : List Byte}, (T = [] ∨ ∃ q, T = c.space ++ q) → Ends (fun d => c.space.head? = some d) T := by
    rintro T (rfl | ⟨q, rfl⟩)
    · exact fun _ _ h => by cases h
    · exact ends_cons hst.space
  exact body_unique hst t x x' ⟨hv, fun u hu d hd h => hw u hu d h hd⟩ ⟨hv', fun u hu d hd h => hw' u hu d h hd⟩ false R R'
    (ends hR) (ends hR') e

/-- `(0, {})`, which is not read back (C98), is the only `std::pair<int, std::vector<bool>>` with the text `0 0`. -/
example {x : Val (.tuple (.cons (.int 32 true) (.cons (.vec .bool) .nil)))} (hv : Valid _ x)
    (h : text exCfg _ x = some (bytes "0 0")) : x = ((0 : Int), (([] : List Bool), ())) :=
  (text_prefix (exCfg_sound .spaced) hv
    (by
      simp only [Valid, ValidTuple, IntText.InRange]
      exact ⟨by decide, ⟨by decide, fun _ _ => trivial⟩, trivial⟩)
    (fun u hu => by
      simp [tokens, tokensTuple] at hu
      obtain ⟨_, -, hu⟩ := List.mem_flatMap.mp hu
      simp at hu)
    (fun u hu => by
      simp [tokens, tokensTuple] at hu
      obtain ⟨_, -, hu⟩ := List.mem_flatMap.mp hu
      simp at hu) h
    (show text exCfg _ _ = some (bytes "0 0") by decide +kernel) (.inl rfl) (.inl rfl) rfl).1

end Actl.TextTree
