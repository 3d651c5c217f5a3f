import Verif.Spec.TextAssoc
import Verif.Lemmas.TextTree
import Verif.Props.TextTree
import Verif.Props.BinaryAssoc

/-!
# C118: sets and maps as text
-/

namespace Actl.TextAssoc

open Actl.Text
open TextTree (Token Reader RSt St Pos NZ Rest White spc body)

variable {c : Cfg} {r : Reader} {less : Less}

/-! ### Writing -/

def tail (c : Cfg) (ps : List (Bool × Token)) : List Byte :=
  ps.flatMap fun q => (if q.1 then c.colon else c.text.space) ++ q.2.text c.text

def bodyA (c : Cfg) (sep : Bool) : List (Bool × Token) → List Byte
  | [] => []
  | p :: ps => spc c.text sep ++ p.2.text c.text ++ tail c ps

/-- The first piece is not behind a colon. -/
def Plain : List (Bool × Token) → Prop
  | [] => False
  | p :: _ => p.1 = false

theorem bodyA_append {sep : Bool} {a b : List (Bool × Token)} (h : a ≠ []) :
    bodyA c sep (a ++ b) = bodyA c sep a ++ tail c b := by
  cases a with
  | nil => exact absurd rfl h
  | cons p ps => simp [bodyA, tail]

theorem tail_plain {b : List (Bool × Token)} (h : Plain b) : tail c b = bodyA c true b := by
  cases b with
  | nil => exact absurd h id
  | cons p ps =>
    simp only [Plain] at h
    simp [bodyA, tail, h, spc]

theorem tail_colon {b : List (Bool × Token)} (h : Plain b) : tail c (behindColon b) = c.colon ++ bodyA c false b := by
  cases b with
  | nil => exact absurd h id
  | cons p ps => simp [bodyA, tail, spc, behindColon]

theorem bodyA_base (sep : Bool) (toks : List Token) :
    bodyA c sep (toks.map fun tok => (false, tok)) = body c.text sep toks := by
  have : ∀ ts : List Token, tail c (ts.map fun tok => (false, tok)) = body c.text true ts := by
    intro ts
    induction ts with
    | nil => rfl
    | cons t ts ih =>
      rw [body, ← ih]
      simp [tail, spc]
  cases toks with
  | nil => rfl
  | cons t ts => simp only [List.map_cons, bodyA, this, body]

theorem plain_base (t : TextTree.Ty) (x : TextTree.Val t) :
    Plain ((TextTree.tokens t x).map fun tok => (false, tok)) := by
  have := TextTree.tokens_ne t x
  cases h : TextTree.tokens t x with
  | nil => exact absurd h this
  | cons a b => rfl

theorem plain_append {a b : List (Bool × Token)} (h : Plain a) : Plain (a ++ b) := by
  cases a with
  | nil => exact absurd h id
  | cons p ps => exact h

theorem plain_ne {a : List (Bool × Token)} (h : Plain a) : a ≠ [] := by
  rintro rfl
  exact h

theorem pieces_plain (t : Ty) (x : Val t) : Plain (pieces t x) := by
  induction t with
  | base t => exact plain_base t x
  | pair a b iha ihb => exact plain_append (iha x.1)
  | vec t _ => rfl
  | set u t _ => rfl
  | map u k t _ => rfl

theorem writeAll_bodyA {α : Type} {w : α → St → Option St} {tk : α → List (Bool × Token)} (xs : List α)
    (hp : ∀ x, Plain (tk x))
    (h : ∀ x ∈ xs, ∀ o sep, ∃ b, w x ⟨o, sep⟩ = some ⟨o ++ bodyA c sep (tk x), b⟩ ∧ b = true) (o : List Byte) :
    TextTree.writeAll w xs ⟨o, true⟩ = some ⟨o ++ tail c (xs.flatMap tk), true⟩ := by
  induction xs generalizing o with
  | nil => simp [TextTree.writeAll, tail]
  | cons x xs ih =>
    obtain ⟨b, hb, rfl⟩ := h x (by simp) o true
    rw [TextTree.writeAll, hb, Option.bind_some, ih (fun y hy => h y (by simp [hy])), List.flatMap_cons,
      ← tail_plain (hp x)]
    simp [tail]

theorem container_bodyA {α : Type} (hb : 2 ≤ c.text.num.base ∧ c.text.num.base ≤ 36) {w : α → St → Option St}
    {tk : α → List (Bool × Token)} (xs : List α) (hn : xs.length < 2 ^ 63) (hp : ∀ x, Plain (tk x))
    (h : ∀ x ∈ xs, ∀ o sep, ∃ b, w x ⟨o, sep⟩ = some ⟨o ++ bodyA c sep (tk x), b⟩ ∧ b = true) (o : List Byte) (sep : Bool) :
    ((TextTree.writeSize c.text xs.length (((⟨o, sep⟩ : St).unit c.text).level true)).bind
      (TextTree.writeAll w xs)).map (St.level false) =
      some ⟨o ++ bodyA c sep ((false, .number 64 false xs.length) :: xs.flatMap tk), true⟩ := by
  rw [TextTree.unit_level, TextTree.writeSize_eq hb hn, Option.bind_some, writeAll_bodyA xs hp h]
  simp [St.level, bodyA, body, spc]

theorem write_bodyA (hb : 2 ≤ c.text.num.base ∧ c.text.num.base ≤ 36) (t : Ty) (x : Val t) (hv : Valid less t x)
    (o : List Byte) (sep : Bool) : write c t x ⟨o, sep⟩ = some ⟨o ++ bodyA c sep (pieces t x), true⟩ := by
  induction t generalizing o sep with
  | base t =>
    rw [write, pieces, bodyA_base]
    exact TextTree.write_eq hb t x hv o sep
  | pair a b iha ihb =>
    rw [write, pieces, TextTree.unit_level, iha x.1 hv.1, Option.bind_some, ihb x.2 hv.2,
      bodyA_append (plain_ne (pieces_plain a x.1)), tail_plain (pieces_plain b x.2)]
    have hne := plain_ne (pieces_plain a x.1)
    cases h : pieces a x.1 with
    | nil => exact absurd h hne
    | cons p ps => simp [bodyA, spc, St.level]
  | vec t ih =>
    exact container_bodyA hb x hv.1 (pieces_plain t) (fun y hy o sep => ⟨true, ih y (hv.2 y hy) o sep, rfl⟩) o sep
  | set u t ih =>
    exact container_bodyA hb x hv.1 (pieces_plain t) (fun y hy o sep => ⟨true, ih y (hv.2.2 y hy) o sep, rfl⟩) o sep
  | map u k t ih =>
    refine container_bodyA hb x hv.1 (fun e => plain_append (plain_base k e.1)) (fun y hy o sep => ⟨true, ?_, rfl⟩) o sep
    obtain ⟨h1, h2⟩ := hv.2.2 y hy
    rw [TextTree.write_eq hb k y.1 h1, Option.bind_some, writeColon, ih y.2 h2,
      bodyA_append (plain_ne (plain_base k y.1)), bodyA_base, tail_colon (pieces_plain t y.2)]
    simp

theorem valid_fits (t : Ty) (x : Val t) (hv : Valid less t x) : ∀ p ∈ pieces t x, p.2.Fits := by
  have hcol : ∀ l : List (Bool × Token), (∀ p ∈ l, p.2.Fits) → ∀ p ∈ behindColon l, p.2.Fits := by
    intro l h p hp
    cases l with
    | nil => simp [behindColon] at hp
    | cons q qs =>
      rcases List.mem_cons.mp hp with rfl | hp
      · exact h q (by simp)
      · exact h p (by simp [hp])
  induction t with
  | base t =>
    intro p hp
    obtain ⟨tok, ht, rfl⟩ := List.mem_map.mp hp
    exact TextTree.valid_tokens t x hv tok ht
  | pair a b iha ihb =>
    intro p hp
    rcases List.mem_append.mp hp with h | h
    · exact iha _ hv.1 p h
    · exact ihb _ hv.2 p h
  | vec t ih =>
    intro p hp
    rcases List.mem_cons.mp hp with rfl | h
    · exact TextTree.size_range hv.1
    · obtain ⟨a, ha, h⟩ := List.mem_flatMap.mp h
      exact ih a (hv.2 a ha) p h
  | set u t ih =>
    intro p hp
    rcases List.mem_cons.mp hp with rfl | h
    · exact TextTree.size_range hv.1
    · obtain ⟨a, ha, h⟩ := List.mem_flatMap.mp h
      exact ih a (hv.2.2 a ha) p h
  | map u k t ih =>
    intro p hp
    rcases List.mem_cons.mp hp with rfl | h
    · exact TextTree.size_range hv.1
    · obtain ⟨a, ha, h⟩ := List.mem_flatMap.mp h
      rcases List.mem_append.mp h with h | h
      · obtain ⟨tok, ht, rfl⟩ := List.mem_map.mp h
        exact TextTree.valid_tokens k a.1 (hv.2.2 a ha).1 tok ht
      · exact hcol _ (ih a.2 (hv.2.2 a ha).2) p h

/-- The text of a value with sets and maps: its pieces in order, the colon between each key and its value, the separator
between any other two pieces, and neither anywhere else. -/
theorem text_assoc (hb : 2 ≤ c.text.num.base ∧ c.text.num.base ≤ 36) (t : Ty) (x : Val t) (hv : Valid less t x) :
    ∃ texts : List (Bool × List Byte),
      List.Forall₂ (fun p q => p.1 = q.1 ∧ Token.Shows c.text p.2 q.2) (pieces t x) texts ∧
      text c t x = some (joined c texts) := by
  refine ⟨(pieces t x).map fun p => (p.1, p.2.text c.text), ?_, ?_⟩
  · rw [List.forall₂_map_right_iff, List.forall₂_same]
    exact fun p hp => ⟨rfl, TextTree.fits_shows hb (valid_fits t x hv p hp)⟩
  · rw [text, write_bodyA hb t x hv]
    cases pieces t x with
    | nil => simp [bodyA, joined]
    | cons p ps => simp [bodyA, joined, tail, spc, List.flatMap_map]

/-- `std::map<int, std::set<bool>>`. -/
abbrev exMap : Ty := .map true (.int 32 true) (.set true (.base .bool))

abbrev exMapVal : Val exMap := [((2 : Int), [true]), ((5 : Int), [false, true])]

/-- The comparisons of `std::less` for numbers and booleans (the others are not used in the examples). -/
def exLess : Less where
  elem t := match t with
    | .base (.int _ _) => fun (x y : Int) => decide (x < y)
    | .base .bool => fun (x y : Bool) => !x && y
    | _ => fun _ _ => false
  key k := match k with
    | .int _ _ => fun (x y : Int) => decide (x < y)
    | _ => fun _ _ => false

abbrev exColon : Cfg := ⟨TextTree.exCfg, bytes ": "⟩

example : Valid exLess exMap exMapVal ∧ text exColon exMap exMapVal = some (bytes "2 2: 1 true 5: 2 false true") := by
  refine ⟨⟨by decide, ?_, ?_⟩, by decide +kernel⟩
  · exact List.Pairwise.cons (by simp [exLess]) (List.pairwise_singleton _ _)
  · intro y hy
    rcases List.mem_cons.mp hy with rfl | hy
    · refine ⟨by simp [TextTree.Valid, IntText.InRange], by decide, List.pairwise_singleton _ _, fun _ _ => trivial⟩
    · obtain rfl := List.mem_singleton.mp hy
      refine ⟨by simp [TextTree.Valid, IntText.InRange], by decide,
        List.Pairwise.cons (fun a h => by obtain rfl := List.mem_singleton.mp h; rfl) (List.pairwise_singleton _ _), fun _ _ => trivial⟩

/-! ### Reading sets -/

/-- The pieces of a value without the colons. -/
abbrev toks (t : Ty) (x : Val t) : List Token := (pieces t x).map Prod.snd

def Fwd {α : Type} (c : TextTree.Cfg) (r : Reader) (f : RSt → Option (Bool × α × RSt)) (toks : List Token) (v : α)
    (strong : Bool) : Prop :=
  ∀ sep st rest, Rest c rest → Pos c r sep st toks rest → NZ c r toks rest →
    ∃ st' b, f st = some (true, v, st') ∧ Pos c r b st' [] rest ∧ (strong = true → b = true)

theorem Fwd.of {α : Type} {c : TextTree.Cfg} {f : RSt → Option (Bool × α × RSt)} {toks : List Token} {v : α} {b : Bool}
    (h : TextTree.Good c r f toks v b) : Fwd c r f toks v b := fun sep st rest hr hp => (h sep st rest hr hp).1

theorem Fwd.nested {α : Type} {c : TextTree.Cfg} {f : RSt → Option (Bool × α × RSt)} {toks : List Token} {v x : α}
    (hn : toks ≠ []) {b : Bool} (h : Fwd c r f toks v b) : Fwd c r (TextTree.nested c r f x) toks v true := by
  intro sep st rest hr hp hz
  obtain ⟨e, he, hpe, -⟩ := hp.enter hn
  obtain ⟨st', b', hf, hp', -⟩ := h _ _ _ hr hpe hz
  exact ⟨_, true, by simp [TextTree.nested, he, hf], hp'.level, fun _ => rfl⟩

theorem Fwd.bind {α β γ : Type} {c : TextTree.Cfg} (hs : c.Sound r) {f : RSt → Option (Bool × α × RSt)}
    {g : RSt → Option (Bool × β × RSt)} {a : α} {b : β} {ta tb : List Token} (hta : ta ≠ []) {str : Bool}
    (hf : Fwd c r f ta a true) (hg : Fwd c r g tb b str) {h : RSt → Option (Bool × γ × RSt)} {v : γ}
    (h1 : ∀ st s1 s2, f st = some (true, a, s1) → g s1 = some (true, b, s2) → h st = some (true, v, s2)) :
    Fwd c r h (ta ++ tb) v false := by
  intro sep st rest hr hp hz
  rw [TextTree.nz_append] at hz
  obtain ⟨s1, b1, e1, p1, hb1⟩ := hf _ _ _ (TextTree.rest_body hr tb) (hp.split hta) hz.1
  rw [hb1 rfl] at p1
  obtain ⟨s2, b2, e2, p2, -⟩ := hg _ _ _ hr (p1.join hs) hz.2
  exact ⟨s2, b2, h1 _ _ _ e1 e2, p2, by simp⟩

theorem fwd_nil {α : Type} {c : TextTree.Cfg} {f : RSt → Option (Bool × α × RSt)} {v : α}
    (h : ∀ s, f s = some (true, v, s)) : Fwd c r f [] v false := fun sep st _ _ hp _ =>
  ⟨st, sep, h st, hp, by simp⟩

theorem fwd_range {α : Type} {c : TextTree.Cfg} (hs : c.Sound r) {rd : α → RSt → Option (Bool × α × RSt)}
    {tk : α → List Token} (hne : ∀ x, tk x ≠ []) (xs ys : List α) (hl : ys.length = xs.length)
    (h : ∀ x ∈ xs, ∀ y ∈ ys, Fwd c r (rd y) (tk x) x true) :
    Fwd c r (TextTree.readRange rd ys) (xs.flatMap tk) xs false := by
  induction xs generalizing ys with
  | nil =>
    match ys, hl with
    | [], _ => exact fwd_nil (fun _ => rfl)
  | cons x xs ih =>
    match ys, hl with
    | y :: ys, hl =>
      rw [List.flatMap_cons]
      refine Fwd.bind hs (hne x) (h x (by simp) y (by simp))
        (ih ys (by simpa using hl) fun a ha b hb => h a (by simp [ha]) b (by simp [hb])) ?_
      intro st s1 s2 e1 e2
      simp [TextTree.readRange, e1, e2]

theorem fwd_emplace {α : Type} {c : TextTree.Cfg} (hs : c.Sound r) {u : Bool} {lt : α → α → Bool}
    {rd : α → RSt → Option (Bool × α × RSt)} {fresh : α} {tk : α → List Token} (hne : ∀ x, tk x ≠ []) (xs acc : List α)
    (ho : Ordered u lt (acc ++ xs)) (h : ∀ x ∈ xs, Fwd c r (rd fresh) (tk x) x true) :
    Fwd c r (readEmplace (BinaryAssoc.emplace u lt) rd fresh xs.length acc) (xs.flatMap tk) (acc ++ xs) false := by
  induction xs generalizing acc with
  | nil => exact fwd_nil (fun _ => by simp [readEmplace])
  | cons x xs ih =>
    rw [List.flatMap_cons]
    have hend : BinaryAssoc.emplace u lt x acc = acc ++ [x] := by
      apply BinaryAssoc.emplace_end
      intro y hy
      exact (List.pairwise_append.mp ho).2.2 y hy x (by simp)
    refine Fwd.bind hs (hne x) (h x (by simp)) (ih (acc ++ [x]) (by simpa using ho) fun a ha => h a (by simp [ha])) ?_
    intro st s1 s2 e1 e2
    simp only [List.length_cons, readEmplace, e1, Option.bind_some, if_true, hend, e2]
    simp

theorem fwd_container {α : Type} {c : TextTree.Cfg} (hs : c.Sound r) {tk : α → List Token} {xs old : List α}
    {el : Nat → RSt → Option (Bool × List α × RSt)} (hn : xs.length < 2 ^ 63)
    (hel : Fwd c r (el xs.length) (xs.flatMap tk) xs false) :
    Fwd c r (TextTree.readContainer c r old el) (.number 64 false xs.length :: xs.flatMap tk) xs false := by
  refine Fwd.bind hs (ta := [.number 64 false xs.length]) (by simp) (Fwd.of (TextTree.good_size hs hn)) hel ?_
  intro st s1 s2 e1 e2
  simp [TextTree.readContainer, e1, e2]

theorem ready_default (t : Ty) : Ready t (default t) := by
  induction t with
  | base t => exact TextTree.ready_default t
  | pair a b iha ihb => exact ⟨iha, ihb⟩
  | vec t _ => intro y hy; simp [default] at hy
  | set u t _ => rfl
  | map u k t _ => rfl

theorem toks_ne (t : Ty) (x : Val t) : toks t x ≠ [] := by
  simpa [toks] using plain_ne (pieces_plain t x)

theorem toks_vec {α : Type} (f : α → List (Bool × Token)) (p : Token) (x : List α) :
    ((false, p) :: List.flatMap f x).map Prod.snd = p :: List.flatMap (fun y => (f y).map Prod.snd) x := by
  simp [List.map_flatMap]

theorem fwd_read {c : TextTree.Cfg} (hs : c.Sound r) (colon : RSt → Option (Bool × RSt)) (t : Ty) (ht : NoMap t)
    (x y : Val t) (hv : Valid less t x) (hy : Ready t y) :
    Fwd c r (read c r less colon t y) (toks t x) x true := by
  induction t with
  | base t =>
    have : toks (.base t) x = TextTree.tokens t x := by
      simp only [toks, pieces, List.map_map]
      exact List.map_id _
    rw [this]
    exact Fwd.of (TextTree.good_read hs t x y hv hy)
  | pair a b iha ihb =>
    have : toks (.pair a b) x = toks a x.1 ++ toks b x.2 := List.map_append
    rw [this]
    refine Fwd.nested (fun h => toks_ne a x.1 (List.append_eq_nil_iff.mp h).1) (Fwd.bind hs (toks_ne a x.1) (iha ht.1 x.1 y.1 hv.1 hy.1)
      (ihb ht.2 x.2 y.2 hv.2 hy.2) ?_)
    intro st s1 s2 e1 e2
    simp only [e1, Option.bind_some, if_true, e2, Option.map_some]
    rfl
  | vec t ih =>
    have : toks (.vec t) x = .number 64 false (List.length x) :: List.flatMap (toks t) x := toks_vec _ _ _
    rw [this]
    refine Fwd.nested (by simp) (fwd_container hs hv.1 ?_)
    have hres : TextTree.resize (default t) (List.length x) y =
        some (List.take (List.length x) y ++ List.replicate (List.length x - List.length y) (default t)) :=
      if_pos hv.1
    rw [hres]
    refine fwd_range hs (toks_ne t) x _ (TextTree.resize_length hres) fun a ha b hb => ih ht a b (hv.2 a ha) ?_
    rcases List.mem_append.mp hb with h | h
    · exact hy b (List.mem_of_mem_take h)
    · rw [List.eq_of_mem_replicate h]; exact ready_default t
  | set u t ih =>
    have : toks (.set u t) x = .number 64 false (List.length x) :: List.flatMap (toks t) x := toks_vec _ _ _
    rw [this]
    have hy : y = ([] : List (Val t)) := hy
    subst hy
    refine Fwd.nested (by simp) (fwd_container hs hv.1 ?_)
    exact fwd_emplace hs (toks_ne t) x [] hv.2.1 fun a ha =>
      ih ht a _ (hv.2.2 a ha) (ready_default t)
  | map u k t _ => exact ht.elim

theorem pieces_noMap (t : Ty) (ht : NoMap t) (x : Val t) : ∀ p ∈ pieces t x, p.1 = false := by
  induction t with
  | base t =>
    intro p hp
    obtain ⟨tok, -, rfl⟩ := List.mem_map.mp hp
    rfl
  | pair a b iha ihb =>
    intro p hp
    rcases List.mem_append.mp hp with h | h
    · exact iha ht.1 _ p h
    · exact ihb ht.2 _ p h
  | vec t ih =>
    intro p hp
    rcases List.mem_cons.mp hp with rfl | h
    · rfl
    · obtain ⟨a, -, h⟩ := List.mem_flatMap.mp h
      exact ih ht a p h
  | set u t ih =>
    intro p hp
    rcases List.mem_cons.mp hp with rfl | h
    · rfl
    · obtain ⟨a, -, h⟩ := List.mem_flatMap.mp h
      exact ih ht a p h
  | map u k t _ => exact ht.elim

/-- Values with sets, multisets, pairs and vectors in any nesting: the text, also when followed by a separator and
`more`, reads back into any object whose sets are empty, if the value meets the conditions for lists in their place
(`TextTree.read_text_iff`, `TextTree.read_text_followed`): no zero before other text, no string that cannot be told from what
follows.  Reading stops before the separator, or behind a part of the whitespace. -/
theorem read_sets {c : Cfg} (hs : c.text.Sound r) (colon : RSt → Option (Bool × RSt)) {t : Ty} (ht : NoMap t)
    {x y : Val t} (hv : Valid less t x) (hy : Ready t y) {s : List Byte} (hw : text c t x = some s) {rest : List Byte}
    (hr : rest = [] ∨ ∃ more, rest = c.text.space ++ more)
    (hk : ∀ a p b, pieces t x = a ++ p :: b →
      p.2.Kept c.text r (b = [] ∧ rest = []) ((∀ q ∈ b, q.2.Blank) ∧ ∀ ch ∈ rest, isSpace ch = true)) :
    ∃ st, readBack c.text r less colon t y ⟨s ++ rest, false⟩ = some (true, x, st) ∧
      match r with
      | .spaced => st = ⟨rest, true⟩
      | .skipws => (∃ ws, (∀ b ∈ ws, isSpace b = true) ∧ st.d = ws ++ rest) ∨
          ((∀ b ∈ st.d, isSpace b = true) ∧ ∀ b ∈ rest, isSpace b = true) := by
  have hc : compiles t = true := by
    clear hk hw hv hy x y
    induction t with
    | base t => rfl
    | pair a b iha ihb => simp [compiles, iha ht.1, ihb ht.2]
    | vec t ih => exact ih ht
    | set u t ih => exact ih ht
    | map u k t _ => exact ht.elim
  rw [text, write_bodyA hs.base t x hv] at hw
  simp only [List.nil_append, Option.map_some, Option.some.injEq] at hw
  have hpl := pieces_noMap t ht x
  have hpm : pieces t x = (toks t x).map fun tok => (false, tok) := by
    rw [toks, List.map_map]
    symm
    rw [List.map_congr_left (g := id), List.map_id]
    intro p hp
    obtain ⟨b, tok⟩ := p
    have := hpl _ hp
    simp only at this
    subst this
    rfl
  rw [hpm, bodyA_base] at hw
  have hp : Pos c.text r false ⟨s ++ rest, false⟩ (toks t x) rest := by
    cases r with
    | spaced => exact ⟨rfl, by simp [hw]⟩
    | skipws => exact .inl ⟨[], by simp [White], by simp [hw]⟩
  have hz : NZ c.text r (toks t x) rest := by
    refine (TextTree.nz_kept hs ?_ hr).mpr ?_
    · intro tok htok
      obtain ⟨p, hp, rfl⟩ := List.mem_map.mp htok
      exact valid_fits t x hv p hp
    · intro a tok b e
      rw [hpm] at hk
      have := hk (a.map fun tok => (false, tok)) (false, tok) (b.map fun tok => (false, tok)) (by rw [e]; simp)
      simpa [White] using this
  obtain ⟨st, b, h1, h2, h3⟩ := fwd_read hs colon t ht x y hv hy _ _ _ hr hp hz
  refine ⟨st, by rw [readBack, if_pos hc, h1], ?_⟩
  rw [h3 rfl] at h2
  cases r with
  | spaced =>
    obtain ⟨e1, e2⟩ := h2
    obtain ⟨d, sep⟩ := st
    simp only [body, List.nil_append] at e1 e2
    rw [e1, e2]
  | skipws =>
    rcases h2 with ⟨ws, hw, hd⟩ | ⟨hw, hd⟩
    · exact .inl ⟨ws, hw, by rw [hd]; simp [body]⟩
    · simp only [body, List.nil_append] at hd
      exact .inr ⟨hw, hd⟩

/-- `std::pair<std::set<int>, std::multiset<bool>>`. -/
abbrev exSets : Ty := .pair (.set true (.base (.int 32 true))) (.set false (.base .bool))

abbrev exSetsVal : Val exSets := (([(-3 : Int), (7 : Int), (12 : Int)] : List Int), ([true, true] : List Bool))

example (r : Reader) (colon : RSt → Option (Bool × RSt)) :
    ∃ st, readBack TextTree.exCfg r exLess colon exSets (([] : List Int), ([] : List Bool))
      ⟨bytes "3 -3 7 12 2 true true", false⟩ = some (true, exSetsVal, st) := by
  have hv : Valid exLess exSets exSetsVal := by
    refine ⟨⟨by decide, ?_, ?_⟩, ⟨by decide, ?_, fun _ _ => trivial⟩⟩
    · show List.Pairwise (fun x y : Int => decide (x < y) = true) [-3, 7, 12]
      simp
    · intro y hy
      rcases List.mem_cons.mp hy with rfl | hy
      · simp [Valid, TextTree.Valid, IntText.InRange]
      · rcases List.mem_cons.mp hy with rfl | hy
        · simp [Valid, TextTree.Valid, IntText.InRange]
        · obtain rfl := List.mem_singleton.mp hy
          simp [Valid, TextTree.Valid, IntText.InRange]
    · exact List.Pairwise.cons (fun a h => by obtain rfl := List.mem_singleton.mp h; rfl) (List.pairwise_singleton _ _)
  have hall : ∀ p ∈ pieces exSets exSetsVal, p.2.Kept exColon.text r False False := by
    have hp : pieces exSets exSetsVal = [(false, .number 64 false 3), (false, .number 32 true (-3)),
        (false, .number 32 true 7), (false, .number 32 true 12), (false, .number 64 false 2), (false, .flag true),
        (false, .flag true)] := rfl
    rw [hp]
    simp [Token.Kept]
  obtain ⟨st, h, -⟩ := read_sets (c := exColon) (r := r) (less := exLess) (TextTree.exCfg_sound r) colon (t := exSets)
    ⟨trivial, trivial⟩ (y := (([] : List Int), ([] : List Bool))) hv ⟨rfl, rfl⟩
    (s := bytes "3 -3 7 12 2 true true") (by decide +kernel) (rest := []) (.inl rfl) fun a p b e => by
      have := hall p (by rw [e]; simp)
      obtain ⟨q, tok⟩ := p
      cases tok with
      | number w sg x => exact .inr (this.resolve_left id)
      | flag x => trivial
      | char x => exact this
      | nothing => trivial
      | word x => exact ⟨this.1, .inr (this.2.1.resolve_left id), fun h1 h2 => (this.2.2 h1 h2).elim⟩
  exact ⟨st, by simpa using h⟩

/-! ### Reading maps -/

theorem readEmplace_inv {α : Type} {P : α → Prop} {ins : α → List α → List α} {rd : α → RSt → Option (Bool × α × RSt)}
    {fresh : α} (hins : ∀ x xs, ∀ y ∈ ins x xs, y = x ∨ y ∈ xs)
    (hrd : ∀ s ok y s', rd fresh s = some (ok, y, s') → P y) (n : Nat) (xs : List α) (s : RSt) {ok : Bool} {ys : List α}
    {s' : RSt} (h : readEmplace ins rd fresh n xs s = some (ok, ys, s')) (hx : ∀ x ∈ xs, P x) : ∀ y ∈ ys, P y := by
  induction n generalizing xs s with
  | zero =>
    simp only [readEmplace, Option.some.injEq, Prod.mk.injEq] at h
    rw [← h.2.1]; exact hx
  | succ n ih =>
    rw [readEmplace, Option.bind_eq_some_iff] at h
    obtain ⟨⟨ok1, v, s1⟩, e1, h⟩ := h
    cases ok1 with
    | false =>
      simp only [Bool.false_eq_true, if_false, Option.some.injEq, Prod.mk.injEq] at h
      rw [← h.2.1]; exact hx
    | true =>
      simp only [if_true] at h
      refine ih _ _ h fun y hy => ?_
      rcases hins _ _ y hy with rfl | hy
      · exact hrd _ _ _ _ e1
      · exact hx y hy

theorem readRange_inv {α : Type} {P : α → Prop} {rd : α → RSt → Option (Bool × α × RSt)} (xs : List α)
    (hrd : ∀ x, P x → ∀ s ok y s', rd x s = some (ok, y, s') → P y) (s : RSt) {ok : Bool} {ys : List α}
    {s' : RSt} (h : TextTree.readRange rd xs s = some (ok, ys, s')) (hx : ∀ x ∈ xs, P x) : ∀ y ∈ ys, P y := by
  induction xs generalizing s ys with
  | nil =>
    simp only [TextTree.readRange, Option.some.injEq, Prod.mk.injEq] at h
    rw [← h.2.1]; exact hx
  | cons x xs ih =>
    rw [TextTree.readRange, Option.bind_eq_some_iff] at h
    obtain ⟨⟨ok1, v, s1⟩, e1, h⟩ := h
    have hv : P v := hrd x (hx x (by simp)) _ _ _ _ e1
    cases ok1 with
    | false =>
      simp only [Bool.false_eq_true, if_false, Option.some.injEq, Prod.mk.injEq] at h
      rw [← h.2.1]
      intro y hy
      rcases List.mem_cons.mp hy with rfl | hy
      · exact hv
      · exact hx y (by simp [hy])
    | true =>
      simp only [if_true, Option.map_eq_some_iff, Prod.mk.injEq] at h
      obtain ⟨⟨ok', l, s2⟩, e2, rfl, rfl, rfl⟩ := h
      intro y hy
      rcases List.mem_cons.mp hy with rfl | hy
      · exact hv
      · exact ih _ e2 (fun a ha => hx a (by simp [ha])) y hy

theorem nested_inv {α : Type} {c : TextTree.Cfg} {P : α → Prop} {f : RSt → Option (Bool × α × RSt)} {x : α} (hx : P x)
    (hf : ∀ s ok y s', f s = some (ok, y, s') → P y) {s s' : RSt} {ok : Bool} {y : α}
    (h : TextTree.nested c r f x s = some (ok, y, s')) : P y := by
  simp only [TextTree.nested, Option.bind_eq_some_iff] at h
  obtain ⟨⟨ok1, e⟩, -, h⟩ := h
  cases ok1 with
  | false => simp at h; rw [← h.2.1]; exact hx
  | true =>
    simp only [if_true, Option.map_eq_some_iff, Prod.mk.injEq] at h
    obtain ⟨⟨ok2, v, s1⟩, h, rfl, rfl, -⟩ := h
    exact hf _ _ _ _ h

theorem container_inv {α : Type} {c : TextTree.Cfg} {P : List α → Prop} {x : List α} (hx : P x)
    {el : Nat → RSt → Option (Bool × List α × RSt)} (hel : ∀ n s ok y s', el n s = some (ok, y, s') → P y) {s s' : RSt}
    {ok : Bool} {y : List α} (h : TextTree.readContainer c r x el s = some (ok, y, s')) : P y := by
  simp only [TextTree.readContainer, Option.bind_eq_some_iff] at h
  obtain ⟨⟨ok1, e⟩, -, h⟩ := h
  cases ok1 with
  | false => simp at h; rw [← h.2.1]; exact hx
  | true => exact hel _ _ _ _ _ h

theorem readEntry_inv {β : Type} {c : TextTree.Cfg} {P : β → Prop} {colon : RSt → Option (Bool × RSt)} {k : TextTree.Ty}
    {rd : β → RSt → Option (Bool × β × RSt)} {e y : TextTree.Val k × β} (he : P e.2)
    (hrd : ∀ s ok y s', rd e.2 s = some (ok, y, s') → P y) {s s' : RSt} {ok : Bool}
    (h : readEntry c r colon k rd e s = some (ok, y, s')) : y.1 = e.1 ∧ P y.2 := by
  rw [readEntry, Option.bind_eq_some_iff] at h
  obtain ⟨⟨ok1, s1⟩, -, h⟩ := h
  cases ok1 with
  | false =>
    simp only [Bool.false_eq_true, if_false, Option.some.injEq, Prod.mk.injEq] at h
    rw [← h.2.1]
    exact ⟨rfl, he⟩
  | true =>
    simp only [if_true, Option.bind_eq_some_iff] at h
    obtain ⟨⟨ok2, s2⟩, -, h⟩ := h
    cases ok2 with
    | false =>
      simp only [Bool.false_eq_true, if_false, Option.some.injEq, Prod.mk.injEq] at h
      rw [← h.2.1]
      exact ⟨rfl, he⟩
    | true =>
      simp only [if_true, Option.map_eq_some_iff, Prod.mk.injEq] at h
      obtain ⟨⟨ok3, v, s3⟩, h, -, rfl, -⟩ := h
      exact ⟨rfl, hrd _ _ _ _ h⟩

mutual

theorem allEmpty_default : ∀ k : TextTree.Ty, compilesKey k = true → AllEmpty k (TextTree.default k)
  | .str, _ => by simp only [AllEmpty, TextTree.default]; trivial
  | .tuple ts, h => by
    simp only [compilesKey] at h
    simp only [AllEmpty, TextTree.default]
    exact allEmpty_defaults ts h
  | .array n t, h => by
    simp only [compilesKey] at h
    simp only [AllEmpty, TextTree.default]
    refine ⟨List.length_replicate, fun y hy => ?_⟩
    rw [List.eq_of_mem_replicate hy]
    exact allEmpty_default t h
  | .int _ _, h => by simp [compilesKey] at h
  | .bool, h => by simp [compilesKey] at h
  | .char, h => by simp [compilesKey] at h
  | .vec _, h => by simp [compilesKey] at h
  | .seq _, h => by simp [compilesKey] at h

theorem allEmpty_defaults : ∀ ts : TextTree.Tys, compilesKeys ts = true → AllEmptyTuple ts (TextTree.defaults ts)
  | .nil, _ => by simp [AllEmptyTuple]
  | .cons t ts, h => by
    simp only [compilesKeys, Bool.and_eq_true] at h
    simp only [AllEmptyTuple, TextTree.defaults]
    exact ⟨allEmpty_default t h.1, allEmpty_defaults ts h.2⟩

end

theorem blank_default (t : Ty) (hc : compiles t = true) : BlankKeys t (default t) := by
  induction t with
  | base t => trivial
  | pair a b iha ihb =>
    simp only [compiles, Bool.and_eq_true] at hc
    exact ⟨iha hc.1, ihb hc.2⟩
  | vec t _ => intro y hy; simp [default] at hy
  | set u t _ => intro y hy; simp [default] at hy
  | map u k t _ => intro y hy; exact absurd hy List.not_mem_nil

theorem ready_blank (t : Ty) (hc : compiles t = true) (x : Val t) (hx : Ready t x) : BlankKeys t x := by
  induction t with
  | base t => trivial
  | pair a b iha ihb =>
    simp only [compiles, Bool.and_eq_true] at hc
    exact ⟨iha hc.1 _ hx.1, ihb hc.2 _ hx.2⟩
  | vec t ih => intro y hy; exact ih hc y (hx y hy)
  | set u t _ =>
    have hx : x = ([] : List (Val t)) := hx
    subst hx
    intro y hy
    exact absurd hy List.not_mem_nil
  | map u k t _ =>
    have hx : x = ([] : List (TextTree.Val k × Val t)) := hx
    subst hx
    intro y hy
    exact absurd hy List.not_mem_nil

theorem read_blank {c : TextTree.Cfg} (colon : RSt → Option (Bool × RSt)) (t : Ty) (hc : compiles t = true) (x : Val t)
    (hx : BlankKeys t x) {s s' : RSt} {ok : Bool} {y : Val t} (h : read c r less colon t x s = some (ok, y, s')) :
    BlankKeys t y := by
  induction t generalizing s s' ok with
  | base t => trivial
  | pair a b iha ihb =>
    simp only [compiles, Bool.and_eq_true] at hc
    refine nested_inv (P := BlankKeys (.pair a b)) hx ?_ h
    intro s ok y s' h
    rw [Option.bind_eq_some_iff] at h
    obtain ⟨⟨ok1, v, s1⟩, e1, h⟩ := h
    have h1 := iha hc.1 _ hx.1 e1
    cases ok1 with
    | false =>
      simp only [Bool.false_eq_true, if_false, Option.some.injEq] at h
      cases h
      exact ⟨h1, hx.2⟩
    | true =>
      simp only [if_true, Option.map_eq_some_iff, Prod.mk.injEq] at h
      obtain ⟨⟨ok', l, s2⟩, e2, rfl, rfl, rfl⟩ := h
      exact ⟨h1, ihb hc.2 _ hx.2 e2⟩
  | vec t ih =>
    refine nested_inv (P := BlankKeys (.vec t)) hx ?_ h
    intro s ok y s' h
    refine container_inv (P := BlankKeys (.vec t)) hx ?_ h
    intro n s ok y s' h
    rw [Option.bind_eq_some_iff] at h
    obtain ⟨ys, h1, h2⟩ := h
    refine readRange_inv (P := BlankKeys t) ys (fun a ha s ok y s' h => ih hc a ha h) s h2 ?_
    unfold TextTree.resize at h1
    split at h1
    · simp only [Option.some.injEq] at h1
      rw [← h1]
      intro a ha
      rcases List.mem_append.mp ha with h | h
      · exact hx a (List.mem_of_mem_take h)
      · rw [List.eq_of_mem_replicate h]; exact blank_default t hc
    · simp at h1
  | set u t ih =>
    refine nested_inv (P := BlankKeys (.set u t)) hx ?_ h
    intro s ok y s' h
    refine container_inv (P := BlankKeys (.set u t)) hx ?_ h
    intro n s ok y s' h
    exact readEmplace_inv (P := BlankKeys t) (fun _ _ => BinaryAssoc.emplace_keeps.2)
      (fun s ok y s' h => ih hc _ (blank_default t hc) h) n x s h hx
  | map u k t ih =>
    simp only [compiles, Bool.and_eq_true] at hc
    refine nested_inv (P := BlankKeys (.map u k t)) hx ?_ h
    intro s ok y s' h
    refine container_inv (P := BlankKeys (.map u k t)) hx ?_ h
    intro n s ok y s' h
    refine readEmplace_inv (P := fun e : TextTree.Val k × Val t => AllEmpty k e.1 ∧ BlankKeys t e.2)
      (fun _ _ => BinaryAssoc.emplace_keeps.2) (fun s ok y s' h => ?_) n x s h hx
    obtain ⟨h1, h2⟩ := readEntry_inv (P := BlankKeys t) (blank_default t hc.2)
      (fun s ok y s' h => ih hc.2 _ (blank_default t hc.2) h) h
    exact ⟨h1 ▸ allEmpty_default k hc.1, h2⟩

/-- The defect: keys of maps are never read.  Whatever the text, whatever is done about colons, and whether or not reading
succeeds, all keys of the maps in the object afterwards are empty strings, or arrays or tuples of them; a value with any other key is never read
back. -/
theorem read_maps_fails {c : TextTree.Cfg} (colon : RSt → Option (Bool × RSt)) {t : Ty} {old y : Val t}
    (ho : Ready t old) {s s' : RSt} {ok : Bool} (h : readBack c r less colon t old s = some (ok, y, s')) :
    BlankKeys t y := by
  unfold readBack at h
  split at h
  · rename_i hc
    exact read_blank colon t hc old (ready_blank t hc old ho) h
  · simp at h

theorem readEmplace_one {α κ : Type} {less : κ → κ → Bool} (hi : ∀ a, less a a = false) {f : α → κ} {z : κ}
    {rd : α → RSt → Option (Bool × α × RSt)} {fresh : α} (hrd : ∀ s ok y s', rd fresh s = some (ok, y, s') → f y = z)
    (n : Nat) (xs : List α) (s : RSt) {ok : Bool} {ys : List α} {s' : RSt}
    (h : readEmplace (BinaryAssoc.emplace true fun a b => less (f a) (f b)) rd fresh n xs s = some (ok, ys, s'))
    (hx : xs = [] ∨ ∃ x, xs = [x] ∧ f x = z) : List.length ys ≤ 1 := by
  induction n generalizing xs s with
  | zero =>
    simp only [readEmplace, Option.some.injEq, Prod.mk.injEq] at h
    rcases hx with rfl | ⟨x, rfl, -⟩ <;> simp [← h.2.1]
  | succ n ih =>
    rw [readEmplace, Option.bind_eq_some_iff] at h
    obtain ⟨⟨ok1, v, s1⟩, e1, h⟩ := h
    cases ok1 with
    | false =>
      simp only [Bool.false_eq_true, if_false, Option.some.injEq, Prod.mk.injEq] at h
      rcases hx with rfl | ⟨x, rfl, -⟩ <;> simp [← h.2.1]
    | true =>
      simp only [if_true] at h
      have hv := hrd _ _ _ _ e1
      refine ih _ _ h (Or.inr ?_)
      rcases hx with rfl | ⟨x, rfl, hx⟩
      · exact ⟨v, rfl, hv⟩
      · refine ⟨x, ?_, hx⟩
        simp [BinaryAssoc.emplace, hx, hv, hi]

/-- So a `std::map` with two elements or more is never read back: whatever the text, at most one element is in the map
afterwards. -/
theorem read_map_one_fails {c : TextTree.Cfg} (colon : RSt → Option (Bool × RSt)) {k : TextTree.Ty} {t : Ty}
    (hi : ∀ a, less.key k a a = false) {y : List (TextTree.Val k × Val t)} {s s' : RSt} {ok : Bool}
    (h : readBack c r less colon (.map true k t) ([] : List (TextTree.Val k × Val t)) s = some (ok, y, s')) :
    y.length ≤ 1 := by
  unfold readBack at h
  split at h
  · refine nested_inv (P := fun y : List (TextTree.Val k × Val t) => y.length ≤ 1) (by simp) ?_ h
    intro s ok y s' h
    refine container_inv (P := fun y : List (TextTree.Val k × Val t) => y.length ≤ 1) (by simp) ?_ h
    intro n s ok y s' h
    refine readEmplace_one (f := Prod.fst) (z := TextTree.default k) hi (fun s ok y s' h => ?_) n _ s h (Or.inl rfl)
    exact (readEntry_inv (P := fun _ => True) trivial (fun _ _ _ _ _ => trivial) h).1
  · simp at h

/-- `{"a": 5}` is written as `1 a 5`; reading it compares nothing with the key and fails at the value. -/
example : text ⟨TextTree.exCfg, bytes " "⟩ (.map true .str (.base (.int 32 true))) [(bytes "a", (5 : Int))] =
      some (bytes "1 a 5") ∧
    (readBack TextTree.exCfg .skipws exLess (fun s => some (true, s)) (.map true .str (.base (.int 32 true))) []
      ⟨bytes "1 a 5", false⟩).map (fun p => (p.1, List.length p.2.1, p.2.2.d)) = some (false, 0, bytes "a 5") := by
  decide +kernel

/-- A key of two strings, both empty: the only one that can be read, once. -/
example : (readBack TextTree.exCfg .skipws exLess (fun s => some (true, s))
      (.map true (.tuple (.cons .str (.cons .str .nil))) (.base (.int 32 true))) [] ⟨bytes "2 5 6 ", false⟩).map
      (fun p => (p.1, List.map (fun e => (show Int from e.2)) p.2.1, p.2.2.d)) = some (true, [(5 : Int)], bytes " ") ∧
    (readBack TextTree.exCfg .skipws exLess (fun s => some (true, s))
      (.map true (.array 2 .str) (.base (.int 32 true))) [] ⟨bytes "1 a b 5", false⟩).map
      (fun p => (p.1, List.length p.2.1, p.2.2.d)) = some (false, 0, bytes "a b 5") := by
  decide +kernel

end Actl.TextAssoc
