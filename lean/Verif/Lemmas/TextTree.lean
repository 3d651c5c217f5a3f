import Verif.Spec.TextTree
import Verif.Props.IntParse
import Verif.Props.Parser
import Verif.Props.Till

namespace Actl.TextTree

open Actl.Text

variable {c : Cfg} {r : Reader}

/-! ### The text -/

def Token.text (c : Cfg) : Token → List Byte
  | .number w signed x => (IntText.encode w signed c.num x).getD []
  | .flag x => Parser.encodeBool c.alpha x
  | .char x => [x]
  | .word x => x
  | .nothing => []

def spc (c : Cfg) (sep : Bool) : List Byte := if sep then c.space else []

def body (c : Cfg) : Bool → List Token → List Byte
  | _, [] => []
  | sep, t :: ts => spc c sep ++ t.text c ++ body c true ts

theorem body_append {sep : Bool} {a b : List Token} (h : a ≠ []) :
    body c sep (a ++ b) = body c sep a ++ body c true b := by
  induction a generalizing sep with
  | nil => exact absurd rfl h
  | cons t ts ih =>
    cases ts with
    | nil => simp [body]
    | cons u us => rw [List.cons_append, body, ih (by simp)]; simp [body]

theorem body_append_true {a b : List Token} : body c true (a ++ b) = body c true a ++ body c true b := by
  cases a with
  | nil => simp [body]
  | cons t ts => exact body_append (by simp)

theorem body_sep {sep : Bool} {a : List Token} (h : a ≠ []) : body c sep a = spc c sep ++ body c false a := by
  cases a with
  | nil => exact absurd rfl h
  | cons t ts => simp [body, spc]

theorem tokens_ne (t : Ty) (x : Val t) : tokens t x ≠ [] := by
  match t with
  | .int w s => simp [tokens]
  | .bool => simp [tokens]
  | .char => simp [tokens]
  | .str => simp [tokens]
  | .tuple .nil => simp [tokens]
  | .tuple (.cons t ts) =>
    rw [tokens]
    have := tokens_ne t x.1
    simp [this]
  | .array n t =>
    rw [tokens]
    split
    · simp
    · rename_i h
      match x, h with
      | y :: ys, _ =>
        have := tokens_ne t y
        simp [this]
  | .vec t => simp [tokens]
  | .seq t => simp [tokens]

theorem wide {w : Nat} {signed : Bool} (h : (if signed then 32 else 8) ≤ w) : 8 ≤ w := by
  cases signed <;> simp at h <;> omega

theorem encode_some (hb : 2 ≤ c.num.base ∧ c.num.base ≤ 36) {w : Nat} {signed : Bool} {x : Int}
    (h : (if signed then 32 else 8) ≤ w ∧ w ≤ 126 ∧ IntText.InRange w signed x) :
    IntText.encode w signed c.num x = some ((Token.number w signed x).text c) := by
  obtain ⟨ds, he, -⟩ := IntText.encode_correct (f := c.num) (by have := wide h.1; omega : 3 ≤ w) h.2.1 (.inr hb) h.2.2
  simp [Token.text, he]

theorem size_range {n : Nat} (h : n < 2 ^ 63) : (if false then 32 else 8) ≤ 64 ∧ 64 ≤ 126 ∧ IntText.InRange 64 false (n : Int) := by
  refine ⟨by simp, by omega, ?_⟩
  simp only [IntText.InRange, Bool.false_eq_true, if_false]
  exact ⟨by omega, by omega⟩

theorem writeLeaf_eq {tok : Token} {o : List Byte} {sep : Bool} :
    writeLeaf c (some (tok.text c)) ⟨o, sep⟩ = some ⟨o ++ body c sep [tok], true⟩ := by
  cases sep <;> simp [writeLeaf, St.unit, body, spc]

theorem unit_level {o : List Byte} {sep : Bool} :
    ((⟨o, sep⟩ : St).unit c).level true = ⟨o ++ spc c sep, false⟩ := by
  cases sep <;> simp [St.unit, St.level, spc]

theorem writeSize_eq (hb : 2 ≤ c.num.base ∧ c.num.base ≤ 36) {n : Nat} (h : n < 2 ^ 63) {o : List Byte} {sep : Bool} :
    writeSize c n ⟨o, sep⟩ = some ⟨o ++ body c sep [.number 64 false n], true⟩ := by
  rw [writeSize, encode_some hb (size_range h), unit_level, writeLeaf_eq]
  simp [St.level, body, spc]

theorem writeAll_eq {α : Type} {w : α → St → Option St} {tk : α → List Token} (xs : List α)
    (hne : ∀ x, tk x ≠ [])
    (h : ∀ x ∈ xs, ∀ o sep, w x ⟨o, sep⟩ = some ⟨o ++ body c sep (tk x), true⟩) (o : List Byte) (sep : Bool) :
    ∃ b, writeAll w xs ⟨o, sep⟩ = some ⟨o ++ body c sep (xs.flatMap tk), b⟩ := by
  induction xs generalizing o sep with
  | nil => exact ⟨sep, by simp [writeAll, body]⟩
  | cons x xs ih =>
    obtain ⟨b, hb⟩ := ih (fun y hy => h y (by simp [hy])) (o ++ body c sep (tk x)) true
    refine ⟨b, ?_⟩
    rw [writeAll, h x (by simp), Option.bind_some, hb, List.flatMap_cons, body_append (hne x)]
    simp

mutual

theorem write_eq (hb : 2 ≤ c.num.base ∧ c.num.base ≤ 36) (t : Ty) (x : Val t) (hv : Valid t x) (o : List Byte)
    (sep : Bool) : write c t x ⟨o, sep⟩ = some ⟨o ++ body c sep (tokens t x), true⟩ := by
  match t with
  | .int w s =>
    rw [Valid] at hv
    rw [write, tokens, encode_some hb hv, writeLeaf_eq]
  | .bool =>
    rw [write, tokens]
    exact writeLeaf_eq (tok := .flag x)
  | .char =>
    rw [write, tokens]
    exact writeLeaf_eq (tok := .char x)
  | .str =>
    rw [write, tokens]
    exact writeLeaf_eq (tok := .word x)
  | .tuple .nil =>
    rw [write, unit_level]
    simp [writeTuple, tokens, St.level, body, Token.text]
  | .tuple (.cons t ts) =>
    rw [Valid] at hv
    obtain ⟨b, h⟩ := writeTuple_eq hb (.cons t ts) x hv (o ++ spc c sep) false
    rw [write, unit_level, h]
    have he : tokens (.tuple (.cons t ts)) x = tokensTuple (.cons t ts) x := by simp only [tokens, tokensTuple]
    have hn : tokensTuple (.cons t ts) x ≠ [] := he ▸ tokens_ne _ x
    rw [he, body_sep (sep := sep) hn]
    simp [St.level]
  | .array n t =>
    rw [Valid] at hv
    obtain ⟨b, h⟩ := writeAll_eq (c := c) (w := write c t) (tk := tokens t) x (tokens_ne t)
      (fun y hy => write_eq hb t y (hv.2 y hy)) (o ++ spc c sep) false
    rw [write, tokens, unit_level, h]
    match x with
    | [] => simp [St.level, body, Token.text]
    | y :: ys =>
      have : List.flatMap (tokens t) (y :: ys) ≠ [] := by simp [tokens_ne]
      simp [St.level, body_sep (sep := sep) this, -List.flatMap_cons]
  | .vec t =>
    rw [Valid] at hv
    obtain ⟨b, h⟩ := writeAll_eq (c := c) (w := write c t) (tk := tokens t) x (tokens_ne t)
      (fun y hy => write_eq hb t y (hv.2 y hy)) (o ++ spc c sep ++ body c false [.number 64 false (List.length x)]) true
    rw [write, tokens, unit_level, writeSize_eq hb hv.1, Option.bind_some, h]
    simp [St.level, body, spc]
  | .seq t =>
    rw [Valid] at hv
    obtain ⟨b, h⟩ := writeAll_eq (c := c) (w := write c t) (tk := tokens t) x (tokens_ne t)
      (fun y hy => write_eq hb t y (hv.2 y hy)) (o ++ spc c sep ++ body c false [.number 64 false (List.length x)]) true
    rw [write, tokens, unit_level, writeSize_eq hb hv.1, Option.bind_some, h]
    simp [St.level, body, spc]

theorem writeTuple_eq (hb : 2 ≤ c.num.base ∧ c.num.base ≤ 36) (ts : Tys) (x : Vals ts) (hv : ValidTuple ts x)
    (o : List Byte) (sep : Bool) :
    ∃ b, writeTuple c ts x ⟨o, sep⟩ = some ⟨o ++ body c sep (tokensTuple ts x), b⟩ := by
  match ts with
  | .nil => exact ⟨sep, by simp [writeTuple, tokensTuple, body]⟩
  | .cons t ts =>
    rw [ValidTuple] at hv
    obtain ⟨b, h⟩ := writeTuple_eq hb ts x.2 hv.2 (o ++ body c sep (tokens t x.1)) true
    refine ⟨b, ?_⟩
    rw [writeTuple, write_eq hb t x.1 hv.1, Option.bind_some, h, tokensTuple, body_append (tokens_ne t x.1)]
    simp

end

theorem body_intercalate (toks : List Token) :
    body c false toks = c.space.intercalate (toks.map (Token.text c)) := by
  induction toks with
  | nil => rfl
  | cons t ts ih =>
    cases ts with
    | nil => simp [body, spc, List.intercalate]
    | cons u us =>
      rw [body, body_sep (sep := true) (by simp), ih]
      simp [spc, List.intercalate]

def Token.Fits : Token → Prop
  | .number w signed x => (if signed then 32 else 8) ≤ w ∧ w ≤ 126 ∧ IntText.InRange w signed x
  | _ => True

mutual

theorem valid_tokens (t : Ty) (x : Val t) (hv : Valid t x) : ∀ tok ∈ tokens t x, tok.Fits := by
  match t with
  | .int w s => intro tok h; rw [tokens, List.mem_singleton] at h; subst h; exact hv
  | .bool => intro tok h; rw [tokens, List.mem_singleton] at h; subst h; trivial
  | .char => intro tok h; rw [tokens, List.mem_singleton] at h; subst h; trivial
  | .str => intro tok h; rw [tokens, List.mem_singleton] at h; subst h; trivial
  | .tuple .nil => intro tok h; rw [tokens, List.mem_singleton] at h; subst h; trivial
  | .tuple (.cons t ts) => exact valid_tokensTuple (.cons t ts) x hv
  | .array n t =>
    intro tok h
    simp only [Valid] at hv
    rw [tokens] at h
    split at h
    · rw [List.mem_singleton] at h; subst h; trivial
    · obtain ⟨a, ha, h⟩ := List.mem_flatMap.mp h
      exact valid_tokens t a (hv.2 a ha) tok h
  | .vec t =>
    intro tok h
    simp only [Valid] at hv
    rw [tokens] at h
    rcases List.mem_cons.mp h with rfl | h
    · exact size_range hv.1
    · obtain ⟨a, ha, h⟩ := List.mem_flatMap.mp h
      exact valid_tokens t a (hv.2 a ha) tok h
  | .seq t =>
    intro tok h
    simp only [Valid] at hv
    rw [tokens] at h
    rcases List.mem_cons.mp h with rfl | h
    · exact size_range hv.1
    · obtain ⟨a, ha, h⟩ := List.mem_flatMap.mp h
      exact valid_tokens t a (hv.2 a ha) tok h

theorem valid_tokensTuple (ts : Tys) (x : Vals ts) (hv : ValidTuple ts x) : ∀ tok ∈ tokensTuple ts x, tok.Fits := by
  match ts with
  | .nil => intro tok h; simp [tokensTuple] at h
  | .cons t ts =>
    intro tok h
    rw [tokensTuple] at h
    rcases List.mem_append.mp h with h | h
    · exact valid_tokens t x.1 hv.1 tok h
    · exact valid_tokensTuple ts x.2 hv.2 tok h

end

/-! ### Positions -/

def White (l : List Byte) : Prop := ∀ b ∈ l, isSpace b = true

def Pos (c : Cfg) (r : Reader) (sep : Bool) (st : RSt) (toks : List Token) (rest : List Byte) : Prop :=
  match r with
  | .spaced => st.separate = sep ∧ st.d = body c sep toks ++ rest
  | .skipws => (∃ ws, White ws ∧ st.d = ws ++ body c false toks ++ rest) ∨
      (White st.d ∧ White (body c false toks ++ rest))

theorem white_append {a b : List Byte} : White (a ++ b) ↔ White a ∧ White b := by
  simp only [White, List.mem_append]
  exact ⟨fun h => ⟨fun x hx => h x (.inl hx), fun x hx => h x (.inr hx)⟩,
    fun h x hx => hx.elim (h.1 x) (h.2 x)⟩

def Rest (c : Cfg) (rest : List Byte) : Prop := rest = [] ∨ ∃ s, rest = c.space ++ s

theorem rest_body {rest : List Byte} (h : Rest c rest) (b : List Token) : Rest c (body c true b ++ rest) := by
  cases b with
  | nil => simpa [body] using h
  | cons t ts => exact .inr ⟨_, by simp [body, spc]; rfl⟩

theorem Pos.split {sep : Bool} {st : RSt} {a b : List Token} {rest : List Byte} (ha : a ≠ [])
    (h : Pos c r sep st (a ++ b) rest) : Pos c r sep st a (body c true b ++ rest) := by
  cases r with
  | spaced => exact ⟨h.1, by rw [h.2, body_append ha]; simp⟩
  | skipws =>
    rcases h with ⟨ws, hw, hd⟩ | ⟨hw, hd⟩
    · exact .inl ⟨ws, hw, by rw [hd, body_append ha]; simp⟩
    · exact .inr ⟨hw, by rwa [body_append ha, List.append_assoc] at hd⟩

theorem Pos.join (hs : c.Sound r) {st : RSt} {b : List Token} {rest : List Byte}
    (h : Pos c r true st [] (body c true b ++ rest)) : Pos c r true st b rest := by
  cases r with
  | spaced => exact ⟨h.1, by rw [h.2]; simp [body]⟩
  | skipws =>
    rcases h with ⟨ws, hw, hd⟩ | ⟨hw, hd⟩
    · cases b with
      | nil => exact .inl ⟨ws, hw, by rw [hd]; simp [body]⟩
      | cons t ts =>
        refine .inl ⟨ws ++ c.space, ?_, by rw [hd]; simp [body, spc]⟩
        exact white_append.mpr ⟨hw, hs.white rfl⟩
    · refine .inr ⟨hw, ?_⟩
      cases b with
      | nil => simpa [body] using hd
      | cons t ts =>
        simp only [body, spc, if_true, List.nil_append, List.append_assoc, white_append] at hd
        simpa [body, spc, white_append] using hd.2

theorem Pos.level {b : Bool} {st : RSt} {rest : List Byte} (h : Pos c r b st [] rest) :
    Pos c r true (st.level false) [] rest := by
  cases r with
  | spaced => exact ⟨rfl, by simpa [body, RSt.level] using h.2⟩
  | skipws => exact h

theorem buffers_ne (d : List Byte) : ∀ s ∈ buffers d, s ≠ [] := by
  intro s h
  unfold buffers at h
  split at h
  · simp at h
  · simp at h; rw [h]; assumption

theorem buffers_flatten (d : List Byte) : (buffers d).flatten = d := by
  unfold buffers
  split
  · simp [*]
  · simp

theorem Pos.enter {sep : Bool} {st : RSt} {toks : List Token} {rest : List Byte} (hn : toks ≠ [])
    (h : Pos c r sep st toks rest) :
    ∃ e, enter c r st = some (true, e) ∧ Pos c r false (e.level true) toks rest ∧
      (r = .spaced → e.separate = true) := by
  cases r with
  | skipws => exact ⟨st, rfl, h, by simp⟩
  | spaced =>
    obtain ⟨h1, h2⟩ := h
    rw [body_sep hn] at h2
    have := Parser.readConst_success (spc c sep) (buffers st.d) (buffers_ne _)
      (by rw [buffers_flatten, h2]; simp)
    refine ⟨⟨body c false toks ++ rest, true⟩, ?_, ⟨rfl, by simp [RSt.level]⟩, fun _ => rfl⟩
    simp only [TextTree.enter]
    rw [h1, show (if sep = true then c.space else []) = spc c sep from rfl, this, h2]
    simp

/-! ### Zeros -/

def Token.Fine (r : Reader) (after : List Byte) : Token → Prop
  | .number _ _ x => after ≠ [] → x ≠ 0
  | .char x => r = .skipws → isSpace x = false
  | .word x => (∀ b ∈ x, isSpace b = false) ∧ (∀ b s, after = b :: s → isSpace b = true) ∧
      (r = .skipws → x = [] → White after)
  | _ => True

def NZ (c : Cfg) (r : Reader) : List Token → List Byte → Prop
  | [], _ => True
  | t :: ts, rest => t.Fine r (body c true ts ++ rest) ∧ NZ c r ts rest

theorem nz_append {a b : List Token} {rest : List Byte} :
    NZ c r (a ++ b) rest ↔ NZ c r a (body c true b ++ rest) ∧ NZ c r b rest := by
  induction a with
  | nil => simp [NZ]
  | cons t ts ih => simp only [List.cons_append, NZ, ih, body_append_true, List.append_assoc, and_assoc]

/-! ### Combinators -/

def Good {α : Type} (c : Cfg) (r : Reader) (f : RSt → Option (Bool × α × RSt)) (toks : List Token) (v : α)
    (strong : Bool) : Prop :=
  ∀ sep st rest, Rest c rest → Pos c r sep st toks rest →
    (NZ c r toks rest → ∃ st' b, f st = some (true, v, st') ∧ Pos c r b st' [] rest ∧ (strong = true → b = true)) ∧
    (¬ NZ c r toks rest → ∀ st', f st ≠ some (true, v, st'))

theorem Good.nested {α : Type} {f : RSt → Option (Bool × α × RSt)} {toks : List Token} {v x : α}
    (hn : toks ≠ []) {b : Bool} (h : Good c r f toks v b) : Good c r (nested c r f x) toks v true := by
  intro sep st rest hr hp
  obtain ⟨e, he, hpe, -⟩ := hp.enter hn
  obtain ⟨g1, g2⟩ := h _ _ _ hr hpe
  constructor
  · intro hz
    obtain ⟨st', b', hf, hp', -⟩ := g1 hz
    exact ⟨_, true, by simp [TextTree.nested, he, hf], hp'.level, fun _ => rfl⟩
  · intro hz st' heq
    simp only [TextTree.nested, he, Option.bind_some, if_true, Option.map_eq_some_iff] at heq
    obtain ⟨⟨ok, v', s'⟩, hf, heq⟩ := heq
    simp only [Prod.mk.injEq] at heq
    obtain ⟨rfl, rfl, -⟩ := heq
    exact g2 hz _ hf

theorem Good.nested_nothing {α : Type} {f : RSt → Option (Bool × α × RSt)} {v x : α}
    {b : Bool} (h : Good c r f [] v b) : Good c r (TextTree.nested c r f x) [.nothing] v true := by
  intro sep st rest hr hp
  obtain ⟨e, he, hpe, -⟩ := hp.enter (by simp)
  have hpe' : Pos c r false (e.level true) [] rest := by
    cases r <;> simpa [Pos, body, Token.text, spc] using hpe
  obtain ⟨g1, -⟩ := h _ _ _ hr hpe'
  refine ⟨fun _ => ?_, fun hz => absurd ⟨trivial, trivial⟩ hz⟩
  obtain ⟨st', b', hf, hp', -⟩ := g1 trivial
  exact ⟨_, true, by simp [TextTree.nested, he, hf], hp'.level, fun _ => rfl⟩

theorem Good.leaf {α : Type} {parse : List (List Byte) → Option (Nat × Option α)} {tok : Token} {v x : α}
    (hne : ∃ b s, tok.text c = b :: s ∧ isSpace b = false)
    (hok : ∀ rest, Rest c rest → tok.Fine r rest →
      parse (buffers (tok.text c ++ rest)) = some ((tok.text c).length, some v))
    (hbad : ∀ rest, Rest c rest → ¬ tok.Fine r rest → ∃ u, u ≠ v ∧
      parse (buffers (tok.text c ++ rest)) = some ((tok.text c).length, some u)) :
    Good c r (readLeaf c r parse x) [tok] v true := by
  intro sep st rest hr hp
  have hen : ∃ e, enterLeaf c r st = some (true, e) ∧ e.d = tok.text c ++ rest ∧
      (r = .spaced → e.separate = true) := by
    cases r with
    | skipws =>
      obtain ⟨b, s, hb, hsp⟩ := hne
      obtain ⟨ws, hw, hd⟩ | ⟨hw, hd⟩ := hp
      case inr =>
        have := hd b (by simp [body, spc, hb])
        rw [hsp] at this
        exact absurd this (by simp)
      refine ⟨_, rfl, ?_, by simp⟩
      simp only [hd, body, spc, hb]
      rw [List.append_assoc, List.dropWhile_append_of_pos hw]
      simp [hsp]
    | spaced =>
      obtain ⟨e, he, hpe, hsep⟩ := Pos.enter (by simp) hp
      exact ⟨e, he, by simpa [Pos, body, spc, RSt.level] using hpe, hsep⟩
  obtain ⟨e, he, hd, hsep⟩ := hen
  have hdrop : e.d.drop (tok.text c).length = rest := by rw [hd]; simp
  constructor
  · intro hz
    have := hok rest hr (by simpa [NZ, body] using hz)
    refine ⟨{ e with d := rest }, true, ?_, ?_, fun _ => rfl⟩
    · rw [← hd] at this
      simp [readLeaf, he, this, hdrop]
    · cases r with
      | spaced => exact ⟨hsep rfl, by simp [body]⟩
      | skipws => exact .inl ⟨[], by simp [White], by simp [body]⟩
  · intro hz st' heq
    simp only [NZ, body, List.nil_append, and_true] at hz
    obtain ⟨u, hu, hp⟩ := hbad rest hr hz
    rw [← hd] at hp
    simp [readLeaf, he, hp] at heq
    exact hu heq.1

theorem nonspace_digit : ∀ b : Byte, isSpace b = true → IntText.digitVal b = none := by decide +kernel

theorem number_head (hb : 2 ≤ c.num.base ∧ c.num.base ≤ 36) {w : Nat} {signed : Bool} {x : Int}
    (h : (if signed then 32 else 8) ≤ w ∧ w ≤ 126 ∧ IntText.InRange w signed x) :
    ∃ b s, (Token.number w signed x).text c = b :: s ∧ isSpace b = false := by
  obtain ⟨ds, he, hc⟩ := IntText.encode_correct (f := c.num) (by have := wide h.1; omega : 3 ≤ w) h.2.1 (.inr hb) h.2.2
  simp only [Token.text, he, Option.getD_some]
  have hds : ∃ b s, ds = b :: s ∧ isSpace b = false := by
    match ds, hc with
    | [], hc => exact absurd rfl hc.nonempty
    | b :: s, hc =>
      refine ⟨b, s, rfl, ?_⟩
      have := (hc.digits b (by simp)).1
      by_contra hsp
      rw [Bool.not_eq_false] at hsp
      simp [IntText.isDig, nonspace_digit b hsp] at this
  have h0 : isSpace (lit '0') = false := by decide
  have hm : isSpace (lit '-') = false := by decide
  have hp : isSpace (lit '+') = false := by decide
  obtain ⟨b, s, rfl, hs⟩ := hds
  unfold IntText.signText IntText.prefixText
  split_ifs <;> simp_all

theorem base_pos (hb : 2 ≤ c.num.base ∧ c.num.base ≤ 36) :
    (if c.num.base = 0 then 10 else c.num.base) = c.num.base := if_neg (by omega)

theorem good_number (hs : c.Sound r) {w : Nat} {signed : Bool} {x y : Int}
    (h : (if signed then 32 else 8) ≤ w ∧ w ≤ 126 ∧ IntText.InRange w signed x) :
    Good c r (readLeaf c r (IntText.readInt w signed c.num.base) y) [.number w signed x] x true := by
  have henc := encode_some hs.base h
  obtain ⟨b, s, hsp, hnd, hx⟩ := hs.space
  apply Good.leaf (number_head hs.base h)
  · intro rest hr hz
    refine IntText.encode_readInt_partial (wide h.1) h.2.1 (.inr hs.base) h.2.2 (.inl (base_pos hs.base).symm) henc ?_
      _ (buffers_ne _) (buffers_flatten _)
    rcases hr with rfl | ⟨s', rfl⟩
    · exact .inl rfl
    · refine .inr ⟨hz (by simp [hsp]), b, s ++ s', by simp [hsp], ?_⟩
      rw [base_pos hs.base]; exact hnd
  · intro rest hr hz
    simp only [Token.Fine, not_forall, not_not] at hz
    obtain ⟨hne, hz⟩ := hz
    rcases hr with rfl | ⟨s', rfl⟩
    · exact absurd rfl hne
    · subst hz
      simp only [List.mem_cons, List.not_mem_nil, or_false, not_or] at hx
      obtain ⟨v, hv, hv0⟩ := IntText.encode_zero_readInt_fails (wide h.1) h.2.1 (.inr hs.base)
        (t := s ++ s') henc (by rw [base_pos hs.base]; exact hnd) hx
        (buffers ((Token.number w signed 0).text c ++ (c.space ++ s'))) (buffers_ne _)
        (by rw [buffers_flatten, hsp]; simp)
      rw [base_pos hs.base] at hv
      exact ⟨v, hv0, hv⟩

theorem good_flag {x y : Bool} :
    Good c r (readLeaf c r (Parser.readBool c.alpha) y) [.flag x] x true := by
  apply Good.leaf
  · generalize c.alpha = a
    simp only [Token.text]
    cases c.alpha <;> cases x <;> exact ⟨_, _, rfl, by decide⟩
  · intro rest _ _
    exact Parser.readBool_encode _ _ _ _ (buffers_ne _) (buffers_flatten _)
  · intro rest _ h
    exact absurd trivial h

/-! ### Words -/

theorem readWord_eq (old d : List Byte) :
    readWord old (buffers d) =
      some ((Till.word isSpace d).length, some (Till.word isSpace d)) := by
  obtain ⟨d', h1, h2⟩ := Till.readString_chunks isSpace old.length (buffers d) (buffers_ne d)
    (fuel := (buffers d).flatten.length + 1) (f := (buffers d).flatten.length + 1) (by omega) (by omega)
  have hl := Till.word_length_le isSpace d
  rw [readWord, h1]
  rw [buffers_flatten] at h2 ⊢
  simp only [Option.map_some, h2, List.length_drop, Option.some.injEq, Prod.mk.injEq, and_true]
  omega

theorem word_nospace (d : List Byte) : ∀ b ∈ Till.word isSpace d, isSpace b = false := by
  intro b hb
  simpa using List.mem_takeWhile_imp hb

theorem word_of_nospace {w rest : List Byte} (hw : ∀ b ∈ w, isSpace b = false) :
    Till.word isSpace (w ++ rest) = w ++ Till.word isSpace rest := by
  unfold Till.word
  rw [List.takeWhile_append_of_pos]
  intro b hb
  simp [hw b hb]

theorem word_nil_iff {rest : List Byte} :
    Till.word isSpace rest = [] ↔ ∀ b s, rest = b :: s → isSpace b = true := by
  cases rest with
  | nil => simp [Till.word]
  | cons b s =>
    simp only [Till.word, List.cons.injEq, and_imp, forall_apply_eq_imp_iff]
    cases h : isSpace b <;> simp [h]

theorem dropWhile_white {d : List Byte} (h : White d) : d.dropWhile isSpace = [] := by
  rw [List.dropWhile_eq_nil_iff]
  exact h

theorem dropWhile_nonspace {w : List Byte} (hw : ∀ b ∈ w, isSpace b = false) : w.dropWhile isSpace = w := by
  cases w with
  | nil => rfl
  | cons b s => simp [hw b (by simp)]

theorem good_word {x y : List Byte} : Good c r (readLeaf c r (readWord y) y) [.word x] x true := by
  intro sep st rest hr hp
  -- the characters from which the word is read
  have hen : ∃ e, enterLeaf c r st = some (true, e) ∧ (r = .spaced → e.separate = true ∧ e.d = x ++ rest) ∧
      (r = .skipws → e.d = (x ++ rest).dropWhile isSpace) := by
    cases r with
    | skipws =>
      refine ⟨_, rfl, by simp, fun _ => ?_⟩
      rcases hp with ⟨ws, hw, hd⟩ | ⟨hw, hd⟩
      · simp only [hd, body, spc, Token.text]
        rw [List.append_assoc, List.dropWhile_append_of_pos hw]
        simp
      · simp only [dropWhile_white hw]
        simp only [body, spc, Token.text] at hd
        rw [dropWhile_white (by simpa using hd)]
    | spaced =>
      obtain ⟨e, he, hpe, hsep⟩ := Pos.enter (by simp) hp
      exact ⟨e, he, fun _ => ⟨hsep rfl, by simpa [Pos, body, spc, RSt.level, Token.text] using hpe⟩, by simp⟩
  obtain ⟨e, he, h1, h2⟩ := hen
  have hrd : readLeaf c r (readWord y) y st = some (true, Till.word isSpace e.d,
      { e with d := e.d.drop (Till.word isSpace e.d).length }) := by
    simp [readLeaf, he, readWord_eq]
  constructor
  · intro hz
    simp only [NZ, Token.Fine, body, List.nil_append, and_true] at hz
    obtain ⟨z1, z2, z3⟩ := hz
    cases r with
    | spaced =>
      obtain ⟨hs, hd⟩ := h1 rfl
      have hw : Till.word isSpace e.d = x := by rw [hd, word_of_nospace z1, word_nil_iff.mpr z2, List.append_nil]
      refine ⟨{ e with d := rest }, true, by rw [hrd, hw, hd]; simp, ⟨hs, ?_⟩, fun _ => rfl⟩
      simp [body]
    | skipws =>
      have hd := h2 rfl
      cases x with
      | nil =>
        have hwr := z3 rfl rfl
        rw [List.nil_append, dropWhile_white hwr] at hd
        refine ⟨_, true, by rw [hrd, hd]; rfl, .inr ⟨?_, ?_⟩, fun _ => rfl⟩
        · simp [White]
        · simpa [body] using hwr
      | cons a x =>
        have ha : isSpace a = false := z1 a (by simp)
        rw [List.cons_append, List.dropWhile_cons_of_neg (by simp [ha]), ← List.cons_append] at hd
        have hw : Till.word isSpace e.d = a :: x := by
          rw [hd, word_of_nospace z1, word_nil_iff.mpr z2, List.append_nil]
        refine ⟨_, true, by rw [hrd, hw], .inl ⟨[], by simp [White], ?_⟩, fun _ => rfl⟩
        simp [hd, body]
  · intro hz st' heq
    apply hz
    rw [hrd] at heq
    simp only [Option.some.injEq, Prod.mk.injEq, true_and] at heq
    obtain ⟨heq, -⟩ := heq
    have z1 : ∀ b ∈ x, isSpace b = false := heq ▸ word_nospace e.d
    simp only [NZ, Token.Fine, body, List.nil_append, and_true]
    refine ⟨z1, ?_⟩
    cases r with
    | spaced =>
      rw [(h1 rfl).2, word_of_nospace z1] at heq
      exact ⟨word_nil_iff.mp (by simpa using heq), by simp⟩
    | skipws =>
      have hd := h2 rfl
      cases x with
      | nil =>
        rw [hd, List.nil_append] at heq
        have hwr : White rest := by
          rw [White, ← List.dropWhile_eq_nil_iff]
          cases hr' : rest.dropWhile isSpace with
          | nil => rfl
          | cons b s =>
            rw [hr'] at heq
            have := word_nil_iff.mp heq b s rfl
            have h0 := List.head?_dropWhile_not isSpace rest
            rw [hr'] at h0
            simp [this] at h0
        refine ⟨?_, fun _ _ => hwr⟩
        intro b s hb
        exact hwr b (by simp [hb])
      | cons a x =>
        have ha : isSpace a = false := z1 a (by simp)
        rw [List.cons_append, List.dropWhile_cons_of_neg (by simp [ha]), ← List.cons_append] at hd
        rw [hd, word_of_nospace z1] at heq
        exact ⟨word_nil_iff.mp (by simpa using heq), by simp⟩

/-! ### Characters -/

theorem good_char {x y : Byte} : Good c r (readChar c r y) [.char x] x true := by
  intro sep st rest hr hp
  simp only [NZ, Token.Fine, and_true]
  cases r with
  | spaced =>
    obtain ⟨e, he, hpe, hsep⟩ := Pos.enter (by simp) hp
    have hd : e.d = x :: rest := by simpa [Pos, body, spc, RSt.level, Token.text] using hpe
    refine ⟨fun _ => ⟨{ e with d := rest }, true, ?_, ⟨hsep rfl, by simp [body]⟩, fun _ => rfl⟩, fun h => absurd (by simp) h⟩
    rw [readChar, enterLeaf, he]
    simp [hd]
  | skipws =>
    have hrd : readChar c .skipws y st = some (!(st.d.dropWhile isSpace).isEmpty, (st.d.dropWhile isSpace).headD 0#8,
        { st with d := (st.d.dropWhile isSpace).drop 1 }) := rfl
    constructor
    · intro hx
      have hx := hx rfl
      rcases hp with ⟨ws, hw, hd⟩ | ⟨hw, hd⟩
      · have hdr : st.d.dropWhile isSpace = x :: rest := by
          rw [hd, List.append_assoc, List.dropWhile_append_of_pos hw]
          simp [body, spc, Token.text, hx]
        refine ⟨{ st with d := rest }, true, by rw [hrd, hdr]; rfl, .inl ⟨[], by simp [White], by simp [body]⟩, fun _ => rfl⟩
      · have := hd x (by simp [body, spc, Token.text])
        rw [hx] at this
        cases this
    · intro hx st' heq
      have hx : isSpace x = true := by simpa using hx
      rw [hrd] at heq
      simp only [Option.some.injEq, Prod.mk.injEq] at heq
      obtain ⟨h1, h2, -⟩ := heq
      have h0 := List.head?_dropWhile_not isSpace st.d
      cases hl : st.d.dropWhile isSpace with
      | nil => rw [hl] at h1; simp at h1
      | cons b s =>
        rw [hl] at h0 h2
        simp only [List.headD_cons] at h2
        subst h2
        simp [hx] at h0

theorem good_size (hs : c.Sound r) {n : Nat} (h : n < 2 ^ 63) :
    Good c r (readSize c r) [.number 64 false n] (n : Int) true :=
  (good_number hs (size_range h)).nested (by simp)

/-- One reader after another. -/
theorem Good.bind {α β γ : Type} (hs : c.Sound r) {f : RSt → Option (Bool × α × RSt)}
    {g : α → RSt → Option (Bool × β × RSt)} {a : α} {b : β} {ta tb : List Token} (hta : ta ≠ []) (hf : Good c r f ta a true)
    (hg : Good c r (g a) tb b false) {h : RSt → Option (Bool × γ × RSt)} {v : γ}
    (h1 : ∀ st s1 s2, f st = some (true, a, s1) → g a s1 = some (true, b, s2) → h st = some (true, v, s2))
    (h2 : ∀ st s2, h st = some (true, v, s2) → ∃ s1, f st = some (true, a, s1) ∧ ∃ s2, g a s1 = some (true, b, s2)) :
    Good c r h (ta ++ tb) v false := by
  intro sep st rest hr hp
  obtain ⟨f1, f2⟩ := hf _ _ _ (rest_body hr tb) (hp.split hta)
  rw [nz_append]
  constructor
  · rintro ⟨za, zb⟩
    obtain ⟨s1, b1, e1, p1, hb1⟩ := f1 za
    rw [hb1 rfl] at p1
    obtain ⟨s2, b2, e2, p2, -⟩ := (hg _ _ _ hr (p1.join hs)).1 zb
    exact ⟨s2, b2, h1 _ _ _ e1 e2, p2, by simp⟩
  · intro hz st' heq
    obtain ⟨s1, e1, s2, e2⟩ := h2 _ _ heq
    by_cases za : NZ c r ta (body c true tb ++ rest)
    · obtain ⟨s1', b1, e1', p1, hb1⟩ := f1 za
      rw [hb1 rfl] at p1
      rw [e1] at e1'
      simp only [Option.some.injEq, Prod.mk.injEq, true_and] at e1'
      subst e1'
      exact (hg _ _ _ hr (p1.join hs)).2 (fun zb => hz ⟨za, zb⟩) _ e2
    · exact f2 za _ e1

theorem good_nil {α : Type} {f : RSt → Option (Bool × α × RSt)} {v : α} (h : ∀ s, f s = some (true, v, s)) :
    Good c r f [] v false := fun sep st _ _ hp =>
  ⟨fun _ => ⟨st, sep, h st, hp, by simp⟩, fun hz => absurd trivial hz⟩

theorem good_range {α : Type} (hs : c.Sound r) {rd : α → RSt → Option (Bool × α × RSt)} {tk : α → List Token}
    (hne : ∀ x, tk x ≠ []) (xs ys : List α) (hl : ys.length = xs.length)
    (h : ∀ x ∈ xs, ∀ y ∈ ys, Good c r (rd y) (tk x) x true) :
    Good c r (readRange rd ys) (xs.flatMap tk) xs false := by
  induction xs generalizing ys with
  | nil =>
    match ys, hl with
    | [], _ => exact good_nil (fun _ => rfl)
  | cons x xs ih =>
    match ys, hl with
    | y :: ys, hl =>
      rw [List.flatMap_cons]
      refine Good.bind hs (g := fun _ => readRange rd ys) (hne x) (h x (by simp) y (by simp))
        (ih ys (by simpa using hl) fun a ha b hb => h a (by simp [ha]) b (by simp [hb])) ?_ ?_
      · intro st s1 s2 e1 e2
        simp [readRange, e1, e2]
      · intro st s2 e
        rw [readRange, Option.bind_eq_some_iff] at e
        obtain ⟨⟨ok, v, s1⟩, e1, e⟩ := e
        cases ok with
        | false => simp at e
        | true =>
          simp only [if_true, Option.map_eq_some_iff, Prod.mk.injEq, List.cons.injEq] at e
          obtain ⟨⟨ok', l, s2'⟩, e2, rfl, ⟨rfl, rfl⟩, rfl⟩ := e
          exact ⟨s1, e1, s2', e2⟩

theorem range_length {α : Type} {rd : α → RSt → Option (Bool × α × RSt)} {ys l : List α} {s s' : RSt} {ok : Bool}
    (h : readRange rd ys s = some (ok, l, s')) : l.length = ys.length := by
  induction ys generalizing l s with
  | nil => simp [readRange] at h; simp [h.2.1.symm]
  | cons y ys ih =>
    rw [readRange, Option.bind_eq_some_iff] at h
    obtain ⟨⟨ok1, v, s1⟩, e1, e⟩ := h
    cases ok1 with
    | false =>
      simp at e
      simp [← e.2.1]
    | true =>
      simp only [if_true, Option.map_eq_some_iff, Prod.mk.injEq] at e
      obtain ⟨⟨ok', l', s2'⟩, e2, rfl, rfl, rfl⟩ := e
      simp [ih e2]

theorem emplace_prefix {α : Type} {rd : α → RSt → Option (Bool × α × RSt)} {fresh : α} {n : Nat} {acc l : List α}
    {s s' : RSt} (h : readEmplace rd fresh n acc s = some (true, l, s')) : ∃ l', l = acc ++ l' ∧ l'.length = n := by
  induction n generalizing acc s with
  | zero => simp [readEmplace] at h; exact ⟨[], by simp [h.1], rfl⟩
  | succ n ih =>
    rw [readEmplace, Option.bind_eq_some_iff] at h
    obtain ⟨⟨ok1, v, s1⟩, e1, e⟩ := h
    cases ok1 with
    | false => simp at e
    | true =>
      obtain ⟨l', rfl, hl⟩ := ih (by simpa using e)
      exact ⟨v :: l', by simp, by simp [hl]⟩

theorem good_emplace {α : Type} (hs : c.Sound r) {rd : α → RSt → Option (Bool × α × RSt)} {fresh : α}
    {tk : α → List Token} (hne : ∀ x, tk x ≠ []) (xs acc : List α)
    (h : ∀ x ∈ xs, Good c r (rd fresh) (tk x) x true) :
    Good c r (readEmplace rd fresh xs.length acc) (xs.flatMap tk) (acc ++ xs) false := by
  induction xs generalizing acc with
  | nil => exact good_nil (fun _ => by simp [readEmplace])
  | cons x xs ih =>
    rw [List.flatMap_cons]
    refine Good.bind hs (g := fun _ => readEmplace rd fresh xs.length (acc ++ [x])) (hne x) (h x (by simp))
      (ih (acc ++ [x]) fun a ha => h a (by simp [ha])) ?_ ?_
    · intro st s1 s2 e1 e2
      simp only [List.length_cons, readEmplace, e1, Option.bind_some, if_true, e2]
      simp
    · intro st s2 e
      rw [List.length_cons, readEmplace, Option.bind_eq_some_iff] at e
      obtain ⟨⟨ok, v, s1⟩, e1, e⟩ := e
      cases ok with
      | false => simp at e
      | true =>
        simp only [if_true] at e
        obtain ⟨l', hl, -⟩ := emplace_prefix e
        have hv : v = x := by
          have : acc ++ (x :: xs) = acc ++ (v :: l') := by rw [hl]; simp
          exact (List.cons.inj (List.append_cancel_left this)).1.symm
        subst hv
        exact ⟨s1, e1, s2, by rw [e]; simp⟩

theorem readInt_unsigned_nonneg {w b n : Nat} {d : List (List Byte)} {v : Int}
    (h : IntText.readInt w false b d = some (n, some v)) : 0 ≤ v := by
  unfold IntText.readInt at h
  split at h
  · simp at h
  · simp only [Option.some.injEq, Prod.mk.injEq] at h
    obtain ⟨-, h⟩ := h
    split at h
    · simp [IntText.intValue, IntText.signValue] at h
      omega
    · simp at h

theorem readSize_nonneg {s s' : RSt} {v : Int} (h : readSize c r s = some (true, v, s')) : 0 ≤ v := by
  simp only [readSize, TextTree.nested, Option.bind_eq_some_iff] at h
  obtain ⟨⟨ok, e⟩, -, h⟩ := h
  cases ok with
  | false => simp at h
  | true =>
    simp only [if_true, Option.map_eq_some_iff, Prod.mk.injEq] at h
    obtain ⟨⟨ok, v', s1⟩, h, rfl, rfl, -⟩ := h
    simp only [readLeaf, Option.bind_eq_some_iff] at h
    obtain ⟨⟨ok, e2⟩, -, h⟩ := h
    cases ok with
    | false => simp at h
    | true =>
      simp only [if_true, Option.map_eq_some_iff, Prod.mk.injEq] at h
      obtain ⟨⟨n, o⟩, h, ho, rfl, -⟩ := h
      cases o with
      | none => simp at ho
      | some v => exact readInt_unsigned_nonneg h

theorem good_container {α : Type} (hs : c.Sound r) {tk : α → List Token} {xs old : List α}
    {el : Nat → RSt → Option (Bool × List α × RSt)} (hn : xs.length < 2 ^ 63)
    (hel : Good c r (el xs.length) (xs.flatMap tk) xs false)
    (hlen : ∀ n s l s', el n s = some (true, l, s') → l.length = n) :
    Good c r (readContainer c r old el) (.number 64 false xs.length :: xs.flatMap tk) xs false := by
  refine Good.bind hs (ta := [.number 64 false xs.length]) (g := fun n => el n.toNat) (by simp) (good_size hs hn)
    (by rw [Int.toNat_natCast]; exact hel) ?_ ?_
  · intro st s1 s2 e1 e2
    simp [readContainer, e1] at e2 ⊢
    exact e2
  · intro st s2 e
    rw [readContainer, Option.bind_eq_some_iff] at e
    obtain ⟨⟨ok, v, s1⟩, e1, e⟩ := e
    cases ok with
    | false => simp at e
    | true =>
      simp only [if_true] at e
      have h1 := hlen _ _ _ _ e
      have h2 := readSize_nonneg e1
      obtain rfl : v = xs.length := by omega
      exact ⟨s1, e1, s2, e⟩

theorem resize_length {α : Type} {fresh : α} {n : Nat} {ys l : List α} (h : resize fresh n ys = some l) :
    l.length = n := by
  unfold resize at h
  split at h
  · simp only [Option.some.injEq] at h
    rw [← h]; simp; omega
  · simp at h

theorem array_good {α : Type} {f : RSt → Option (Bool × List α × RSt)} {tk : α → List Token} {x y : List α}
    (hne : ∀ x, tk x ≠ []) (h : Good c r f (x.flatMap tk) x false) :
    Good c r (TextTree.nested c r f y) (if x.isEmpty then [.nothing] else x.flatMap tk) x true := by
  cases x with
  | nil => exact Good.nested_nothing h
  | cons a as => exact Good.nested (by simp [hne]) h

/-! ### All types -/

mutual

theorem ready_default (t : Ty) : Ready t (default t) := by
  match t with
  | .int w s => trivial
  | .bool => trivial
  | .char => trivial
  | .str => trivial
  | .tuple ts => simp only [Ready, default]; exact ready_defaults ts
  | .array n t =>
    simp only [Ready, default]
    refine ⟨by simp, fun y hy => ?_⟩
    rw [List.eq_of_mem_replicate hy]
    exact ready_default t
  | .vec t => simp only [Ready, default]; intro y hy; simp at hy
  | .seq t => rfl

theorem ready_defaults (ts : Tys) : ReadyTuple ts (defaults ts) := by
  match ts with
  | .nil => trivial
  | .cons t ts => exact ⟨ready_default t, ready_defaults ts⟩

end

mutual

theorem good_read (hs : c.Sound r) (t : Ty) (x y : Val t) (hv : Valid t x) (hy : Ready t y) :
    Good c r (read c r t y) (tokens t x) x true := by
  match t with
  | .int w s => exact good_number hs hv
  | .bool => exact good_flag
  | .char => exact good_char
  | .str => exact good_word
  | .tuple .nil => exact Good.nested_nothing (good_nil fun _ => rfl)
  | .tuple (.cons t ts) =>
    have := good_readTuple hs (.cons t ts) x y hv hy
    have he : tokens (.tuple (.cons t ts)) x = tokensTuple (.cons t ts) x := by simp only [tokens, tokensTuple]
    rw [he]
    exact this.nested (he ▸ tokens_ne _ x)
  | .array n t =>
    simp only [Valid, Ready] at hv hy
    have := good_range hs (rd := read c r t) (tokens_ne t) x y (hy.1.trans hv.1.symm)
      (fun a ha b hb => good_read hs t a b (hv.2 a ha) (hy.2 b hb))
    rw [tokens]
    exact array_good (tokens_ne t) this
  | .vec t =>
    simp only [Valid, Ready] at hv hy
    rw [tokens]
    refine Good.nested (by simp) (good_container hs hv.1 ?_ ?_)
    · have hres : resize (default t) (List.length x) y =
        some (List.take (List.length x) y ++ List.replicate (List.length x - List.length y) (default t)) :=
          if_pos hv.1
      rw [hres]
      refine good_range hs (tokens_ne t) x _ (resize_length hres) fun a ha b hb => good_read hs t a b (hv.2 a ha) ?_
      rcases List.mem_append.mp hb with h | h
      · exact hy b (List.mem_of_mem_take h)
      · rw [List.eq_of_mem_replicate h]; exact ready_default t
    · intro n s l s' h
      rw [Option.bind_eq_some_iff] at h
      obtain ⟨ys, h1, h2⟩ := h
      rw [range_length h2, resize_length h1]
  | .seq t =>
    simp only [Valid, Ready] at hv hy
    rw [tokens]
    subst hy
    refine Good.nested (by simp) (good_container hs hv.1 ?_ ?_)
    · exact good_emplace hs (tokens_ne t) x [] fun a ha => good_read hs t a _ (hv.2 a ha) (ready_default t)
    · intro n s l s' h
      obtain ⟨l', rfl, hl⟩ := emplace_prefix h
      simpa using hl

theorem good_readTuple (hs : c.Sound r) (ts : Tys) (x y : Vals ts) (hv : ValidTuple ts x) (hy : ReadyTuple ts y) :
    Good c r (readTuple c r ts y) (tokensTuple ts x) x false := by
  match ts with
  | .nil => exact good_nil fun _ => rfl
  | .cons t ts =>
    simp only [ValidTuple, ReadyTuple] at hv hy
    rw [tokensTuple]
    refine Good.bind hs (g := fun _ => readTuple c r ts y.2) (tokens_ne t x.1) (good_read hs t x.1 y.1 hv.1 hy.1)
      (good_readTuple hs ts x.2 y.2 hv.2 hy.2) ?_ ?_
    · intro st s1 s2 e1 e2
      rw [readTuple, e1]
      simp only [Option.bind_some, if_true, e2, Option.map_some]
      rfl
    · intro st s2 e
      rw [readTuple, Option.bind_eq_some_iff] at e
      obtain ⟨⟨ok, v, s1⟩, e1, e⟩ := e
      cases ok with
      | false => simp at e
      | true =>
        simp only [if_true, Option.map_eq_some_iff, Prod.mk.injEq] at e
        obtain ⟨⟨ok', l, s2'⟩, e2, rfl, rfl, rfl⟩ := e
        exact ⟨s1, e1, s2', e2⟩

end

/-! ### What survives -/

theorem flag_nonspace (x : Bool) : ∃ b s, (Token.flag x).text c = b :: s ∧ isSpace b = false := by
  simp only [Token.text]
  cases c.alpha <;> cases x <;> exact ⟨_, _, rfl, by decide⟩

theorem white_text (hs : c.Sound r) {tok : Token} (hf : tok.Fits) : White (tok.text c) ↔ tok.Blank := by
  have key : (∃ b s, tok.text c = b :: s ∧ isSpace b = false) → ¬ White (tok.text c) := by
    rintro ⟨b, s, h, hb⟩ hw
    have := hw b (by simp [h])
    simp [hb] at this
  cases tok with
  | number w sg x => exact iff_of_false (key (number_head hs.base hf)) id
  | flag x => exact iff_of_false (key (flag_nonspace x)) id
  | char x => simp [White, Token.text, Token.Blank]
  | word x => exact Iff.rfl
  | nothing => exact iff_of_true (by simp [White, Token.text]) trivial

theorem white_body (hs : c.Sound .skipws) {toks : List Token} (hf : ∀ tok ∈ toks, tok.Fits) :
    White (body c true toks) ↔ ∀ tok ∈ toks, tok.Blank := by
  induction toks with
  | nil => simp [body, White]
  | cons t ts ih =>
    rw [List.forall_mem_cons, ← ih fun a ha => hf a (by simp [ha]), ← white_text hs (hf t (by simp)), body, white_append,
      white_append]
    exact ⟨fun h => ⟨h.1.2, h.2⟩, fun h => ⟨⟨hs.white rfl, h.1⟩, h.2⟩⟩

theorem nz_kept (hs : c.Sound r) {toks : List Token} (hf : ∀ tok ∈ toks, tok.Fits) {rest : List Byte}
    (hr : Rest c rest) :
    NZ c r toks rest ↔ ∀ a tok b, toks = a ++ tok :: b →
      tok.Kept c r (b = [] ∧ rest = []) ((∀ t ∈ b, t.Blank) ∧ White rest) := by
  obtain ⟨sb, ss, hsp, -⟩ := hs.space
  have hnil : ∀ ts : List Token, body c true ts ++ rest = [] ↔ ts = [] ∧ rest = [] := by
    intro ts
    cases ts with
    | nil => simp [body]
    | cons t ts => simp [body, spc, hsp]
  have hhead : ∀ ts : List Token, (∀ b s, body c true ts ++ rest = b :: s → isSpace b = true) ↔
      ((ts = [] ∧ rest = []) ∨ ∃ b s, c.space = b :: s ∧ isSpace b = true) := by
    intro ts
    by_cases h0 : ts = [] ∧ rest = []
    · obtain ⟨rfl, rfl⟩ := h0
      simp [body]
    · have : ∃ s, body c true ts ++ rest = sb :: s := by
        cases ts with
        | nil =>
          rcases hr with rfl | ⟨s, rfl⟩
          · simp at h0
          · exact ⟨ss ++ s, by simp [body, hsp]⟩
        | cons t ts => exact ⟨ss ++ (t.text c ++ (body c true ts ++ rest)), by simp [body, spc, hsp]⟩
      obtain ⟨s, hs'⟩ := this
      rw [hs', hsp]
      simp [h0]
  induction toks with
  | nil => simp [NZ]
  | cons t ts ih =>
    have hf' : ∀ tok ∈ ts, tok.Fits := fun a ha => hf a (by simp [ha])
    have hfine : t.Fine r (body c true ts ++ rest) ↔
        t.Kept c r (ts = [] ∧ rest = []) ((∀ t ∈ ts, t.Blank) ∧ White rest) := by
      cases t with
      | number w sg x =>
        simp only [Token.Fine, Token.Kept, ne_eq, hnil]
        tauto
      | flag x => exact Iff.rfl
      | char x => exact Iff.rfl
      | nothing => exact Iff.rfl
      | word x =>
        simp only [Token.Fine, Token.Kept, hhead]
        refine and_congr Iff.rfl (and_congr Iff.rfl ?_)
        refine forall_congr' fun hk => ?_
        subst hk
        rw [white_append, white_body hs hf']
    rw [NZ, hfine]
    refine (and_congr Iff.rfl (ih hf')).trans ?_
    constructor
    · rintro ⟨h1, h2⟩ a tok b h
      cases a with
      | nil =>
        simp only [List.nil_append, List.cons.injEq] at h
        obtain ⟨rfl, rfl⟩ := h
        exact h1
      | cons u a =>
        simp only [List.cons_append, List.cons.injEq] at h
        exact h2 a tok b h.2
    · intro h
      exact ⟨h [] t ts rfl, fun a tok b e => h (t :: a) tok b (by rw [e]; rfl)⟩

end Actl.TextTree
