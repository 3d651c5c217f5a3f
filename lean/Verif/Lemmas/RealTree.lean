import Verif.Spec.RealTree
import Verif.Props.TextTree
import Verif.Props.RealRound

namespace Actl.RealTree

open Actl.Text
open Actl.TextTree (Reader St RSt Pos Rest body spc White Good writeAll readRange readEmplace resize readContainer readLeaf
  nested body_append body_sep)

/-! ### The text of a number -/

section Number
open IntText

theorem splitReal_fixedPoint {B : Nat} {upper showpoint : Bool} {p n : Nat} {t r : List Byte}
    (h : FixedPoint B upper showpoint p n t) (showpos negative : Bool)
    (hr : ∀ c, r.head? = some c → isDig B c = false ∧ c ≠ lit '.') :
    ∃ ip fp, Canonical B upper (n / B ^ p) ip ∧ fp.length = p ∧
      splitReal B (realSignText showpos negative ++ t ++ r) =
        (negative, ip, if p = 0 ∧ showpoint = false then none else some fp) := by
  obtain ⟨ip, fp, rfl, hc, rfl, hfp, hfn⟩ := h
  have hip : ∀ c ∈ ip, isDig B c = true := fun c hc' => (hc.digits c hc').1
  have hfp' : ∀ c ∈ fp, isDig B c = true := fun c hc' => (hfp c hc').1
  have hne : ip ≠ [] := hc.nonempty
  have hsplit : ∀ u, splitSign true (realSignText showpos negative ++ (ip ++ u)) = (negative, ip ++ u) := by
    intro u
    obtain ⟨a, ip', rfl⟩ := List.exists_cons_of_ne_nil hne
    have ha := hip a (by simp)
    have hm : a ≠ lit '-' := by
      rintro rfl
      have : digitVal (lit '-') = none := by decide
      simp [isDig, this] at ha
    have hp : a ≠ lit '+' := by
      rintro rfl
      have : digitVal (lit '+') = none := by decide
      simp [isDig, this] at ha
    have hpm : lit '+' ≠ lit '-' := by decide
    cases negative <;> cases showpos <;> simp [realSignText, splitSign, hm, hp, hpm]
  have hrd : NoDigit B r := fun c h => (hr c h).1
  refine ⟨ip, fp, hc, rfl, ?_⟩
  by_cases h0 : fp.length = 0 ∧ showpoint = false
  · have hfp0 : fp = [] := List.length_eq_zero_iff.1 h0.1
    subst hfp0
    have e : realSignText showpos negative ++ (ip ++ (if ([] : List Byte).length = 0 ∧ showpoint = false
        then [] else [lit '.']) ++ []) ++ r = realSignText showpos negative ++ (ip ++ r) := by
      rw [if_pos h0]; simp
    obtain ⟨w1, w2⟩ := takeWhile_digits hip hrd
    rw [e, if_pos h0]
    unfold splitReal
    rw [hsplit]
    simp only [w1, w2, hne, if_false]
    cases r with
    | nil => rfl
    | cons c r => simp [(hr c rfl).2]
  · rw [if_neg h0, if_neg h0]
    have e : realSignText showpos negative ++ (ip ++ [lit '.'] ++ fp) ++ r =
        realSignText showpos negative ++ (ip ++ (lit '.' :: (fp ++ r))) := by simp
    obtain ⟨w1, w2⟩ := takeWhile_digits (r := lit '.' :: (fp ++ r)) hip
      (fun c h => by simp at h; rw [← h]; exact dot_not_digit)
    obtain ⟨w3, -⟩ := takeWhile_digits hfp' hrd
    rw [e]
    unfold splitReal
    rw [hsplit]
    simp only [w1, w2, hne, if_false, if_true, w3]

theorem numeral_cons (B : Nat) (a : Byte) (ds : List Byte) :
    numeral B (a :: ds) = numeral B [a] * B ^ ds.length + numeral B ds := by
  rw [← List.singleton_append, numeral_append]

theorem digit_zero : ∀ b : Byte, digitVal b = some 0 → b = lit '0' := by decide +kernel

/-- A numeral without leading zeros is short. -/
theorem canonical_length {B : Nat} (hB : 2 ≤ B) {upper : Bool} {n : Nat} {ds : List Byte} (h : Canonical B upper n ds) :
    B ^ ds.length ≤ B * max 1 n := by
  obtain ⟨a, ds, rfl⟩ := List.exists_cons_of_ne_nil h.nonempty
  have ha := (h.digits a (by simp)).1
  by_cases h0 : a = lit '0'
  · subst h0
    have := h.canonical rfl
    simp only [List.cons.injEq, true_and] at this
    subst this
    simp only [List.length_singleton, pow_one]
    exact Nat.le_mul_of_pos_right _ (by omega)
  · have hv := h.value
    rw [numeral_cons] at hv
    have hd : 1 ≤ numeral B [a] := by
      unfold isDig at ha
      cases hd : digitVal a with
      | none => rw [hd] at ha; simp at ha
      | some d =>
        have : d ≠ 0 := by rintro rfl; exact h0 (digit_zero a hd)
        simp [numeral, dval, hd]
        omega
    rw [List.length_cons, pow_succ, mul_comm]
    apply Nat.mul_le_mul_left
    have : B ^ ds.length ≤ n := by nlinarith
    omega

end Number

variable {F : Type} [Field F] [LinearOrder F] [IsStrictOrderedRing F] [FloorSemiring F] {c : Cfg F} {r : Reader} {ε u : F}
  {N : Nat}

/-- Everything about one number. -/
theorem real_leaf (hs : c.Sound r u N) {x : F} (hv : ValidReal c ε x) :
    ∃ s, encode c x = some s ∧ (Token.real x).Shows c ε s ∧ (∃ b t, s = b :: t ∧ isSpace b = false) ∧
      ∀ rest, Rest c.text rest → ∃ z : F, CloseReal c ε u N x z ∧
        IntText.readRealR c.fl c.text.num.base (TextTree.buffers (s ++ rest)) = some (s.length, some z) := by
  obtain ⟨ha, hx⟩ := hv
  have hb := hs.text.base
  have hb1 : (2 : F) ≤ c.text.num.base := by exact_mod_cast hb.1
  have h0 : 0 ≤ |x| := abs_nonneg _
  have h63 : |x| < 2 ^ 63 - 1 := by
    have : (2 : F) * (|x| + 1) < 2 ^ 64 := lt_of_le_of_lt (mul_le_mul_of_nonneg_right hb1 (by linarith)) hx
    have e : (2 : F) ^ 64 = 2 * 2 ^ 63 := by norm_num
    linarith
  have h64 : |x| < 2 ^ 64 - 1 := h63.trans (by norm_num)
  obtain ⟨n, t, e, hfix, herr⟩ := IntText.encodeReal_correct_partial c.showpoint (decide (x < 0)) hb.1 hb.2 hs.noprefix
    hs.power ha h0 h64 fun _ _ => h63
  refine ⟨_, e, ⟨n, t, rfl, hfix, herr⟩, ?_, ?_⟩
  · have hsp : ∀ b : Byte, IntText.isDig c.text.num.base b = true → isSpace b = false := by
      intro b hd
      cases hb : isSpace b with
      | false => rfl
      | true => simp [IntText.isDig, TextTree.nonspace_digit b hb] at hd
    obtain ⟨ip, fp, rfl, hc, -⟩ := hfix
    obtain ⟨a, ip', rfl⟩ := List.exists_cons_of_ne_nil hc.nonempty
    unfold IntText.realSignText
    split_ifs
    · exact ⟨_, _, rfl, by decide⟩
    · exact ⟨_, _, rfl, by decide⟩
    · exact ⟨_, _, rfl, by decide⟩
    · exact ⟨_, _, rfl, by decide⟩
    · exact ⟨_, _, rfl, hsp _ (hc.digits a (by simp)).1⟩
    · exact ⟨_, _, rfl, hsp _ (hc.digits a (by simp)).1⟩
  · intro rest hr
    have hr' : ∀ ch, rest.head? = some ch → IntText.isDig c.text.num.base ch = false ∧ ch ≠ lit '.' := by
      intro ch hch
      obtain ⟨b, s, hsp, hnd, -⟩ := hs.text.space
      rcases hr with rfl | ⟨s', rfl⟩
      · simp at hch
      · rw [hsp] at hch
        simp only [List.cons_append, List.head?_cons, Option.some.injEq] at hch
        subst hch
        exact ⟨hnd, hs.point b s hsp⟩
    obtain ⟨ip, fp, hc, hl, hsplit⟩ := splitReal_fixedPoint hfix c.text.num.showpos (decide (x < 0)) hr'
    obtain ⟨v1, v2⟩ := IntText.realValue_fixedPoint (F := F) hb.1 hfix c.text.num.showpos (decide (x < 0)) hr'
    have hB : (if c.text.num.base = 0 then 10 else c.text.num.base) = c.text.num.base := if_neg (by omega)
    have hpos : (1 : F) ≤ (c.text.num.base : F) ^ c.precision := one_le_pow₀ (by linarith)
    have hpos' : (0 : F) < (c.text.num.base : F) ^ c.precision := by linarith
    have key : |(|x| - (n : F) / (c.text.num.base : F) ^ c.precision)| ≤
        (1 / 2 + 2 * ε) / (c.text.num.base : F) ^ c.precision := by
      rw [le_div_iff₀ hpos', ← abs_of_pos hpos', ← abs_mul, abs_of_pos hpos', sub_mul, div_mul_cancel₀ _ hpos'.ne']
      exact herr
    have hshort : c.text.num.base ^ ip.length < 2 ^ 64 := by
      refine lt_of_le_of_lt (canonical_length hb.1 hc) ?_
      have hm : ((max 1 (n / c.text.num.base ^ c.precision) : Nat) : F) ≤ |x| + 1 := by
        push_cast
        refine max_le (by linarith) ?_
        have h1 : (((n / c.text.num.base ^ c.precision : Nat) : F)) ≤ (n : F) / (c.text.num.base : F) ^ c.precision := by
          rw [le_div_iff₀ hpos']
          exact_mod_cast Nat.div_mul_le_self n (c.text.num.base ^ c.precision)
        have h2 := (abs_le.1 key).1
        have h3 : (1 / 2 + 2 * ε) / (c.text.num.base : F) ^ c.precision ≤ 1 := by
          rw [div_le_one hpos']
          have := ha.small
          linarith
        linarith
      have : ((c.text.num.base * max 1 (n / c.text.num.base ^ c.precision) : Nat) : F) < ((2 ^ 64 : Nat) : F) := by
        rw [Nat.cast_mul]
        refine lt_of_le_of_lt (mul_le_mul_of_nonneg_left hm (by linarith)) ?_
        exact lt_of_lt_of_eq hx (by norm_num)
      exact_mod_cast this
    obtain ⟨v, y, hval, hread, hup⟩ := IntText.readRealR_short hs.rounding (Or.inr hb) hB hsplit hc.nonempty hshort
      (by
        intro f hf
        split_ifs at hf
        simp only [Option.some.injEq] at hf
        rw [← hf, hl]
        exact hs.power)
    have hbuf : TextTree.buffers (IntText.realSignText c.text.num.showpos (decide (x < 0)) ++ t ++ rest) =
        [IntText.realSignText c.text.num.showpos (decide (x < 0)) ++ t ++ rest] := by
      unfold TextTree.buffers
      rw [if_neg]
      intro h
      obtain ⟨ip, fp, rfl, hc, -⟩ := hfix
      have := hc.nonempty
      simp [this] at h
    rw [hbuf, hread, v1]
    refine ⟨y, ⟨⟨v, ?_, hup⟩, ?_⟩, rfl⟩
    · rw [v2] at hval
      simp only [Option.some.injEq] at hval
      rw [← hval]
      by_cases hn : x < 0
      · simp only [hn, decide_true, if_true]
        rw [abs_of_neg hn] at key
        rw [← abs_neg]
        convert key using 2
        ring
      · simp only [hn, decide_false, Bool.false_eq_true, if_false]
        rw [abs_of_nonneg (not_lt.1 hn)] at key
        exact key
    · intro I hI hxI
      have hI63 : I < 2 ^ 63 - 1 := by
        rw [hxI] at h63
        have : ((I + 1 : Nat) : F) < ((2 ^ 63 : Nat) : F) := by push_cast; linarith
        have : I + 1 < 2 ^ 63 := by exact_mod_cast this
        omega
      obtain ⟨t', e', h'⟩ := IntText.encode_readRealR_integer (f := c.text.num) hs.integers hs.half c.showpoint
        (p := c.precision) (decide (x < 0)) hb.1 hb.2 hs.noprefix hs.power hI hI63
      rw [← hxI] at e'
      have e2 := e.symm.trans e'
      simp only [Option.some.injEq] at e2
      have h2 := h' rest hr' [IntText.realSignText c.text.num.showpos (decide (x < 0)) ++ t ++ rest]
        (by rw [← hbuf]; exact TextTree.buffers_ne _) (by rw [← e2]; simp)
      rw [hread] at h2
      simp only [Option.some.injEq, Prod.mk.injEq] at h2
      rw [h2.2]
      by_cases hn : x < 0
      · simp only [hn, decide_true, if_true]
        rw [← hxI]
        show -|x| = x
        rw [abs_of_neg hn]; ring
      · simp only [hn, decide_false, Bool.false_eq_true, if_false]
        rw [← hxI]
        exact abs_of_nonneg (not_lt.1 hn)

/-! ### Writing -/

/-- A piece with the text of a number in place of the number. -/
def Token.erase (c : Cfg F) : Token F → TextTree.Token
  | .real x => .word ((encode c x).getD [])
  | .plain tok => tok

def Token.Fits (c : Cfg F) (ε : F) : Token F → Prop
  | .real x => ValidReal c ε x
  | .plain tok => tok.Fits

abbrev bodyR (c : Cfg F) (sep : Bool) (toks : List (Token F)) : List Byte := body c.text sep (toks.map (Token.erase c))

omit [Field F] [LinearOrder F] [IsStrictOrderedRing F] [FloorSemiring F] in
theorem tokens_ne (t : Ty) (x : Val F t) : tokens t x ≠ [] := by
  match t with
  | .real => simp [tokens]
  | .plain t =>
    rw [tokens]
    intro h
    exact TextTree.tokens_ne t x (List.map_eq_nil_iff.mp h)
  | .tuple .nil => simp [tokens]
  | .tuple (.cons t ts) =>
    rw [tokens]
    have := tokens_ne t x.1
    simp [this]
  | .array n t =>
    rw [tokens]
    split
    · simp
    · rename_i h
      match x, h with
      | y :: ys, _ =>
        have := tokens_ne t y
        simp [this]
  | .vec t => simp [tokens]
  | .seq t => simp [tokens]

theorem map_plain (c : Cfg F) (toks : List TextTree.Token) : (toks.map Token.plain).map (Token.erase c) = toks := by
  rw [List.map_map]
  exact List.map_id'' (fun _ => rfl) toks

theorem flatMap_erase {α : Type} (tk : α → List (Token F)) (xs : List α) :
    (xs.flatMap tk).map (Token.erase c) = xs.flatMap fun x => (tk x).map (Token.erase c) := List.map_flatMap

theorem writeAll_eq {α : Type} {w : α → St → Option St} {tk : α → List (Token F)} (xs : List α)
    (hne : ∀ x, tk x ≠ [])
    (h : ∀ x ∈ xs, ∀ o sep, w x ⟨o, sep⟩ = some ⟨o ++ bodyR c sep (tk x), true⟩) (o : List Byte) (sep : Bool) :
    ∃ b, writeAll w xs ⟨o, sep⟩ = some ⟨o ++ bodyR c sep (xs.flatMap tk), b⟩ := by
  unfold bodyR
  rw [flatMap_erase]
  exact TextTree.writeAll_eq xs (fun x => by simp [hne]) h o sep

section
variable (hs : c.Sound r u N)
include hs

mutual

theorem write_eq (t : Ty) (x : Val F t) (hv : Valid c ε t x) (o : List Byte)
    (sep : Bool) : write c t x ⟨o, sep⟩ = some ⟨o ++ bodyR c sep (tokens t x), true⟩ := by
  have hb := hs.text.base
  match t with
  | .real =>
    rw [Valid] at hv
    obtain ⟨s, e, -⟩ := real_leaf hs hv
    have := TextTree.writeLeaf_eq (c := c.text) (tok := (Token.real (show F from x)).erase c) (o := o) (sep := sep)
    rw [write, e]
    simp only [Token.erase, TextTree.Token.text, e, Option.getD_some] at this
    rw [this, tokens]
    simp [bodyR, Token.erase, e]
  | .plain t =>
    rw [write, tokens, bodyR, map_plain]
    exact TextTree.write_eq hb t x hv o sep
  | .tuple .nil =>
    rw [write, TextTree.unit_level]
    simp [writeTuple, tokens, St.level, body, TextTree.Token.text, Token.erase, bodyR]
  | .tuple (.cons t ts) =>
    rw [Valid] at hv
    obtain ⟨b, h⟩ := writeTuple_eq (.cons t ts) x hv (o ++ spc c.text sep) false
    rw [write, TextTree.unit_level, h]
    have he : tokens (.tuple (.cons t ts)) x = tokensTuple (.cons t ts) x := by simp only [tokens, tokensTuple]
    have hn : tokensTuple (.cons t ts) x ≠ [] := he ▸ tokens_ne _ x
    rw [he]
    unfold bodyR
    rw [body_sep (sep := sep) (by simpa using hn)]
    simp [St.level]
  | .array n t =>
    rw [Valid] at hv
    obtain ⟨b, h⟩ := writeAll_eq (c := c) (w := write c t) (tk := tokens t) x (tokens_ne t)
      (fun y hy => write_eq t y (hv.2 y hy)) (o ++ spc c.text sep) false
    rw [write, tokens, TextTree.unit_level, h]
    match x with
    | [] => simp [St.level, body, TextTree.Token.text, bodyR, Token.erase]
    | y :: ys =>
      have : List.flatMap (tokens t) (y :: ys) ≠ [] := by simp [tokens_ne]
      unfold bodyR
      rw [if_neg (by simp), body_sep (sep := sep) (by simpa using this)]
      simp [St.level]
  | .vec t =>
    rw [Valid] at hv
    obtain ⟨b, h⟩ := writeAll_eq (c := c) (w := write c t) (tk := tokens t) x (tokens_ne t)
      (fun y hy => write_eq t y (hv.2 y hy))
      (o ++ spc c.text sep ++ body c.text false [.number 64 false (List.length x)]) true
    rw [write, tokens, TextTree.unit_level, TextTree.writeSize_eq hb hv.1, Option.bind_some, h]
    simp [St.level, body, spc, bodyR, Token.erase]
  | .seq t =>
    rw [Valid] at hv
    obtain ⟨b, h⟩ := writeAll_eq (c := c) (w := write c t) (tk := tokens t) x (tokens_ne t)
      (fun y hy => write_eq t y (hv.2 y hy))
      (o ++ spc c.text sep ++ body c.text false [.number 64 false (List.length x)]) true
    rw [write, tokens, TextTree.unit_level, TextTree.writeSize_eq hb hv.1, Option.bind_some, h]
    simp [St.level, body, spc, bodyR, Token.erase]

theorem writeTuple_eq (ts : Tys) (x : Vals F ts) (hv : ValidTuple c ε ts x)
    (o : List Byte) (sep : Bool) :
    ∃ b, writeTuple c ts x ⟨o, sep⟩ = some ⟨o ++ bodyR c sep (tokensTuple ts x), b⟩ := by
  match ts with
  | .nil => exact ⟨sep, by simp [writeTuple, tokensTuple, body, bodyR]⟩
  | .cons t ts =>
    rw [ValidTuple] at hv
    obtain ⟨b, h⟩ := writeTuple_eq ts x.2 hv.2 (o ++ bodyR c sep (tokens t x.1)) true
    refine ⟨b, ?_⟩
    rw [writeTuple, write_eq t x.1 hv.1, Option.bind_some, h, tokensTuple]
    unfold bodyR
    rw [List.map_append, body_append (by simpa using tokens_ne t x.1)]
    simp

end

end

omit [IsStrictOrderedRing F] in
mutual

theorem valid_tokens (t : Ty) (x : Val F t) (hv : Valid c ε t x) : ∀ tok ∈ tokens t x, tok.Fits c ε := by
  match t with
  | .real => intro tok h; rw [tokens, List.mem_singleton] at h; subst h; exact hv
  | .plain t =>
    intro tok h
    rw [tokens, List.mem_map] at h
    obtain ⟨tok, h, rfl⟩ := h
    exact TextTree.valid_tokens t x hv tok h
  | .tuple .nil => intro tok h; rw [tokens, List.mem_singleton] at h; subst h; trivial
  | .tuple (.cons t ts) => exact valid_tokensTuple (.cons t ts) x hv
  | .array n t =>
    intro tok h
    simp only [Valid] at hv
    rw [tokens] at h
    split at h
    · rw [List.mem_singleton] at h; subst h; trivial
    · obtain ⟨a, ha, h⟩ := List.mem_flatMap.mp h
      exact valid_tokens t a (hv.2 a ha) tok h
  | .vec t =>
    intro tok h
    simp only [Valid] at hv
    rw [tokens] at h
    rcases List.mem_cons.mp h with rfl | h
    · exact TextTree.size_range hv.1
    · obtain ⟨a, ha, h⟩ := List.mem_flatMap.mp h
      exact valid_tokens t a (hv.2 a ha) tok h
  | .seq t =>
    intro tok h
    simp only [Valid] at hv
    rw [tokens] at h
    rcases List.mem_cons.mp h with rfl | h
    · exact TextTree.size_range hv.1
    · obtain ⟨a, ha, h⟩ := List.mem_flatMap.mp h
      exact valid_tokens t a (hv.2 a ha) tok h

theorem valid_tokensTuple (ts : Tys) (x : Vals F ts) (hv : ValidTuple c ε ts x) :
    ∀ tok ∈ tokensTuple ts x, tok.Fits c ε := by
  match ts with
  | .nil => intro tok h; simp [tokensTuple] at h
  | .cons t ts =>
    intro tok h
    rw [tokensTuple] at h
    rcases List.mem_append.mp h with h | h
    · exact valid_tokens t x.1 hv.1 tok h
    · exact valid_tokensTuple ts x.2 hv.2 tok h

end

/-! ### Reading -/

def Token.Fine (r : Reader) (after : List Byte) : Token F → Prop
  | .real _ => True
  | .plain tok => tok.Fine r after

def NZ (c : Cfg F) (r : Reader) : List (Token F) → List Byte → Prop
  | [], _ => True
  | t :: ts, rest => t.Fine r (bodyR c true ts ++ rest) ∧ NZ c r ts rest

theorem nz_append {a b : List (Token F)} {rest : List Byte} :
    NZ c r (a ++ b) rest ↔ NZ c r a (bodyR c true b ++ rest) ∧ NZ c r b rest := by
  induction a with
  | nil => simp [NZ]
  | cons t ts ih =>
    simp only [List.cons_append, NZ, ih, bodyR, List.map_append, TextTree.body_append_true, List.append_assoc, and_assoc]

theorem nz_plain (toks : List TextTree.Token) (rest : List Byte) :
    NZ c r (toks.map Token.plain) rest ↔ TextTree.NZ c.text r toks rest := by
  induction toks with
  | nil => exact Iff.rfl
  | cons t ts ih => simp only [List.map_cons, NZ, TextTree.NZ, ih, bodyR, map_plain, Token.Fine]

/-- The reader turns the pieces into a value as asked for, if they survive, and never otherwise. -/
def GoodP {α : Type} (c : Cfg F) (r : Reader) (f : RSt → Option (Bool × α × RSt)) (toks : List (Token F)) (P : α → Prop)
    (strong : Bool) : Prop :=
  ∀ sep st rest, Rest c.text rest → Pos c.text r sep st (toks.map (Token.erase c)) rest →
    (NZ c r toks rest → ∃ v st' b, P v ∧ f st = some (true, v, st') ∧ Pos c.text r b st' [] rest ∧
      (strong = true → b = true)) ∧
    (¬ NZ c r toks rest → ∀ v st', P v → f st ≠ some (true, v, st'))

theorem GoodP.of_good {α : Type} {f : RSt → Option (Bool × α × RSt)} {toks : List TextTree.Token} {v : α} {b : Bool}
    (h : Good c.text r f toks v b) : GoodP c r f (toks.map Token.plain) (· = v) b := by
  intro sep st rest hr hp
  rw [map_plain] at hp
  rw [nz_plain]
  obtain ⟨h1, h2⟩ := h sep st rest hr hp
  refine ⟨fun hz => ?_, fun hz v' st' hv => ?_⟩
  · obtain ⟨st', b', e, hp', hb⟩ := h1 hz
    exact ⟨v, st', b', rfl, e, hp', hb⟩
  · subst hv
    exact h2 hz st'

theorem GoodP.nested {α : Type} {f : RSt → Option (Bool × α × RSt)} {toks : List (Token F)} {P : α → Prop} {x : α}
    (hn : toks ≠ []) {b : Bool} (h : GoodP c r f toks P b) : GoodP c r (nested c.text r f x) toks P true := by
  intro sep st rest hr hp
  obtain ⟨e, he, hpe, -⟩ := hp.enter (by simpa using hn)
  obtain ⟨g1, g2⟩ := h _ _ _ hr hpe
  constructor
  · intro hz
    obtain ⟨v, st', b', hv, hf, hp', -⟩ := g1 hz
    exact ⟨v, _, true, hv, by simp [TextTree.nested, he, hf], hp'.level, fun _ => rfl⟩
  · intro hz v st' hv heq
    simp only [TextTree.nested, he, Option.bind_some, if_true, Option.map_eq_some_iff] at heq
    obtain ⟨⟨ok, v', s'⟩, hf, heq⟩ := heq
    simp only [Prod.mk.injEq] at heq
    obtain ⟨rfl, rfl, -⟩ := heq
    exact g2 hz _ _ hv hf

theorem GoodP.nested_nothing {α : Type} {f : RSt → Option (Bool × α × RSt)} {P : α → Prop} {x : α}
    {b : Bool} (h : GoodP c r f [] P b) : GoodP c r (TextTree.nested c.text r f x) [.plain .nothing] P true := by
  intro sep st rest hr hp
  obtain ⟨e, he, hpe, -⟩ := hp.enter (by simp)
  have hpe' : Pos c.text r false (e.level true) [] rest := by
    cases r <;> simpa [Pos, body, TextTree.Token.text, spc, Token.erase] using hpe
  obtain ⟨g1, -⟩ := h _ _ _ hr hpe'
  refine ⟨fun _ => ?_, fun hz => absurd ⟨trivial, trivial⟩ hz⟩
  obtain ⟨v, st', b', hv, hf, hp', -⟩ := g1 trivial
  exact ⟨v, _, true, hv, by simp [TextTree.nested, he, hf], hp'.level, fun _ => rfl⟩

theorem good_real (hs : c.Sound r u N) {x y : F} (hv : ValidReal c ε x) :
    GoodP c r (readLeaf c.text r (IntText.readRealR c.fl c.text.num.base) y) [.real x] (CloseReal c ε u N x) true := by
  obtain ⟨s, e, -, hne, hread⟩ := real_leaf hs hv
  intro sep st rest hr hp
  refine ⟨fun _ => ?_, fun hz => absurd ⟨trivial, trivial⟩ hz⟩
  have htx : (Token.real x).erase c = .word s := by simp [Token.erase, e]
  simp only [List.map_cons, List.map_nil, htx] at hp
  have hen : ∃ e, TextTree.enterLeaf c.text r st = some (true, e) ∧ e.d = s ++ rest ∧
      (r = .spaced → e.separate = true) := by
    cases r with
    | skipws =>
      obtain ⟨b, s', hb, hsp⟩ := hne
      obtain ⟨ws, hw, hd⟩ | ⟨hw, hd⟩ := hp
      case inr =>
        have := hd b (by simp [body, spc, hb, TextTree.Token.text])
        rw [hsp] at this
        exact absurd this (by simp)
      refine ⟨_, rfl, ?_, by simp⟩
      simp only [hd, body, spc, hb, TextTree.Token.text]
      rw [List.append_assoc, List.dropWhile_append_of_pos hw]
      simp [hsp]
    | spaced =>
      obtain ⟨e, he, hpe, hsep⟩ := Pos.enter (by simp) hp
      exact ⟨e, he, by simpa [Pos, body, spc, RSt.level, TextTree.Token.text] using hpe, hsep⟩
  obtain ⟨e, he, hd, hsep⟩ := hen
  have hdrop : e.d.drop s.length = rest := by rw [hd]; simp
  obtain ⟨z, hz, hrd⟩ := hread rest hr
  refine ⟨z, { e with d := rest }, true, hz, ?_, ?_, fun _ => rfl⟩
  · rw [← hd] at hrd
    simp [readLeaf, he, hrd, hdrop]
  · cases r with
    | spaced => exact ⟨hsep rfl, by simp [body]⟩
    | skipws => exact .inl ⟨[], by simp [White], by simp [body]⟩

/-- One reader after another. -/
theorem GoodP.bind {α β γ : Type} (hs : c.text.Sound r) {f : RSt → Option (Bool × α × RSt)}
    {g : α → RSt → Option (Bool × β × RSt)} {A : α → Prop} {B : α → β → Prop} {ta tb : List (Token F)} (hta : ta ≠ [])
    (hf : GoodP c r f ta A true)
    (hg : ∀ a, A a → GoodP c r (g a) tb (B a) false) {h : RSt → Option (Bool × γ × RSt)} {P : γ → Prop} {m : α → β → γ}
    (hm : ∀ a b, A a → B a b → P (m a b))
    (h1 : ∀ st s1 s2 a b, f st = some (true, a, s1) → g a s1 = some (true, b, s2) → h st = some (true, m a b, s2))
    (h2 : ∀ st s2 v, P v → h st = some (true, v, s2) →
      ∃ a b s1, A a ∧ B a b ∧ f st = some (true, a, s1) ∧ ∃ s2, g a s1 = some (true, b, s2)) :
    GoodP c r h (ta ++ tb) P false := by
  intro sep st rest hr hp
  rw [List.map_append] at hp
  obtain ⟨f1, f2⟩ := hf _ _ _ (TextTree.rest_body hr (tb.map (Token.erase c))) (hp.split (by simpa using hta))
  rw [nz_append]
  constructor
  · rintro ⟨za, zb⟩
    obtain ⟨a, s1, b1, ha, e1, p1, hb1⟩ := f1 za
    rw [hb1 rfl] at p1
    obtain ⟨b, s2, b2, hb, e2, p2, -⟩ := (hg a ha _ _ _ hr (p1.join hs)).1 zb
    exact ⟨_, s2, b2, hm a b ha hb, h1 _ _ _ _ _ e1 e2, p2, by simp⟩
  · intro hz v st' hv heq
    obtain ⟨a, b, s1, ha, hb, e1, s2, e2⟩ := h2 _ _ _ hv heq
    by_cases za : NZ c r ta (bodyR c true tb ++ rest)
    · obtain ⟨a', s1', b1, ha', e1', p1, hb1⟩ := f1 za
      rw [hb1 rfl] at p1
      rw [e1] at e1'
      simp only [Option.some.injEq, Prod.mk.injEq, true_and] at e1'
      obtain ⟨rfl, rfl⟩ := e1'
      exact (hg a ha _ _ _ hr (p1.join hs)).2 (fun zb => hz ⟨za, zb⟩) _ _ hb e2
    · exact f2 za _ _ ha e1

theorem good_nil {α : Type} {f : RSt → Option (Bool × α × RSt)} {v : α} {P : α → Prop} (hv : P v)
    (h : ∀ s, f s = some (true, v, s)) : GoodP c r f [] P false := fun sep st _ _ hp =>
  ⟨fun _ => ⟨v, st, sep, hv, h st, hp, by simp⟩, fun hz => absurd trivial hz⟩

theorem good_range {α : Type} (hs : c.text.Sound r) {rd : α → RSt → Option (Bool × α × RSt)} {tk : α → List (Token F)}
    {R : α → α → Prop} (hne : ∀ x, tk x ≠ []) (xs ys : List α) (hl : ys.length = xs.length)
    (h : ∀ x ∈ xs, ∀ y ∈ ys, GoodP c r (rd y) (tk x) (R x) true) :
    GoodP c r (readRange rd ys) (xs.flatMap tk) (List.Forall₂ R xs) false := by
  induction xs generalizing ys with
  | nil =>
    match ys, hl with
    | [], _ => exact good_nil .nil (fun _ => rfl)
  | cons x xs ih =>
    match ys, hl with
    | y :: ys, hl =>
      rw [List.flatMap_cons]
      refine GoodP.bind hs (g := fun _ => readRange rd ys) (B := fun _ => List.Forall₂ R xs) (m := fun a b => a :: b) (hne x)
        (h x (by simp) y (by simp))
        (fun _ _ => ih ys (by simpa using hl) fun a ha b hb => h a (by simp [ha]) b (by simp [hb]))
        (fun a b ha hb => .cons ha hb) ?_ ?_
      · intro st s1 s2 a b e1 e2
        simp [readRange, e1, e2]
      · intro st s2 v hv e
        rw [readRange, Option.bind_eq_some_iff] at e
        obtain ⟨⟨ok, w, s1⟩, e1, e⟩ := e
        cases ok with
        | false => simp at e
        | true =>
          simp only [if_true, Option.map_eq_some_iff, Prod.mk.injEq] at e
          obtain ⟨⟨ok', l, s2'⟩, e2, rfl, rfl, rfl⟩ := e
          cases hv with
          | cons ha hb => exact ⟨w, l, s1, ha, hb, e1, s2', e2⟩

theorem good_emplace {α : Type} (hs : c.text.Sound r) {rd : α → RSt → Option (Bool × α × RSt)} {fresh : α}
    {tk : α → List (Token F)} {R : α → α → Prop} (hne : ∀ x, tk x ≠ []) (xs acc : List α)
    (h : ∀ x ∈ xs, GoodP c r (rd fresh) (tk x) (R x) true) :
    GoodP c r (readEmplace rd fresh xs.length acc) (xs.flatMap tk) (fun l => ∃ l', l = acc ++ l' ∧ List.Forall₂ R xs l')
      false := by
  induction xs generalizing acc with
  | nil => exact good_nil (v := acc) ⟨[], by simp, .nil⟩ (fun _ => by simp [readEmplace])
  | cons x xs ih =>
    rw [List.flatMap_cons]
    refine GoodP.bind hs (g := fun v => readEmplace rd fresh xs.length (acc ++ [v]))
      (B := fun v l => ∃ l', l = acc ++ [v] ++ l' ∧ List.Forall₂ R xs l') (m := fun _ l => l) (hne x) (h x (by simp))
      (fun a _ => ih (acc ++ [a]) fun a ha => h a (by simp [ha])) ?_ ?_ ?_
    · rintro a b ha ⟨l', rfl, hl⟩
      exact ⟨a :: l', by simp, .cons ha hl⟩
    · intro st s1 s2 a b e1 e2
      simp only [List.length_cons, readEmplace, e1, Option.bind_some, if_true, e2]
    · rintro st s2 v ⟨l', rfl, hl⟩ e
      rw [List.length_cons, readEmplace, Option.bind_eq_some_iff] at e
      obtain ⟨⟨ok, v, s1⟩, e1, e⟩ := e
      cases ok with
      | false => simp at e
      | true =>
        simp only [if_true] at e
        obtain ⟨l2, hl2, -⟩ := TextTree.emplace_prefix e
        cases hl with
        | @cons _ a _ l' ha hb =>
          have : acc ++ (a :: l') = acc ++ (v :: l2) := by rw [hl2]; simp
          obtain ⟨rfl, rfl⟩ := List.cons.inj (List.append_cancel_left this)
          exact ⟨a, acc ++ a :: l', s1, ha, ⟨l', by simp, hb⟩, e1, s2, e⟩

theorem good_container {α : Type} (hs : c.text.Sound r) {tk : α → List (Token F)} {xs old : List α} {R : α → α → Prop}
    {el : Nat → RSt → Option (Bool × List α × RSt)} (hn : xs.length < 2 ^ 63)
    (hel : GoodP c r (el xs.length) (xs.flatMap tk) (List.Forall₂ R xs) false)
    (hlen : ∀ n s l s', el n s = some (true, l, s') → l.length = n) :
    GoodP c r (readContainer c.text r old el) (.plain (.number 64 false xs.length) :: xs.flatMap tk) (List.Forall₂ R xs)
      false := by
  refine GoodP.bind hs (ta := [.plain (.number 64 false xs.length)]) (g := fun n => el n.toNat) (A := (· = (xs.length : Int)))
    (B := fun _ => List.Forall₂ R xs) (m := fun _ l => l) (by simp) (GoodP.of_good (TextTree.good_size hs hn))
    ?_ (fun _ _ _ h => h) ?_ ?_
  · rintro a rfl
    rw [Int.toNat_natCast]
    exact hel
  · intro st s1 s2 a b e1 e2
    simp [readContainer, e1] at e2 ⊢
    exact e2
  · intro st s2 v hv e
    rw [readContainer, Option.bind_eq_some_iff] at e
    obtain ⟨⟨ok, n, s1⟩, e1, e⟩ := e
    cases ok with
    | false => simp at e
    | true =>
      simp only [if_true] at e
      have h1 := hlen _ _ _ _ e
      have h2 := TextTree.readSize_nonneg e1
      have h3 := hv.length_eq
      obtain rfl : n = xs.length := by omega
      exact ⟨_, v, s1, rfl, hv, e1, s2, e⟩

theorem array_good {α : Type} {f : RSt → Option (Bool × List α × RSt)} {tk : α → List (Token F)} {x y : List α}
    {P : List α → Prop} (hne : ∀ x, tk x ≠ []) (h : GoodP c r f (x.flatMap tk) P false) :
    GoodP c r (TextTree.nested c.text r f y) (if x.isEmpty then [.plain .nothing] else x.flatMap tk) P true := by
  cases x with
  | nil => exact GoodP.nested_nothing h
  | cons a as => exact GoodP.nested (by simp [hne]) h

/-! ### All types -/

omit [LinearOrder F] [IsStrictOrderedRing F] [FloorSemiring F] in
mutual

theorem ready_default (t : Ty) : Ready t (default (F := F) t) := by
  match t with
  | .real => trivial
  | .plain t => exact TextTree.ready_default t
  | .tuple ts => simp only [Ready, default]; exact ready_defaults ts
  | .array n t =>
    simp only [Ready, default]
    refine ⟨by simp, fun y hy => ?_⟩
    rw [List.eq_of_mem_replicate hy]
    exact ready_default t
  | .vec t => simp only [Ready, default]; intro y hy; simp at hy
  | .seq t => rfl

theorem ready_defaults (ts : Tys) : ReadyTuple ts (defaults (F := F) ts) := by
  match ts with
  | .nil => trivial
  | .cons t ts => exact ⟨ready_default t, ready_defaults ts⟩

end

section
variable (hs : c.Sound r u N)
include hs

mutual

theorem good_read (t : Ty) (x y : Val F t) (hv : Valid c ε t x) (hy : Ready t y) :
    GoodP c r (read c r t y) (tokens t x) (Close c ε u N t x) true := by
  match t with
  | .real => exact good_real hs hv
  | .plain t => exact GoodP.of_good (TextTree.good_read hs.text t x y hv hy)
  | .tuple .nil => exact GoodP.nested_nothing (good_nil (v := ()) trivial fun _ => rfl)
  | .tuple (.cons t ts) =>
    have := good_readTuple (.cons t ts) x y hv hy
    have he : tokens (.tuple (.cons t ts)) x = tokensTuple (.cons t ts) x := by simp only [tokens, tokensTuple]
    rw [he]
    exact this.nested (he ▸ tokens_ne _ x)
  | .array n t =>
    simp only [Valid, Ready] at hv hy
    have := good_range hs.text (rd := read c r t) (tokens_ne t) x y (hy.1.trans hv.1.symm)
      (fun a ha b hb => good_read t a b (hv.2 a ha) (hy.2 b hb))
    rw [tokens]
    exact array_good (tokens_ne t) this
  | .vec t =>
    simp only [Valid, Ready] at hv hy
    rw [tokens]
    refine GoodP.nested (by simp) (good_container hs.text hv.1 ?_ ?_)
    · have hres : resize (default t) (List.length x) y =
        some (List.take (List.length x) y ++ List.replicate (List.length x - List.length y) (default t)) :=
          if_pos hv.1
      rw [hres]
      refine good_range hs.text (tokens_ne t) x _ (TextTree.resize_length hres) fun a ha b hb => good_read t a b (hv.2 a ha) ?_
      rcases List.mem_append.mp hb with h | h
      · exact hy b (List.mem_of_mem_take h)
      · rw [List.eq_of_mem_replicate h]; exact ready_default t
    · intro n s l s' h
      rw [Option.bind_eq_some_iff] at h
      obtain ⟨ys, h1, h2⟩ := h
      rw [TextTree.range_length h2, TextTree.resize_length h1]
  | .seq t =>
    simp only [Valid, Ready] at hv hy
    rw [tokens]
    subst hy
    refine GoodP.nested (by simp) (good_container hs.text hv.1 ?_ ?_)
    · have := good_emplace hs.text (rd := read c r t) (fresh := default t) (tokens_ne t) x []
        fun a ha => good_read t a _ (hv.2 a ha) (ready_default t)
      simpa using this
    · intro n s l s' h
      obtain ⟨l', rfl, hl⟩ := TextTree.emplace_prefix h
      simpa using hl

theorem good_readTuple (ts : Tys) (x y : Vals F ts) (hv : ValidTuple c ε ts x) (hy : ReadyTuple ts y) :
    GoodP c r (readTuple c r ts y) (tokensTuple ts x) (CloseTuple c ε u N ts x) false := by
  match ts with
  | .nil => exact good_nil (v := ()) trivial fun _ => rfl
  | .cons t ts =>
    simp only [ValidTuple, ReadyTuple] at hv hy
    rw [tokensTuple]
    refine GoodP.bind hs.text (g := fun _ => readTuple c r ts y.2) (B := fun _ => CloseTuple c ε u N ts x.2)
      (m := fun a b => (a, b)) (tokens_ne t x.1) (good_read t x.1 y.1 hv.1 hy.1)
      (fun _ _ => good_readTuple ts x.2 y.2 hv.2 hy.2) (fun a b ha hb => ⟨ha, hb⟩) ?_ ?_
    · intro st s1 s2 a b e1 e2
      rw [readTuple, e1]
      simp only [Option.bind_some, if_true, e2, Option.map_some]
    · intro st s2 v hv e
      rw [readTuple, Option.bind_eq_some_iff] at e
      obtain ⟨⟨ok, w, s1⟩, e1, e⟩ := e
      cases ok with
      | false => simp at e
      | true =>
        simp only [if_true, Option.map_eq_some_iff, Prod.mk.injEq] at e
        obtain ⟨⟨ok', l, s2'⟩, e2, rfl, rfl, rfl⟩ := e
        exact ⟨w, l, s1, hv.1, hv.2, e1, s2', e2⟩

end

end

/-! ### What survives -/

theorem white_text (hs : c.Sound r u N) {tok : Token F} (hf : tok.Fits c ε) :
    White ((tok.erase c).text c.text) ↔ tok.Blank := by
  cases tok with
  | real x =>
    obtain ⟨s, e, -, ⟨b, t, rfl, hb⟩, -⟩ := real_leaf hs hf
    simp [Token.erase, e, TextTree.Token.text, Token.Blank, White, hb]
  | plain tok => exact TextTree.white_text hs.text hf

theorem white_body (hs : c.Sound .skipws u N) {toks : List (Token F)} (hf : ∀ tok ∈ toks, tok.Fits c ε) :
    White (bodyR c true toks) ↔ ∀ tok ∈ toks, tok.Blank := by
  induction toks with
  | nil => simp [bodyR, body, White]
  | cons t ts ih =>
    rw [List.forall_mem_cons, ← ih fun a ha => hf a (by simp [ha]), ← white_text hs (hf t (by simp)), bodyR, List.map_cons,
      body, TextTree.white_append, TextTree.white_append]
    exact ⟨fun h => ⟨h.1.2, h.2⟩, fun h => ⟨⟨hs.text.white rfl, h.1⟩, h.2⟩⟩

theorem nz_kept (hs : c.Sound r u N) {toks : List (Token F)} (hf : ∀ tok ∈ toks, tok.Fits c ε) {rest : List Byte}
    (hr : Rest c.text rest) :
    NZ c r toks rest ↔ ∀ a tok b, toks = a ++ tok :: b →
      tok.Kept c r (b = [] ∧ rest = []) ((∀ t ∈ b, t.Blank) ∧ White rest) := by
  obtain ⟨sb, ss, hsp, -⟩ := hs.text.space
  have hnil : ∀ ts : List (Token F), bodyR c true ts ++ rest = [] ↔ ts = [] ∧ rest = [] := by
    intro ts
    cases ts with
    | nil => simp [bodyR, body]
    | cons t ts => simp [bodyR, body, spc, hsp]
  have hhead : ∀ ts : List (Token F), (∀ b s, bodyR c true ts ++ rest = b :: s → isSpace b = true) ↔
      ((ts = [] ∧ rest = []) ∨ ∃ b s, c.text.space = b :: s ∧ isSpace b = true) := by
    intro ts
    by_cases h0 : ts = [] ∧ rest = []
    · obtain ⟨rfl, rfl⟩ := h0
      simp [bodyR, body]
    · have : ∃ s, bodyR c true ts ++ rest = sb :: s := by
        cases ts with
        | nil =>
          rcases hr with rfl | ⟨s, rfl⟩
          · simp at h0
          · exact ⟨ss ++ s, by simp [bodyR, body, hsp]⟩
        | cons t ts => exact ⟨ss ++ ((t.erase c).text c.text ++ (bodyR c true ts ++ rest)), by simp [bodyR, body, spc, hsp]⟩
      obtain ⟨s, hs'⟩ := this
      rw [hs', hsp]
      simp [h0]
  induction toks with
  | nil => simp [NZ]
  | cons t ts ih =>
    have hf' : ∀ tok ∈ ts, tok.Fits c ε := fun a ha => hf a (by simp [ha])
    have hfine : t.Fine r (bodyR c true ts ++ rest) ↔
        t.Kept c r (ts = [] ∧ rest = []) ((∀ t ∈ ts, t.Blank) ∧ White rest) := by
      cases t with
      | real x => exact Iff.rfl
      | plain t =>
        cases t with
        | number w sg x =>
          simp only [Token.Fine, TextTree.Token.Fine, Token.Kept, TextTree.Token.Kept, ne_eq, hnil]
          tauto
        | flag x => exact Iff.rfl
        | char x => exact Iff.rfl
        | nothing => exact Iff.rfl
        | word x =>
          simp only [Token.Fine, TextTree.Token.Fine, Token.Kept, TextTree.Token.Kept, hhead]
          refine and_congr Iff.rfl (and_congr Iff.rfl ?_)
          refine forall_congr' fun hk => ?_
          subst hk
          rw [TextTree.white_append, white_body hs hf']
    rw [NZ, hfine]
    refine (and_congr Iff.rfl (ih hf')).trans ?_
    constructor
    · rintro ⟨h1, h2⟩ a tok b h
      cases a with
      | nil =>
        simp only [List.nil_append, List.cons.injEq] at h
        obtain ⟨rfl, rfl⟩ := h
        exact h1
      | cons u a =>
        simp only [List.cons_append, List.cons.injEq] at h
        exact h2 a tok b h.2
    · intro h
      exact ⟨h [] t ts rfl, fun a tok b e => h (t :: a) tok b (by rw [e]; rfl)⟩

end Actl.RealTree
