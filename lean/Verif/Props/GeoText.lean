import Verif.Model.GeoText
import Verif.Props.TextTree
import Verif.Props.Binary

/-!
# C143: points, spheres, planes and lines written as text and as bytes
-/

namespace Actl.TextTree

open Actl.Text

variable {c : Cfg} {r : Reader} {n w : Nat} {signed : Bool} {a v x y : List Int} {d : Int}

/-- The coordinates are values of their type. -/
def Coords (w : Nat) (signed : Bool) (n : Nat) (x : List Int) : Prop := x.length = n ∧ ∀ i ∈ x, IntText.InRange w signed i

/-- The number types that can be written. -/
def Wide (w : Nat) (signed : Bool) : Prop := (if signed then 32 else 8) ≤ w ∧ w ≤ 126

theorem tokens_point (hn : 0 < n) (hx : x.length = n) :
    tokens (pointTy n w signed) (pointVal x) = x.map (Token.number w signed) := by
  have hne : List.isEmpty x = false := by cases x <;> simp_all
  show (if List.isEmpty x then [Token.nothing] else List.flatMap (tokens (.int w signed)) x) ++ [] = _
  rw [hne, if_neg (by simp), List.append_nil, List.map_eq_flatMap]
  rfl

theorem tokens_sphere (hn : 0 < n) (hx : x.length = n) :
    tokens (sphereTy n w signed) (sphereVal x d) = (x ++ [d]).map (Token.number w signed) := by
  show tokens (pointTy n w signed) (pointVal x) ++ ([Token.number w signed d] ++ []) = _
  rw [tokens_point hn hx]
  simp

theorem tokens_line (hn : 0 < n) (ha : a.length = n) (hv : v.length = n) :
    tokens (lineTy n w signed) (lineVal a v) = (a ++ v).map (Token.number w signed) ++ [.nothing] := by
  show tokens (pointTy n w signed) (pointVal a) ++ (tokens (pointTy n w signed) (pointVal v) ++ ([Token.nothing] ++ [])) = _
  rw [tokens_point hn ha, tokens_point hn hv]
  simp

theorem valid_point (hw : Wide w signed) (hx : Coords w signed n x) : Valid (pointTy n w signed) (pointVal x) :=
  ⟨⟨hx.1, fun i hi => ⟨hw.1, hw.2, hx.2 i hi⟩⟩, trivial⟩

theorem valid_sphere (hw : Wide w signed) (hx : Coords w signed n x) (hd : IntText.InRange w signed d) :
    Valid (sphereTy n w signed) (sphereVal x d) :=
  ⟨valid_point hw hx, ⟨hw.1, hw.2, hd⟩, trivial⟩

theorem valid_line (hw : Wide w signed) (ha : Coords w signed n a) (hv : Coords w signed n v) :
    Valid (lineTy n w signed) (lineVal a v) :=
  ⟨valid_point hw ha, valid_point hw hv, trivial, trivial⟩

theorem ready_point (hx : x.length = n) : Ready (pointTy n w signed) (pointVal x) := ⟨⟨hx, fun _ _ => trivial⟩, trivial⟩

theorem ready_sphere (hx : x.length = n) : Ready (sphereTy n w signed) (sphereVal x d) := ⟨ready_point hx, trivial, trivial⟩

theorem ready_line (ha : a.length = n) (hv : v.length = n) : Ready (lineTy n w signed) (lineVal a v) :=
  ⟨ready_point ha, ready_point hv, trivial, trivial⟩

/-- The text of an integer in the settings. -/
def Numeral (c : Cfg) (w : Nat) (signed : Bool) (i : Int) (s : List Byte) : Prop := (Token.number w signed i).Shows c s

theorem forall₂_numbers {xs : List Int} {ps : List (List Byte)} :
    List.Forall₂ (Token.Shows c) (xs.map (Token.number w signed)) ps ↔ List.Forall₂ (Numeral c w signed) xs ps :=
  List.forall₂_map_left_iff

/-- **C143** A point is written as its coordinates, with the separator between neighbours and nowhere else. -/
theorem point_text (hb : 2 ≤ c.num.base ∧ c.num.base ≤ 36) (hn : 0 < n) (hw : Wide w signed) (hx : Coords w signed n x) :
    ∃ pieces, List.Forall₂ (Numeral c w signed) x pieces ∧
      text c (pointTy n w signed) (pointVal x) = some (c.space.intercalate pieces) := by
  obtain ⟨p, h1, h2⟩ := text_pieces hb _ _ (valid_point (n := n) hw hx)
  rw [tokens_point hn hx.1, forall₂_numbers] at h1
  exact ⟨p, h1, h2⟩

/-- **C143** A sphere or plane is written as its coordinates and its number, with the separator between neighbours and nowhere else. -/
theorem sphere_text (hb : 2 ≤ c.num.base ∧ c.num.base ≤ 36) (hn : 0 < n) (hw : Wide w signed) (hx : Coords w signed n x)
    (hd : IntText.InRange w signed d) :
    ∃ pieces, List.Forall₂ (Numeral c w signed) (x ++ [d]) pieces ∧
      text c (sphereTy n w signed) (sphereVal x d) = some (c.space.intercalate pieces) := by
  obtain ⟨p, h1, h2⟩ := text_pieces hb _ _ (valid_sphere (n := n) hw hx hd)
  rw [tokens_sphere hn hx.1, forall₂_numbers] at h1
  exact ⟨p, h1, h2⟩

theorem intercalate_snoc {s : List Byte} {ps : List (List Byte)} (h : ps ≠ []) :
    s.intercalate (ps ++ [[]]) = s.intercalate ps ++ s := by
  induction ps with
  | nil => exact absurd rfl h
  | cons p ps ih =>
    cases ps with
    | nil => simp [List.intercalate]
    | cons q qs =>
      have := ih (by simp)
      simp only [List.intercalate, List.cons_append, List.intersperse_cons₂, List.flatten_cons, List.append_assoc] at this ⊢
      rw [this]

/-- **C143, the code is wrong.** Every line, ray and segment is written with one more separator, behind its last coordinate. -/
theorem line_text_fails (hb : 2 ≤ c.num.base ∧ c.num.base ≤ 36) (hn : 0 < n) (hw : Wide w signed) (ha : Coords w signed n a)
    (hv : Coords w signed n v) :
    ∃ pieces, List.Forall₂ (Numeral c w signed) (a ++ v) pieces ∧
      text c (lineTy n w signed) (lineVal a v) = some (c.space.intercalate pieces ++ c.space) := by
  obtain ⟨p, h1, h2⟩ := text_pieces hb _ _ (valid_line (n := n) hw ha hv)
  rw [tokens_line hn ha.1 hv.1] at h1
  obtain ⟨p1, p2, h3, h4, rfl⟩ : ∃ p1 p2, List.Forall₂ (Token.Shows c) ((a ++ v).map (Token.number w signed)) p1 ∧
      List.Forall₂ (Token.Shows c) [Token.nothing] p2 ∧ p = p1 ++ p2 :=
    ⟨_, _, (List.forall₂_take_append _ _ _ h1.flip).flip, (List.forall₂_drop_append _ _ _ h1.flip).flip,
      (List.take_append_drop _ _).symm⟩
  rw [forall₂_numbers] at h3
  obtain ⟨q, qs, h5, h6, rfl⟩ := List.forall₂_cons_left_iff.mp h4
  obtain rfl := List.forall₂_nil_left_iff.mp h6
  obtain rfl : q = [] := h5
  refine ⟨p1, h3, ?_⟩
  rw [h2, intercalate_snoc]
  rintro rfl
  rw [List.forall₂_nil_right_iff] at h3
  have h7 := congrArg List.length h3
  have h8 := ha.1
  simp only [List.length_append, List.length_nil] at h7
  omega

/-! ### Reading back -/

theorem kept_numbers {xs : List Int} :
    (∀ p tok q, xs.map (Token.number w signed) = p ++ tok :: q → tok.Kept c r (q = []) (∀ t ∈ q, t.Blank)) ↔
      ∀ i ∈ xs.dropLast, i ≠ 0 := by
  constructor
  · intro h i hi h0
    obtain ⟨p, q, hpq⟩ := List.append_of_mem hi
    have hne : xs ≠ [] := by rintro rfl; simp at hi
    have hxs : xs = p ++ i :: (q ++ [xs.getLast hne]) := by
      conv_lhs => rw [← List.dropLast_append_getLast hne, hpq]
      simp
    have := h (p.map (Token.number w signed)) (.number w signed i) ((q ++ [xs.getLast hne]).map (Token.number w signed)) (by
      conv_lhs => rw [hxs]
      simp)
    rcases this with h1 | h1
    · simp at h1
    · exact h1 h0
  · intro h p tok q e
    obtain ⟨p', q', rfl, rfl, h2⟩ := List.map_eq_append_iff.mp e
    obtain ⟨i, q'', rfl, rfl, rfl⟩ := List.map_eq_cons_iff.mp h2
    by_cases hq : q'' = []
    · exact Or.inl (by simp [hq])
    · refine Or.inr (h i ?_)
      rw [List.dropLast_append_of_ne_nil (by simp), List.dropLast_cons_of_ne_nil hq]
      simp

theorem kept_line {xs : List Int} :
    (∀ p tok q, xs.map (Token.number w signed) ++ [Token.nothing] = p ++ tok :: q →
      tok.Kept c r (q = []) (∀ t ∈ q, t.Blank)) ↔ ∀ i ∈ xs, i ≠ 0 := by
  constructor
  · intro h i hi h0
    obtain ⟨p, q, rfl⟩ := List.append_of_mem hi
    rcases h (p.map (Token.number w signed)) (.number w signed i) (q.map (Token.number w signed) ++ [.nothing]) (by simp) with h1 | h1
    · simp at h1
    · exact h1 h0
  · intro h p tok q e
    have : tok ∈ xs.map (Token.number w signed) ++ [Token.nothing] := by rw [e]; simp
    rcases List.mem_append.mp this with h1 | h1
    · obtain ⟨i, hi, rfl⟩ := List.mem_map.mp h1
      exact Or.inr (h i hi)
    · obtain rfl := List.mem_singleton.mp h1
      trivial

/-- **C143** A point that was written is read back, into any point and by either reader, just if no coordinate but the last is zero. -/
theorem point_read (hs : c.Sound r) (hn : 0 < n) (hw : Wide w signed) (hx : Coords w signed n x) (hy : y.length = n) {s : List Byte}
    (ht : text c (pointTy n w signed) (pointVal x) = some s) :
    (∃ st, read c r (pointTy n w signed) (pointVal y) ⟨s, false⟩ = some (true, pointVal x, st)) ↔ ∀ i ∈ x.dropLast, i ≠ 0 := by
  rw [read_text_iff hs (valid_point hw hx) (ready_point hy) ht, tokens_point hn hx.1, kept_numbers]

/-- **C143** A sphere or plane that was written is read back just if no coordinate is zero. -/
theorem sphere_read (hs : c.Sound r) (hn : 0 < n) (hw : Wide w signed) (hx : Coords w signed n x) (hd : IntText.InRange w signed d)
    (hy : y.length = n) {d' : Int} {s : List Byte} (ht : text c (sphereTy n w signed) (sphereVal x d) = some s) :
    (∃ st, read c r (sphereTy n w signed) (sphereVal y d') ⟨s, false⟩ = some (true, sphereVal x d, st)) ↔ ∀ i ∈ x, i ≠ 0 := by
  rw [read_text_iff hs (valid_sphere hw hx hd) (ready_sphere hy) ht, tokens_sphere hn hx.1, kept_numbers, List.dropLast_concat]

/-- **C143** A line, ray or segment that was written is read back, into any line, just if no coordinate is zero, not even the last. -/
theorem line_read (hs : c.Sound r) (hn : 0 < n) (hw : Wide w signed) (ha : Coords w signed n a) (hv : Coords w signed n v)
    (hx : x.length = n) (hy : y.length = n) {s : List Byte} (ht : text c (lineTy n w signed) (lineVal a v) = some s) :
    (∃ st, read c r (lineTy n w signed) (lineVal x y) ⟨s, false⟩ = some (true, lineVal a v, st)) ↔ ∀ i ∈ a ++ v, i ≠ 0 := by
  rw [read_text_iff hs (valid_line hw ha hv) (ready_line hx hy) ht, tokens_line hn ha.1 hv.1, kept_line]

/-! ### The plain coordinates of a line -/

/-- Two points one after the other, without the empty object behind them. -/
def twoPoints (n w : Nat) (signed : Bool) : Ty := .tuple (.cons (pointTy n w signed) (.cons (pointTy n w signed) .nil))

theorem tokens_two (hn : 0 < n) (ha : a.length = n) (hv : v.length = n) :
    tokens (twoPoints n w signed) (pointVal a, pointVal v, ()) = (a ++ v).map (Token.number w signed) := by
  show tokens (pointTy n w signed) (pointVal a) ++ (tokens (pointTy n w signed) (pointVal v) ++ []) = _
  rw [tokens_point hn ha, tokens_point hn hv]
  simp

theorem enter_end (hs : c.Sound .spaced) : ∃ s, enter c .spaced ⟨[], true⟩ = some (false, s) := by
  obtain ⟨b, t, h, -⟩ := hs.space
  simp [enter, buffers, h, Parser.readConst, Parser.exec, Parser.constReady]

theorem nested_true {α : Type} {rd : RSt → Option (Bool × α × RSt)} {x z : α} {s s' : RSt} :
    nested c r rd x s = some (true, z, s') ↔
      ∃ e q, enter c r s = some (true, e) ∧ rd (e.level true) = some (true, z, q) ∧ s' = q.level false := by
  unfold nested
  rcases enter c r s with _ | ⟨_ | _, e⟩
  · simp
  · simp
  · rcases h : rd (e.level true) with _ | ⟨b, z', q⟩
    · simp [h]
    · simp only [Option.bind_some, if_true, h, Option.map_some, Option.some.injEq, Prod.mk.injEq, true_and]
      constructor
      · rintro ⟨rfl, rfl, rfl⟩
        exact ⟨e, q, rfl, h, rfl⟩
      · rintro ⟨e', q', rfl, h', rfl⟩
        rw [h] at h'
        obtain ⟨rfl, rfl, rfl⟩ : b = true ∧ z' = z ∧ q = q' := by simpa using h'
        exact ⟨rfl, rfl, rfl⟩

theorem readTuple_true {t : Ty} {ts : Tys} {x z : Vals (.cons t ts)} {s s' : RSt} :
    readTuple c r (.cons t ts) x s = some (true, z, s') ↔
      ∃ s1, read c r t x.1 s = some (true, z.1, s1) ∧ readTuple c r ts x.2 s1 = some (true, z.2, s') := by
  rw [readTuple]
  constructor
  · intro h
    obtain ⟨⟨b, y, s1⟩, h1, h2⟩ := Option.bind_eq_some_iff.mp h
    cases b
    · simp only [Bool.false_eq_true, if_false, Option.some.injEq, Prod.mk.injEq, false_and] at h2
    · simp only [if_true] at h2
      obtain ⟨⟨b2, y2, s2⟩, h3, h4⟩ := Option.map_eq_some_iff.mp h2
      simp only [Prod.mk.injEq] at h4
      obtain ⟨rfl, rfl, rfl⟩ := h4
      exact ⟨s1, h1, h3⟩
  · rintro ⟨s1, h1, h2⟩
    rw [h1]
    simp only [Option.bind_some, if_true, h2, Option.map_some]
    rfl

theorem readTuple_nil {x : Vals .nil} {s s' : RSt} {z : Vals .nil} :
    readTuple c r .nil x s = some (true, z, s') ↔ s' = s := by
  rw [readTuple]
  constructor
  · intro h
    simp only [Option.some.injEq, Prod.mk.injEq, true_and] at h
    exact h.2.symm
  · rintro rfl
    rfl

theorem read_tuple_true {ts : Tys} {x z : Vals ts} {s s' : RSt} :
    read c r (.tuple ts) x s = some (true, z, s') ↔
      ∃ e q, enter c r s = some (true, e) ∧ readTuple c r ts x (e.level true) = some (true, z, q) ∧ s' = q.level false := by
  exact nested_true

theorem read_line_two {st : RSt} :
    (∃ st', read c r (lineTy n w signed) (lineVal x y) st = some (true, lineVal a v, st')) ↔
      ∃ st', read c r (twoPoints n w signed) (pointVal x, pointVal y, ()) st = some (true, (pointVal a, pointVal v, ()), st') ∧
        ∃ e, enter c r st' = some (true, e) := by
  unfold lineTy twoPoints lineVal
  constructor
  · rintro ⟨st', h⟩
    obtain ⟨e, q, h1, h2, rfl⟩ := read_tuple_true.mp h
    obtain ⟨s1, h3, h2⟩ := readTuple_true.mp h2
    obtain ⟨s2, h4, h2⟩ := readTuple_true.mp h2
    obtain ⟨s3, h5, -⟩ := readTuple_true.mp h2
    obtain ⟨e', q', h6, -, -⟩ := read_tuple_true.mp h5
    obtain ⟨-, q'', -, -, h7⟩ := read_tuple_true.mp h4
    refine ⟨s2, read_tuple_true.mpr ⟨e, s2, h1, readTuple_true.mpr ⟨s1, h3, readTuple_true.mpr ⟨s2, h4, readTuple_nil.mpr rfl⟩⟩, ?_⟩,
      e', h6⟩
    rw [h7]; rfl
  · rintro ⟨st', h, e', h6⟩
    obtain ⟨e, q, h1, h2, rfl⟩ := read_tuple_true.mp h
    obtain ⟨s1, h3, h2⟩ := readTuple_true.mp h2
    obtain ⟨s2, h4, h2⟩ := readTuple_true.mp h2
    obtain rfl := readTuple_nil.mp h2
    obtain ⟨-, q'', -, -, h7⟩ := read_tuple_true.mp h4
    have h8 : q.level false = q := by rw [h7]; rfl
    rw [h8] at h6
    exact ⟨_, read_tuple_true.mpr ⟨e, _, h1, readTuple_true.mpr ⟨s1, h3, readTuple_true.mpr ⟨q, h4, readTuple_true.mpr
      ⟨_, read_tuple_true.mpr ⟨e', _, h6, readTuple_nil.mpr rfl, rfl⟩, readTuple_nil.mpr rfl⟩⟩⟩, rfl⟩⟩

theorem valid_two (hw : Wide w signed) (ha : Coords w signed n a) (hv : Coords w signed n v) :
    Valid (twoPoints n w signed) (pointVal a, pointVal v, ()) :=
  ⟨valid_point hw ha, valid_point hw hv, trivial⟩

theorem ready_two (ha : a.length = n) (hv : v.length = n) : Ready (twoPoints n w signed) (pointVal a, pointVal v, ()) :=
  ⟨ready_point ha, ready_point hv, trivial⟩

/-- **C143, the code is wrong.** The coordinates of a line with the separator between neighbours and followed by nothing are not read as that
line by `spaced`, whatever they are; `skipws` reads them just if no coordinate but the last is zero. -/
theorem line_plain_fails (hs : c.Sound r) (hn : 0 < n) (hw : Wide w signed) (ha : Coords w signed n a) (hv : Coords w signed n v)
    (hx : x.length = n) (hy : y.length = n) :
    ∃ pieces, List.Forall₂ (Numeral c w signed) (a ++ v) pieces ∧
      ((∃ st, read c r (lineTy n w signed) (lineVal x y) ⟨c.space.intercalate pieces, false⟩ = some (true, lineVal a v, st)) ↔
        r = .skipws ∧ ∀ i ∈ (a ++ v).dropLast, i ≠ 0) := by
  obtain ⟨p, h1, h2⟩ := text_pieces hs.base _ _ (valid_two (n := n) hw ha hv)
  have h3 := read_text_iff hs (valid_two hw ha hv) (ready_two hx hy) h2
  rw [tokens_two hn ha.1 hv.1] at h1 h3
  rw [forall₂_numbers] at h1
  rw [kept_numbers] at h3
  refine ⟨p, h1, ?_⟩
  rw [read_line_two]
  cases r with
  | spaced =>
    simp only [reduceCtorEq, false_and, iff_false]
    rintro ⟨st, h4, e, h5⟩
    have h6 := (read_text_rest hs (valid_two hw ha hv) (ready_two hx hy) h2 h4).1 rfl
    have h7 : st.separate = true := by
      obtain ⟨-, q, -, -, rfl⟩ := read_tuple_true.mp h4
      rfl
    obtain ⟨s', h8⟩ := enter_end hs
    obtain ⟨d, sep⟩ := st
    simp only at h6 h7
    subst h6 h7
    rw [h8] at h5
    cases h5
  | skipws =>
    rw [← h3]
    simp only [enter, true_and]
    exact ⟨fun ⟨st, h, _⟩ => ⟨st, h⟩, fun ⟨st, h⟩ => ⟨st, h, st, rfl⟩⟩

/-! ### `any_line` -/

/-- **C143, the code is wrong.** An `any_line` is written with two separators before its kind. -/
theorem anyLine_text_fails (hb : 2 ≤ c.num.base ∧ c.num.base ≤ 36) (hn : 0 < n) (hw : Wide w signed) (ha : Coords w signed n a)
    (hv : Coords w signed n v) {kind : Nat} (hk : kind < 16) :
    ∃ pieces last, List.Forall₂ (Numeral c w signed) (a ++ v) pieces ∧ Numeral c 32 true kind last ∧
      anyLineText c n w signed a v kind = some (c.space.intercalate pieces ++ c.space ++ c.space ++ last) := by
  have hkr : (if true then 32 else 8) ≤ 32 ∧ 32 ≤ 126 ∧ IntText.InRange 32 true (kind : Int) := by
    refine ⟨by simp, by omega, ?_⟩
    simp only [IntText.InRange, if_true]
    omega
  refine ⟨((a ++ v).map (Token.number w signed)).map (Token.text c), (Token.number 32 true kind).text c, ?_,
    fits_shows hb (tok := .number 32 true kind) hkr, ?_⟩
  · rw [← forall₂_numbers, List.forall₂_map_right_iff, List.forall₂_same, ← tokens_two (n := n) hn ha.1 hv.1]
    exact text_shows hb _ _ (valid_two hw ha hv)
  · rw [anyLineText, writeAnyLine, unit_level, write_eq hb _ _ (valid_point hw ha), Option.bind_some,
      write_eq hb _ _ (valid_point hw hv), Option.bind_some, writeKind, encode_some hb hkr]
    rw [tokens_point hn ha.1, tokens_point hn hv.1, ← body_intercalate, List.map_append,
      body_append (by intro h; have h := congrArg List.length h; simp at h; have := ha.1; subst h; simp at this; omega)]
    simp [writeLeaf, St.unit, St.level, spc]

/-! ### Examples -/

/-- The segment from (1, 2) with the vector (3, -4): the text has a separator at its end. -/
example : text exCfg (lineTy 2 32 true) (lineVal [1, 2] [3, -4]) = some (bytes "1 2 3 -4 ") := by decide +kernel

example : anyLineText exCfg 2 32 true [1, 2] [3, -4] 5 = some (bytes "1 2 3 -4  5") := by decide +kernel

example : text exCfg (sphereTy 2 32 true) (sphereVal [1, 2] 3) = some (bytes "1 2 3") := by decide +kernel

example : Coords 32 true 2 [1, 2] ∧ Wide 32 true := by simp [Coords, Wide, IntText.InRange]

end Actl.TextTree

/-! ### Bytes -/

namespace Actl.Binary

open Actl.Text

variable {n k : Nat} {a v x y : List (BitVec (8 * k))} {rest : List Byte}

theorem writeAll_bytes {α : Type} (w : α → List Byte) (xs : List α) : writeAll w xs = xs.flatMap w := by
  induction xs with
  | nil => rfl
  | cons x xs ih => rw [writeAll, ih, List.flatMap_cons]

/-- **C143** In the binary format a line, ray or segment is the bytes of the coordinates of its two members and nothing else; read into any
line they give it back. -/
theorem line_bytes (ha : a.length = n) (hv : v.length = n) (hx : x.length = n) (hy : y.length = n) :
    write (lineBin n k) (a, v, (), ()) = (a ++ v).flatMap (fun i => toBytes k i.toNat) ∧
      read (lineBin n k) (x, y, (), ()) (write (lineBin n k) (a, v, (), ()) ++ rest) = (true, (a, v, (), ()), rest) := by
  refine ⟨?_, read_write_partial _ _ _ _ ⟨⟨ha, fun _ _ => trivial⟩, ⟨hv, fun _ _ => trivial⟩, trivial, trivial⟩
    ⟨⟨hx, fun _ _ => trivial⟩, ⟨hy, fun _ _ => trivial⟩, trivial, trivial⟩
    ⟨fun _ _ => trivial, fun _ _ => trivial, trivial, trivial⟩⟩
  show writeAll (write (.arith k)) a ++ (writeAll (write (.arith k)) v ++ ([] ++ [])) = _
  have e := fun l => writeAll_bytes (write (.arith k)) l
  rw [List.flatMap_append]
  exact congrArg₂ _ (e a) ((congrArg₂ _ (e v) rfl).trans (List.append_nil _))

/-- **C143** The same for a sphere or plane. -/
theorem sphere_bytes {d d' : BitVec (8 * k)} (hv : v.length = n) (hx : x.length = n) :
    write (sphereBin n k) (v, d, ()) = (v ++ [d]).flatMap (fun i => toBytes k i.toNat) ∧
      read (sphereBin n k) (x, d', ()) (write (sphereBin n k) (v, d, ()) ++ rest) = (true, (v, d, ()), rest) := by
  refine ⟨?_, read_write_partial _ _ _ _ ⟨⟨hv, fun _ _ => trivial⟩, trivial, trivial⟩ ⟨⟨hx, fun _ _ => trivial⟩, trivial, trivial⟩
    ⟨fun _ _ => trivial, trivial, trivial⟩⟩
  show writeAll (write (.arith k)) v ++ (write (.arith k) d ++ []) = _
  have e := fun l => writeAll_bytes (write (.arith k)) l
  rw [List.flatMap_append]
  exact congrArg₂ _ (e v) rfl

example : write (lineBin 2 2) (([1, 258] : List (BitVec 16)), ([3, 4] : List (BitVec 16)), (), ()) =
    ([1, 0, 2, 1, 3, 0, 4, 0] : List Byte) := by decide +kernel

end Actl.Binary
