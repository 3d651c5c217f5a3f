import Verif.Spec.Decorators

/-!
# C59: spacing and bracing

* `write_joined`: what is written is the pieces with the separator exactly between neighbouring
  units, on every level of nesting, in the brackets of each composite.
* `write_intercalate`: for values that are units the output is their texts with the separator
  between consecutive ones.
* `write_twice`: the format object remembers, so consecutive writes are one write.
* `braced_balanced`: the brackets written by `braced` match.
-/

namespace Actl.Decor

/-- What comes before the next pieces, given the flag: the flag says that the last piece at this
level was a unit. -/
def joinedAfter (space : List Char) (sep : Bool) (l : List Piece) : List Char :=
  match l with
  | [] => []
  | p :: rest => (match sep, p with | true, .unit _ => space | _, _ => []) ++
      joined space (p :: rest)

/-- The flag after some pieces. -/
def flagAfter (sep : Bool) : List Piece → Bool
  | [] => sep
  | .unit _ :: rest => flagAfter true rest
  | .glue _ :: rest => flagAfter false rest

theorem flagAfter_append (a b : List Piece) : ∀ sep, flagAfter sep (a ++ b) = flagAfter (flagAfter sep a) b := by
  induction a with
  | nil => intro sep; rfl
  | cons p a ih => intro sep; cases p <;> simp [flagAfter, ih]

theorem joinedAfter_cons (space : List Char) (sep : Bool) (p : Piece) (l : List Piece) :
    joinedAfter space sep (p :: l) =
      joinedAfter space sep [p] ++ joinedAfter space (flagAfter sep [p]) l := by
  cases l with
  | nil => simp [joinedAfter]
  | cons q l => cases sep <;> cases p <;> cases q <;>
      simp [joinedAfter, joined, between, flagAfter]

theorem joinedAfter_append (space : List Char) (b : List Piece) : ∀ (a : List Piece) (sep : Bool),
    joinedAfter space sep (a ++ b) =
      joinedAfter space sep a ++ joinedAfter space (flagAfter sep a) b
  | [], sep => by simp [joinedAfter, flagAfter]
  | p :: a, sep => by
    rw [List.cons_append, joinedAfter_cons, joinedAfter_append space b a,
      joinedAfter_cons space sep p a, List.append_assoc]
    cases p <;> rfl

theorem joinedAfter_false (space : List Char) (l : List Piece) :
    joinedAfter space false l = joined space l := by
  cases l with
  | nil => rfl
  | cons p l => simp [joinedAfter]

/-- The effect of some pieces on the state. -/
def apply (f : Fmt) (l : List Piece) (s : St) : St :=
  ⟨flagAfter s.separate l, s.out ++ joinedAfter f.space s.separate l⟩

theorem apply_append (f : Fmt) (a b : List Piece) (s : St) :
    apply f (a ++ b) s = apply f b (apply f a s) := by
  simp [apply, flagAfter_append, joinedAfter_append]

theorem apply_unit (f : Fmt) (t : List Char) (s : St) :
    apply f [.unit t] s = (s.unit f).emit t := by
  obtain ⟨sep, out⟩ := s
  cases sep <;> simp [apply, flagAfter, joinedAfter, joined, St.unit, St.emit, Piece.text]

theorem apply_glue (f : Fmt) (t : List Char) (s : St) :
    apply f [.glue t] s = { s with separate := false }.emit t := by
  obtain ⟨sep, out⟩ := s
  cases sep <;> simp [apply, flagAfter, joinedAfter, joined, St.emit, Piece.text]

/-- Some pieces in a scope of their own. -/
theorem scope_eq (f : Fmt) (l : List Piece) (s : St) :
    (apply f l (s.level true)).level false = { s with separate := true }.emit (joined f.space l) := by
  simp [apply, St.level, St.emit, joinedAfter_false]

theorem unit_separate (f : Fmt) (s : St) : (s.unit f).separate = true := by
  obtain ⟨sep, out⟩ := s
  cases sep <;> rfl

theorem emit_emit (s : St) (a b : List Char) : (s.emit a).emit b = s.emit (a ++ b) := by
  simp [St.emit]

/-- After a unit started, a scope of its own is just its text. -/
theorem unit_scope (f : Fmt) (l : List Piece) (s : St) (pre : List Char) :
    (apply f l (((s.unit f).emit pre).level true)).level false =
      ((s.unit f).emit pre).emit (joined f.space l) := by
  rw [scope_eq]
  have : (s.unit f).emit pre = { (s.unit f).emit pre with separate := true } := by
    have h := unit_separate f s
    cases hs : s.unit f with
    | mk sep out => rw [hs] at h; subst h; rfl
  rw [← this]

theorem writeSize_eq (f : Fmt) (n : Nat) (s : St) :
    writeSize f n s = apply f [.unit (f.number n)] s := by
  rw [apply_unit]
  obtain ⟨sep, out⟩ := s
  cases sep <;> simp [writeSize, St.unit, St.level, St.emit]

theorem foldl_chars (f : Fmt) : ∀ (t : List Char) (s : St),
    t.foldl (fun s c => (s.unit f).emit [c]) s = apply f (t.map fun c => .unit [c]) s
  | [], s => by simp [apply, flagAfter, joinedAfter]
  | c :: t, s => by
    rw [List.foldl_cons, foldl_chars f t, List.map_cons, ← apply_unit,
      show Piece.unit [c] :: (t.map fun c => Piece.unit [c]) =
        [Piece.unit [c]] ++ (t.map fun c => Piece.unit [c]) from rfl, apply_append]

theorem emit_nil (s : St) : s.emit [] = s := by simp [St.emit]

mutual

/-- One value. -/
theorem write_eq (f : Fmt) : ∀ (x : Val) (s : St), write f x s = apply f (pieces f x) s
  | .atom t, s => by rw [write, pieces, apply_unit]
  | .str t, s => by
    rw [write, pieces, apply_unit]
    cases f.braced with
    | false => rfl
    | true =>
      simp only [if_true]
      rw [foldl_chars, unit_scope, emit_emit, emit_emit]
      rfl
  | .raw t, s => by rw [write, pieces, apply_glue]
  | .colon, s => by rw [write, pieces, apply_glue]
  | .batch l, s => by rw [write, pieces]; exact writeAll_eq f l s
  | .tuple l, s => by
    rw [write, pieces, apply_unit]
    cases f.braced with
    | false =>
      simp only [Bool.false_eq_true, if_false]
      have := unit_scope f (piecesAll f l) s []
      rw [emit_nil] at this
      rw [writeAll_eq f l, this]
    | true =>
      simp only [if_true]
      rw [writeAll_eq f l, unit_scope, emit_emit, emit_emit]
      rfl
  | .range k l, s => by
    have hv := unit_scope f (piecesAll f l) s []
    rw [emit_nil] at hv
    have hn := unit_scope f (.unit (f.number l.length) :: piecesAll f l) s []
    rw [emit_nil, show Piece.unit (f.number l.length) :: piecesAll f l =
        [Piece.unit (f.number l.length)] ++ piecesAll f l from rfl, apply_append,
      ← writeSize_eq] at hn
    rw [write]
    cases hb : f.braced with
    | false =>
      simp only [Bool.false_eq_true, if_false]
      rw [writeAll_eq f l]
      cases k with
      | view => rw [pieces, apply_unit]; exact hv
      | sequence d =>
        cases d with
        | false =>
          rw [pieces, hb]
          simp only [Bool.false_eq_true, if_false]
          rw [apply_unit]; exact hv
        | true =>
          rw [pieces, hb]
          simp only [Bool.false_eq_true, if_false, if_true]
          rw [apply_unit]; exact hn
      | associative =>
        rw [pieces, hb]
        simp only [Bool.false_eq_true, if_false]
        rw [apply_unit]; exact hn
    | true =>
      simp only [if_true]
      cases k with
      | view =>
        rw [pieces, apply_unit]
        simp only [bracketsOf]
        rw [writeAll_eq f l]; exact hv
      | sequence d =>
        rw [pieces, hb]
        simp only [bracketsOf, if_true]
        rw [apply_unit, writeAll_eq f l, unit_scope, emit_emit, emit_emit]; rfl
      | associative =>
        rw [pieces, hb]
        simp only [bracketsOf, if_true]
        rw [apply_unit, writeAll_eq f l, unit_scope, emit_emit, emit_emit]; rfl

/-- Several values. -/
theorem writeAll_eq (f : Fmt) : ∀ (l : List Val) (s : St),
    writeAll f l s = apply f (piecesAll f l) s
  | [], s => by simp [writeAll, piecesAll, apply, flagAfter, joinedAfter]
  | x :: xs, s => by
    rw [writeAll, piecesAll, apply_append, ← write_eq f x, writeAll_eq f xs]

end

/-- **Separators exactly between units, on every level.** -/
theorem write_joined (f : Fmt) (l : List Val) (out : List Char) :
    (writeAll f l ⟨false, out⟩).out = out ++ joined f.space (piecesAll f l) := by
  rw [writeAll_eq, apply, joinedAfter_false]

theorem joined_units (space : List Char) : ∀ l : List (List Char),
    joined space (l.map .unit) = List.intercalate space l
  | [] => by simp [joined]
  | [t] => by simp [joined, Piece.text]
  | t :: u :: l => by
    have := joined_units space (u :: l)
    simp only [List.map_cons] at this ⊢
    rw [joined, this]
    simp [between, Piece.text, List.intercalate]

theorem pieces_unit (f : Fmt) : ∀ x : Val, IsUnit x → pieces f x = [.unit (render f x)]
  | .atom t, _ => by simp [pieces, render, joined, Piece.text]
  | .str t, _ => by simp [pieces, render, joined, Piece.text]
  | .tuple l, _ => by simp [pieces, render, joined, Piece.text]
  | .range .view l, _ => by simp [pieces, render, joined, Piece.text]
  | .range (.sequence d) l, _ => by
    simp only [render, pieces]
    cases f.braced <;> cases d <;> simp [joined, Piece.text]
  | .range .associative l, _ => by
    simp only [render, pieces]
    cases f.braced <;> simp [joined, Piece.text]

theorem piecesAll_units (f : Fmt) : ∀ l : List Val, (∀ x ∈ l, IsUnit x) →
    piecesAll f l = (l.map (render f)).map .unit
  | [], _ => by simp [piecesAll]
  | x :: l, h => by
    rw [piecesAll, pieces_unit f x (h x (by simp)),
      piecesAll_units f l fun y hy => h y (List.mem_cons_of_mem _ hy)]
    rfl

/-- **A list of values**: their texts with the separator between consecutive ones; none before the
first, none after the last. -/
theorem write_intercalate (f : Fmt) (l : List Val) (h : ∀ x ∈ l, IsUnit x) (out : List Char) :
    (writeAll f l ⟨false, out⟩).out = out ++ List.intercalate f.space (l.map (render f)) := by
  rw [write_joined, piecesAll_units f l h, joined_units]

/-- **Nested**: the text of a composite is the texts of its parts with the separator between
consecutive ones, in its brackets. -/
theorem render_tuple (f : Fmt) (l : List Val) (h : ∀ x ∈ l, IsUnit x) :
    render f (.tuple l) = if f.braced then wrap '(' ')' (List.intercalate f.space (l.map (render f)))
      else List.intercalate f.space (l.map (render f)) := by
  simp [render, pieces, joined, Piece.text, piecesAll_units f l h, joined_units, ← List.map_map]

/-- The text of a container: in brackets, or after its size. -/
theorem render_vector (f : Fmt) (l : List Val) (h : ∀ x ∈ l, IsUnit x) :
    render f (.range (.sequence true) l) =
      if f.braced then wrap '[' ']' (List.intercalate f.space (l.map (render f)))
      else List.intercalate f.space (f.number l.length :: l.map (render f)) := by
  rw [render, pieces, piecesAll_units f l h]
  cases f.braced with
  | true =>
    simp only [if_true, joined, Piece.text]
    rw [joined_units]
  | false =>
    simp only [Bool.false_eq_true, if_false, if_true, joined, Piece.text]
    rw [← joined_units]; rfl

/-- The pieces of the elements of a map. -/
theorem piecesAll_map (f : Fmt) : ∀ l : List (Val × Val), (∀ p ∈ l, IsUnit p.1 ∧ IsUnit p.2) →
    ∀ (sep : Bool), joinedAfter f.space sep (piecesAll f (l.map fun p => .batch [p.1, .colon, p.2])) =
      joinedAfter f.space sep (l.map fun p =>
        .unit (render f p.1 ++ f.colon ++ render f p.2))
  | [], _, _ => by simp [piecesAll]
  | p :: l, h, sep => by
    have hp := h p (by simp)
    rw [List.map_cons, piecesAll, joinedAfter_append, List.map_cons, joinedAfter_cons,
      pieces, piecesAll, piecesAll, piecesAll, piecesAll, pieces_unit f _ hp.1,
      pieces_unit f _ hp.2]
    have e : flagAfter sep ([Piece.unit (render f p.1)] ++
        (pieces f Val.colon ++ ([Piece.unit (render f p.2)] ++ []))) =
        flagAfter sep [Piece.unit (render f p.1 ++ f.colon ++ render f p.2)] := by
      simp [pieces, flagAfter]
    rw [e, piecesAll_map f l (fun q hq => h q (List.mem_cons_of_mem _ hq))]
    congr 1
    cases sep <;> simp [pieces, joinedAfter, joined, between, Piece.text]

/-- The text of a map: key, colon, value, with the separator between consecutive pairs. -/
theorem render_map_braced (f : Fmt) (hb : f.braced = true) (l : List (Val × Val))
    (h : ∀ p ∈ l, IsUnit p.1 ∧ IsUnit p.2) :
    render f (.map l) = wrap '{' '}' (List.intercalate f.space
      (l.map fun p => render f p.1 ++ f.colon ++ render f p.2)) := by
  have e := piecesAll_map f l h false
  rw [joinedAfter_false, joinedAfter_false] at e
  rw [render, Val.map, pieces, hb]
  simp only [if_true, joined, Piece.text]
  rw [e, ← joined_units, List.map_map]; rfl

/-- The same map without brackets comes after its size. -/
theorem render_map_plain (f : Fmt) (hb : f.braced = false) (l : List (Val × Val))
    (h : ∀ p ∈ l, IsUnit p.1 ∧ IsUnit p.2) :
    render f (.map l) = List.intercalate f.space (f.number l.length ::
      l.map fun p => render f p.1 ++ f.colon ++ render f p.2) := by
  have e := piecesAll_map f l h true
  rw [render, Val.map, pieces, hb]
  simp only [Bool.false_eq_true, if_false, List.length_map, joined, Piece.text]
  rw [← joined_units, List.map_cons, List.map_map, ← joinedAfter_false, joinedAfter_cons,
    ← joinedAfter_false f.space (_ :: _), joinedAfter_cons f.space false _ (List.map _ _)]
  exact congrArg _ e

/-- **The format object remembers**: two writes with one format object are one write. -/
theorem write_twice (f : Fmt) : ∀ (a b : List Val) (s : St),
    writeAll f b (writeAll f a s) = writeAll f (a ++ b) s
  | [], b, s => by simp [writeAll]
  | x :: a, b, s => by rw [writeAll, write_twice f a b, List.cons_append, writeAll]

/-! ## Brackets -/

/-- The brackets of a text. -/
def brackets (t : List Char) : List Char := t.filter isBracket

theorem brackets_plain {t : List Char} (h : Plain t) : brackets t = [] :=
  List.filter_eq_nil_iff.2 fun c hc => by simp [h c hc]

theorem brackets_append (a b : List Char) : brackets (a ++ b) = brackets a ++ brackets b :=
  List.filter_append _ _

/-- All pieces have matching brackets. -/
def BalancedPieces (l : List Piece) : Prop := ∀ p ∈ l, Balanced (brackets p.text)

theorem balanced_joined {space : List Char} (hs : Plain space) : ∀ l : List Piece,
    BalancedPieces l → Balanced (brackets (joined space l))
  | [], _ => .nil
  | [p], h => h p (by simp)
  | p :: q :: rest, h => by
    rw [joined, brackets_append, brackets_append]
    have hb : brackets (between space p q) = [] := by
      cases p <;> cases q <;> first | exact brackets_plain hs | rfl
    rw [hb, List.append_nil]
    exact .append (h p (by simp)) (balanced_joined hs (q :: rest) fun r hr =>
      h r (List.mem_cons_of_mem _ hr))

theorem balanced_wrap_round {t : List Char} (h : Balanced (brackets t)) :
    Balanced (brackets (wrap '(' ')' t)) := by
  have : brackets (wrap '(' ')' t) = wrap '(' ')' (brackets t) := by
    simp [wrap, brackets, isBracket]
  rw [this]; exact .round h

theorem balanced_wrap_square {t : List Char} (h : Balanced (brackets t)) :
    Balanced (brackets (wrap '[' ']' t)) := by
  have : brackets (wrap '[' ']' t) = wrap '[' ']' (brackets t) := by
    simp [wrap, brackets, isBracket]
  rw [this]; exact .square h

theorem balanced_wrap_curly {t : List Char} (h : Balanced (brackets t)) :
    Balanced (brackets (wrap '{' '}' t)) := by
  have : brackets (wrap '{' '}' t) = wrap '{' '}' (brackets t) := by
    simp [wrap, brackets, isBracket]
  rw [this]; exact .curly h

theorem balanced_plain {t : List Char} (h : Plain t) : Balanced (brackets t) := by
  rw [brackets_plain h]; exact .nil

theorem balanced_one {t : List Char} (h : Balanced (brackets t)) : BalancedPieces [.unit t] := by
  intro p hp; rw [List.mem_singleton.1 hp]; exact h

mutual

theorem balanced_pieces {f : Fmt} (hs : Plain f.space) (hc : Plain f.colon)
    (hn : ∀ n, Plain (f.number n)) : ∀ x : Val, PlainVal x → BalancedPieces (pieces f x)
  | .atom t, h => by
    rw [pieces]; rw [PlainVal] at h; exact balanced_one (balanced_plain h)
  | .str t, h => by
    rw [PlainVal] at h
    rw [pieces]
    apply balanced_one
    cases f.braced with
    | false => exact balanced_plain h
    | true =>
      apply balanced_wrap_square
      apply balanced_joined hs
      intro p hp
      obtain ⟨c, hc', rfl⟩ := List.mem_map.1 hp
      exact balanced_plain fun d hd => by rw [List.mem_singleton.1 hd]; exact h c hc'
  | .raw t, h => by
    rw [pieces]; rw [PlainVal] at h
    intro p hp; rw [List.mem_singleton.1 hp]; exact balanced_plain h
  | .colon, _ => by
    rw [pieces]
    intro p hp; rw [List.mem_singleton.1 hp]; exact balanced_plain hc
  | .batch l, h => by
    rw [pieces]; rw [PlainVal] at h; exact balanced_piecesAll hs hc hn l h
  | .tuple l, h => by
    rw [PlainVal] at h
    have hl := balanced_joined hs _ (balanced_piecesAll hs hc hn l h)
    rw [pieces]
    apply balanced_one
    cases f.braced with
    | false => exact hl
    | true => exact balanced_wrap_round hl
  | .range k l, h => by
    rw [PlainVal] at h
    have hp := balanced_piecesAll hs hc hn l h
    have hl := balanced_joined hs _ hp
    have hl' := balanced_joined hs (.unit (f.number l.length) :: piecesAll f l) (by
      intro p hp'
      rcases List.mem_cons.1 hp' with rfl | hp'
      · exact balanced_plain (hn _)
      · exact hp p hp')
    cases k with
    | view => rw [pieces]; exact balanced_one hl
    | sequence d =>
      rw [pieces]
      cases f.braced <;> cases d <;> apply balanced_one
      · exact hl
      · exact hl'
      · exact balanced_wrap_square hl
      · exact balanced_wrap_square hl
    | associative =>
      rw [pieces]
      cases f.braced <;> apply balanced_one
      · exact hl'
      · exact balanced_wrap_curly hl

theorem balanced_piecesAll {f : Fmt} (hs : Plain f.space) (hc : Plain f.colon)
    (hn : ∀ n, Plain (f.number n)) : ∀ l : List Val, PlainAll l → BalancedPieces (piecesAll f l)
  | [], _ => by rw [piecesAll]; intro p hp; simp at hp
  | x :: l, h => by
    rw [PlainAll] at h
    rw [piecesAll]
    intro p hp
    rcases List.mem_append.1 hp with hp | hp
    · exact balanced_pieces hs hc hn x h.1 p hp
    · exact balanced_piecesAll hs hc hn l h.2 p hp

end

/-- **Matching brackets**: if no text given by the user contains brackets, the brackets of the output
match. -/
theorem braced_balanced (f : Fmt) (hs : Plain f.space) (hc : Plain f.colon)
    (hn : ∀ n, Plain (f.number n)) (l : List Val) (h : PlainAll l) :
    Balanced (brackets (writeAll f l ⟨false, []⟩).out) := by
  rw [write_joined]
  exact balanced_joined hs _ (balanced_piecesAll hs hc hn l h)

/-! ## Concrete cases, the ones of the tests of the library -/

/-- `spaced{' ', ':'} >>= braced{} >>= text`. -/
def sbts : Fmt := ⟨[' '], [':'], true, fun n => (Nat.repr n).toList⟩

/-- `spaced{} >>= text`. -/
def st : Fmt := ⟨[' '], [' '], false, fun n => (Nat.repr n).toList⟩

/-- `{[(0 1)] [(2 3) (4 5)]}` -/
def nestedExample : Val :=
  .range .associative
    [.range (.sequence true) [.tuple [.atom ['0'], .atom ['1']]],
     .range (.sequence true) [.tuple [.atom ['2'], .atom ['3']], .tuple [.atom ['4'], .atom ['5']]]]

example : (writeAll sbts [nestedExample] ⟨false, []⟩).out = "{[(0 1)] [(2 3) (4 5)]}".toList := by
  decide +kernel

example : (writeAll sbts [.map [(.atom ['0'], .atom ['1']), (.atom ['2'], .atom ['3'])],
    .atom ['x']] ⟨false, []⟩).out = "{0:1 2:3} x".toList := by
  decide +kernel

example : (writeAll st [.range (.sequence true) [.atom ['2'], .atom ['4']], .raw ['\n'],
    .atom ['7']] ⟨false, []⟩).out = "2 2 4\n7".toList := by
  decide +kernel

example : PlainAll [nestedExample] := by
  simp [PlainAll, PlainVal, nestedExample, Plain, isBracket]

example : ∀ x ∈ [nestedExample, .atom ['x']], IsUnit x := by
  simp [nestedExample, IsUnit]

end Actl.Decor
