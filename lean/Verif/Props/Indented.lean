import Verif.Spec.Indented
import Mathlib.Data.List.SplitOn

/-!
# C78: indentation

* `indented_outline`: what is written is the text of the outline of the values.
* `indented_lines`: for values that are single units or tuples of single units: line by line.
* `indented_level`: after any values the level is what it was.
* `indented_twice`: the format object remembers, so consecutive writes are one write.
* `indented_string_glued`: strings do not get lines of their own.
-/

namespace Actl.Indent

open Actl.Decor (Val RangeKind)

/-- The flag after some entries. -/
def started (b : Bool) : List Entry → Bool
  | [] => b
  | .line _ _ :: _ => true
  | .more _ :: rest => started b rest
  | .scope :: _ => true

/-- The text of some entries given the flag. -/
def textFrom (f : Fmt) (b : Bool) (l : List Entry) : List Char :=
  if b then l.flatMap (Entry.text f) else outlineText f l

theorem started_true (l : List Entry) : started true l = true := by
  induction l with
  | nil => rfl
  | cons e l ih => cases e <;> simp [started, ih]

theorem started_append (a b : List Entry) : ∀ s, started s (a ++ b) = started (started s a) b := by
  induction a with
  | nil => intro s; rfl
  | cons e a ih => intro s; cases e <;> simp [started, ih, started_true]

theorem textFrom_append (f : Fmt) (b : List Entry) : ∀ (a : List Entry) (s : Bool),
    textFrom f s (a ++ b) = textFrom f s a ++ textFrom f (started s a) b
  | [], s => by cases s <;> simp [textFrom, started, outlineText]
  | e :: a, s => by
    have ih := textFrom_append f b a
    cases s with
    | true => simp [textFrom, started_true]
    | false =>
      cases e with
      | line d t => simp [textFrom, outlineText, started]
      | more t =>
        have := ih false
        simp only [textFrom, Bool.false_eq_true, if_false] at this
        simp only [List.cons_append, textFrom, Bool.false_eq_true, if_false, outlineText, started,
          this, List.append_assoc]
        rfl
      | scope => simp [textFrom, outlineText, started]

/-- The effect of some entries on the state. -/
def apply (f : Fmt) (l : List Entry) (s : St) : St :=
  ⟨s.level, started s.indent l, s.out ++ textFrom f s.indent l⟩

theorem apply_append (f : Fmt) (a b : List Entry) (s : St) :
    apply f (a ++ b) s = apply f b (apply f a s) := by
  simp [apply, started_append, textFrom_append]

theorem apply_nil (f : Fmt) (s : St) : apply f [] s = s := by
  obtain ⟨l, b, o⟩ := s
  cases b <;> simp [apply, started, textFrom, outlineText]

theorem apply_line (f : Fmt) (t : List Char) (s : St) :
    apply f [.line s.level t] s = (s.unit f).emit t := by
  obtain ⟨l, b, o⟩ := s
  cases b <;> simp [apply, started, textFrom, outlineText, St.unit, St.emit, Entry.text, lineText]

theorem apply_more (f : Fmt) (t : List Char) (s : St) : apply f [.more t] s = s.emit t := by
  obtain ⟨l, b, o⟩ := s
  cases b <;> simp [apply, started, textFrom, outlineText, St.emit, Entry.text]

theorem emit_nil (s : St) : s.emit [] = s := by simp [St.emit]

/-- Entries in a scope of their own. -/
theorem apply_scope (f : Fmt) (l : List Entry) (s : St) :
    (apply f l s.deeper).shallower = apply f (.scope :: l) s := by
  obtain ⟨lv, b, o⟩ := s
  cases b <;> simp [apply, started, started_true, textFrom, outlineText, St.deeper, St.shallower,
    Entry.text]

theorem unit_level (f : Fmt) (s : St) : (s.unit f).level = s.level := by
  obtain ⟨l, b, o⟩ := s
  cases b <;> rfl

theorem writeSize_eq (f : Fmt) (n : Nat) (s : St) :
    writeSize f n s =
      apply f [.line s.level [], .scope, .line (s.level + 1) (f.number n)] s := by
  have h1 : s.unit f = apply f [.line s.level []] s := by rw [apply_line, emit_nil]
  have h2 : (((s.unit f).deeper.unit f).emit (f.number n)).shallower =
      apply f (.scope :: [.line (s.level + 1) (f.number n)]) (s.unit f) := by
    rw [← apply_scope, ← apply_line]
    simp [St.deeper, unit_level]
  rw [writeSize]
  show (((s.unit f).deeper.unit f).emit (f.number n)).shallower = _
  rw [h2, h1, ← apply_append]
  rfl

mutual

theorem write_eq (f : Fmt) : ∀ (x : Val) (s : St), write f x s = apply f (outline f s.level x) s
  | .atom t, s => by rw [write, outline, apply_line]
  | .str t, s => by rw [write, outline, apply_more]
  | .raw t, s => by rw [write, outline, apply_more]
  | .colon, s => by rw [write, outline, apply_line, emit_nil]
  | .batch l, s => by rw [write, outline, writeAll_eq f l]
  | .tuple l, s => by
    rw [write, outline, writeAll_eq f l, apply_scope]
    have : s.unit f = apply f [.line s.level []] s := by rw [apply_line, emit_nil]
    rw [show (s.unit f).deeper.level = s.level + 1 by simp [St.deeper, unit_level], this,
      ← apply_append]
    rfl
  | .range k l, s => by
    rw [write, outline, ← apply_scope, writeAll_eq f l]
    split_ifs with h
    · rw [writeSize_eq]
      rw [apply_append]
      rfl
    · rfl

theorem writeAll_eq (f : Fmt) : ∀ (l : List Val) (s : St),
    writeAll f l s = apply f (outlineAll f s.level l) s
  | [], s => by rw [writeAll, outlineAll, apply_nil]
  | x :: xs, s => by
    rw [writeAll, writeAll_eq f xs, write_eq f x, outlineAll, apply_append]
    rfl

end

/-- **C78.** With a fresh format object the output is the text of the outline of the values. -/
theorem indented_outline (f : Fmt) (l : List Val) :
    (writeAll f l fresh).out = outlineText f (outlineAll f 0 l) := by
  rw [writeAll_eq]
  simp [apply, fresh, textFrom]

/-- **C78.** Writing any values leaves the level of nesting as it was. -/
theorem indented_level (f : Fmt) (l : List Val) (s : St) : (writeAll f l s).level = s.level := by
  rw [writeAll_eq]
  rfl

theorem writeAll_append (f : Fmt) : ∀ (a b : List Val) (s : St),
    writeAll f (a ++ b) s = writeAll f b (writeAll f a s)
  | [], b, s => rfl
  | x :: a, b, s => by
    rw [List.cons_append, writeAll, writeAll_append f a b, writeAll]

/-- **C78.** Two writes with the same format object output the outline of all the values. -/
theorem indented_twice (f : Fmt) (a b : List Val) :
    (writeAll f b (writeAll f a fresh)).out = outlineText f (outlineAll f 0 (a ++ b)) := by
  rw [← writeAll_append, indented_outline]

/-! ### Line by line -/

/-- Trees without glued text: units and tuples. -/
inductive Tree
  | leaf (t : List Char)
  | node (l : List Tree)

mutual

/-- The value to write. -/
def Tree.val : Tree → Val
  | .leaf t => .atom t
  | .node l => .tuple (Tree.vals l)

/-- The values to write. -/
def Tree.vals : List Tree → List Val
  | [] => []
  | x :: xs => x.val :: Tree.vals xs

end

mutual

/-- The lines of a tree in preorder: depth and text; a node has an empty line of its own. -/
def Tree.rows (d : Nat) : Tree → List (Nat × List Char)
  | .leaf t => [(d, t)]
  | .node l => (d, []) :: Tree.rowsAll (d + 1) l

/-- The lines of several trees. -/
def Tree.rowsAll (d : Nat) : List Tree → List (Nat × List Char)
  | [] => []
  | x :: xs => x.rows d ++ Tree.rowsAll d xs

end

/-- The text of one row. -/
def rowText (f : Fmt) (r : Nat × List Char) : List Char :=
  List.replicate (f.count * r.1) f.fill ++ r.2

mutual

theorem outline_tree (f : Fmt) : ∀ (x : Tree) (d : Nat),
    (outline f d x.val).flatMap (Entry.text f) =
      (x.rows d).flatMap fun r => f.endl :: rowText f r
  | .leaf t, d => by simp [Tree.val, outline, Tree.rows, Entry.text, lineText, rowText]
  | .node l, d => by
    simp [Tree.val, outline, Tree.rows, Entry.text, lineText, rowText, outlineAll_tree f l (d + 1)]

theorem outlineAll_tree (f : Fmt) : ∀ (l : List Tree) (d : Nat),
    (outlineAll f d (Tree.vals l)).flatMap (Entry.text f) =
      (Tree.rowsAll d l).flatMap fun r => f.endl :: rowText f r
  | [], d => rfl
  | x :: xs, d => by
    simp [Tree.vals, outlineAll, Tree.rowsAll, outline_tree f x d, outlineAll_tree f xs d]

end

theorem intercalate_cons_flatMap {α : Type} (sep : α) (a : List α) (l : List (List α)) :
    List.intercalate [sep] (a :: l) = a ++ l.flatMap fun x => sep :: x := by
  induction l generalizing a with
  | nil => simp [List.intercalate]
  | cons b l ih =>
    have := ih b
    simp only [List.intercalate, List.intersperse_cons₂, List.flatten_cons] at this ⊢
    rw [this]
    simp

/-- **C78.** Units and tuples of units: the output is the rows in preorder, separated by the line
end, each with `count` fill characters for every level it is nested. -/
theorem indented_lines (f : Fmt) (l : List Tree) :
    (writeAll f (Tree.vals l) fresh).out =
      List.intercalate [f.endl] ((Tree.rowsAll 0 l).map (rowText f)) := by
  rw [indented_outline]
  cases l with
  | nil => rfl
  | cons x xs =>
    have key : ∀ (r : Nat × List Char) (rest : List (Nat × List Char)), r.1 = 0 →
        List.intercalate [f.endl] ((r :: rest).map (rowText f)) =
          r.2 ++ rest.flatMap fun r => f.endl :: rowText f r := by
      intro r rest h
      rw [List.map_cons, intercalate_cons_flatMap, rowText, h, List.flatMap_map]
      simp
    cases x with
    | leaf t =>
      rw [Tree.rowsAll, Tree.rows, List.singleton_append, key _ _ rfl, Tree.vals, outlineAll,
        Tree.val, outline, List.singleton_append, outlineText, outlineAll_tree]
    | node c =>
      rw [Tree.rowsAll, Tree.rows, List.cons_append, key _ _ rfl, Tree.vals, outlineAll,
        Tree.val, outline, List.cons_append, outlineText, List.cons_append, List.flatMap_cons,
        List.flatMap_append, List.flatMap_append, outlineAll_tree, outlineAll_tree]
      simp [Entry.text]

/-- **C78.** If neither the texts nor the fill contain the line end, the lines of the output are
exactly the rows. -/
theorem indented_split (f : Fmt) (l : List Tree) (hl : l ≠ [])
    (hf : f.fill ≠ f.endl) (ht : ∀ r ∈ Tree.rowsAll 0 l, f.endl ∉ r.2) :
    lines f.endl (writeAll f (Tree.vals l) fresh).out = (Tree.rowsAll 0 l).map (rowText f) := by
  rw [indented_lines, lines]
  apply List.splitOn_intercalate
  · intro t h
    obtain ⟨r, hr, rfl⟩ := List.mem_map.mp h
    simp only [rowText, List.mem_append, List.mem_replicate]
    rintro (h | h)
    · exact hf h.2.symm
    · exact ht r hr h
  · cases l with
    | nil => exact absurd rfl hl
    | cons x xs => cases x <;> simp [Tree.rowsAll, Tree.rows]

/-! ### Strings -/

/-- **C78, the code falls short.** Strings are ranges, which `indented` leaves alone: several
strings, at any depth of nesting, are all written on one line. -/
theorem indented_string_glued (f : Fmt) (ts : List (List Char)) (s : St) :
    (writeAll f (ts.map .str) s).out = s.out ++ ts.flatten := by
  induction ts generalizing s with
  | nil => simp [writeAll]
  | cons t ts ih => rw [List.map_cons, writeAll, ih]; simp [write, St.emit]

/-- **C78, the code falls short.** A map entry puts an empty line between the key and the value. -/
theorem indented_colon_line (f : Fmt) (k v : List Char) (s : St) (h : s.indent = true) :
    (write f (.batch [.atom k, .colon, .atom v]) s).out =
      s.out ++ lineText f s.level k ++ lineText f s.level [] ++ lineText f s.level v := by
  rw [write_eq]
  simp [apply, h, textFrom, outline, outlineAll, Entry.text]

/-! ### Examples -/

/-- Two spaces per level. -/
def exFmt : Fmt := ⟨' ', '\n', 2, fun n => (toString n).toList⟩

example : (writeAll exFmt [.atom ['a'], .tuple [.atom ['b'], .tuple [.atom ['c']]], .atom ['d']]
    fresh).out = "a\n\n  b\n  \n    c\nd".toList := by decide +kernel

example : (writeAll exFmt [.atom ['a'], .range .view [.atom ['b'], .atom ['c']], .raw ['!'],
    .atom ['d']] fresh).out = "a\n  b\n  c!\nd".toList := by decide +kernel

example : (writeAll exFmt [.atom ['a'], .tuple [.str ['b'], .str ['c']]] fresh).out =
    "a\nbc".toList := by decide +kernel

example : Tree.rowsAll 0 [.leaf ['a'], .node [.leaf ['b'], .node [.leaf ['c']]], .leaf ['d']] =
    [(0, ['a']), (0, []), (1, ['b']), (1, []), (2, ['c']), (0, ['d'])] := by
  simp [Tree.rowsAll, Tree.rows]

example : (⟨1, true, []⟩ : St).indent = true := rfl

end Actl.Indent
