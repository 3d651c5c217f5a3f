import Verif.Model.TextTree
import Verif.Model.BinaryAssoc

/-!
# Sets and maps as text

Model of `write` and `read` of sets and maps, `io/argument/range.hpp:21-86`, with the formats of `Model/TextTree.lean`.

An element of a map is written as `batch{key, colon{}, value}`, each part of it an argument of its own
(`core/batch.hpp:49-51`).  It is read into `batch{const_cast<Pair::first_type&>(x.first), colon{}, x.second}`, where
`Pair` is `std::pair<Key const, Value>`, so the key stays a constant.  For numbers and booleans `make_parser` accepts
constants as well (`parser/arithmetic.hpp:23-27`) and the assignment in `parser_executor.hpp:33` does not compile; a
constant string has no parser (`parser/string.hpp:30-33`), is encoded (`text.hpp:73-77`) and compared with the input
(`const_byte_span.hpp:16-20`).

A constant tuple or array of strings is read element by element (`tuple.hpp:37-41`, `range.hpp:51-57, 78-86`), each a
constant; the elements of a constant vector or list are read, but `resize` and `emplace` of it do not compile.

Simplifications: those of `Model/TextTree.lean` and of `Model/BinaryAssoc.lean`.  What reading `colon{}` does is a
parameter: nothing with `skipws`, `spaced.hpp:71-75` with `spaced`.
-/

namespace Actl.TextAssoc

open Actl.Text
open TextTree (St RSt Reader)

/-- The types covered: those of `Model/TextTree.lean`, pairs, vectors, sets and maps; `unique` tells `std::set` and
`std::map` from `std::multiset` and `std::multimap`. -/
inductive Ty
  | base (t : TextTree.Ty)
  | pair (a b : Ty)
  | vec (t : Ty)
  | set (unique : Bool) (t : Ty)
  | map (unique : Bool) (k : TextTree.Ty) (t : Ty)

/-- The values of a type; sets and maps are the lists of their elements in order of iteration. -/
def Val : Ty → Type
  | .base t => TextTree.Val t
  | .pair a b => Val a × Val b
  | .vec t => List (Val t)
  | .set _ t => List (Val t)
  | .map _ k t => List (TextTree.Val k × Val t)

/-- A value-initialized object. -/
def default : (t : Ty) → Val t
  | .base t => TextTree.default t
  | .pair a b => (default a, default b)
  | .vec _ => []
  | .set _ _ => []
  | .map _ _ _ => []

/-- The comparisons of sets and of the keys of maps. -/
structure Less where
  elem : (t : Ty) → Val t → Val t → Bool
  key : (k : TextTree.Ty) → TextTree.Val k → TextTree.Val k → Bool

/-- The settings: those of `Model/TextTree.lean` and the colon of `spaced`, `spaced.hpp:20`. -/
structure Cfg where
  text : TextTree.Cfg
  colon : List Byte

/-- `encode(spaced, colon{})`, `spaced.hpp:71-75`, with the colon written. -/
def writeColon (c : Cfg) (s : St) : St := ⟨s.out ++ c.colon, false⟩

/-- `write` of one argument: `tuple.hpp:31-35`, `range.hpp:39-49`. -/
def write (c : Cfg) : (t : Ty) → Val t → St → Option St
  | .base t, x, s => TextTree.write c.text t x s
  | .pair a b, x, s =>
    ((write c a x.1 ((s.unit c.text).level true)).bind (write c b x.2)).map (St.level false)
  | .vec t, x, s =>
    ((TextTree.writeSize c.text (List.length x) ((s.unit c.text).level true)).bind
      (TextTree.writeAll (write c t) x)).map (St.level false)
  | .set _ t, x, s =>
    ((TextTree.writeSize c.text (List.length x) ((s.unit c.text).level true)).bind
      (TextTree.writeAll (write c t) x)).map (St.level false)
  | .map _ k t, x, s =>
    ((TextTree.writeSize c.text (List.length x) ((s.unit c.text).level true)).bind
      (TextTree.writeAll (fun e s => (TextTree.write c.text k e.1 s).bind fun s => write c t e.2 (writeColon c s)) x)).map
        (St.level false)

/-- The text of a value. -/
def text (c : Cfg) (t : Ty) (x : Val t) : Option (List Byte) := (write c t x ⟨[], false⟩).map (·.out)

/-- The loop of `read_container`, `range.hpp:64-71`. -/
def readEmplace {α : Type} (ins : α → List α → List α) (rd : α → RSt → Option (Bool × α × RSt)) (fresh : α) :
    Nat → List α → RSt → Option (Bool × List α × RSt)
  | 0, xs, s => some (true, xs, s)
  | n + 1, xs, s =>
    (rd fresh s).bind fun p =>
      if p.1 then readEmplace ins rd fresh n (ins p.2.1 xs) p.2.2 else some (false, xs, p.2.2)

/-- `read` of a constant string, `const_byte_span.hpp:16-20`. -/
def matchWord (c : TextTree.Cfg) (r : Reader) (x : List Byte) (s : RSt) : Option (Bool × RSt) :=
  (TextTree.enterLeaf c r s).bind fun e =>
    if e.1 then
      (Parser.readConst x (TextTree.buffers e.2.d)).map fun p => (p.2, { e.2 with d := e.2.d.drop p.1 })
    else some (false, e.2)

/-- `nested_scope_guard` around the reading of constants, as in `TextTree.nested`. -/
def matchNested (c : TextTree.Cfg) (r : Reader) (rd : RSt → Option (Bool × RSt)) (s : RSt) : Option (Bool × RSt) :=
  (TextTree.enter c r s).bind fun e =>
    if e.1 then (rd (e.2.level true)).map fun p => (p.1, p.2.level false) else some (false, e.2)

/-- `read_range` of a constant, `range.hpp:51-57`. -/
def matchRange {α : Type} (rd : α → RSt → Option (Bool × RSt)) : List α → RSt → Option (Bool × RSt)
  | [], s => some (true, s)
  | x :: xs, s => (rd x s).bind fun p => if p.1 then matchRange rd xs p.2 else some (false, p.2)

mutual

/-- `read` of a key, a constant; `none` stands for keys with which it does not compile, too. -/
def matchKey (c : TextTree.Cfg) (r : Reader) : (k : TextTree.Ty) → TextTree.Val k → RSt → Option (Bool × RSt)
  | .str, x, s => matchWord c r x s
  | .tuple ts, x, s => matchNested c r (matchKeys c r ts x) s
  | .array _ t, x, s => matchNested c r (matchRange (matchKey c r t) x) s
  | _, _, _ => none

/-- `read_tuple` of a constant, `tuple.hpp:23-27`, `io.hpp:45-48`. -/
def matchKeys (c : TextTree.Cfg) (r : Reader) : (ts : TextTree.Tys) → TextTree.Vals ts → RSt → Option (Bool × RSt)
  | .nil, _, s => some (true, s)
  | .cons t ts, x, s => (matchKey c r t x.1 s).bind fun p => if p.1 then matchKeys c r ts x.2 p.2 else some (false, p.2)

end

/-- `read` of an element of a map, `batch.hpp:53-55`. -/
def readEntry {β : Type} (c : TextTree.Cfg) (r : Reader) (colon : RSt → Option (Bool × RSt)) (k : TextTree.Ty)
    (rd : β → RSt → Option (Bool × β × RSt)) (e : TextTree.Val k × β) (s : RSt) :
    Option (Bool × (TextTree.Val k × β) × RSt) :=
  (matchKey c r k e.1 s).bind fun p =>
    if p.1 then
      (colon p.2).bind fun q =>
        if q.1 then (rd e.2 q.2).map fun v => (v.1, (e.1, v.2.1), v.2.2) else some (false, e, q.2)
    else some (false, e, p.2)

/-- `read` of one argument into an existing object: success, the object afterwards and the state (`tuple.hpp:37-41`,
`range.hpp:59-86`). -/
def read (c : TextTree.Cfg) (r : Reader) (less : Less) (colon : RSt → Option (Bool × RSt)) :
    (t : Ty) → Val t → RSt → Option (Bool × Val t × RSt)
  | .base t, x, s => TextTree.read c r t x s
  | .pair a b, x, s =>
    TextTree.nested c r (fun s => (read c r less colon a x.1 s).bind fun p =>
      if p.1 then (read c r less colon b x.2 p.2.2).map fun q => (q.1, (p.2.1, q.2.1), q.2.2)
      else some (false, (p.2.1, x.2), p.2.2)) x s
  | .vec t, x, s =>
    TextTree.nested c r (TextTree.readContainer c r x fun n s =>
      (TextTree.resize (default t) n x).bind fun xs => TextTree.readRange (read c r less colon t) xs s) x s
  | .set u t, x, s =>
    TextTree.nested c r (TextTree.readContainer c r x fun n s =>
      readEmplace (BinaryAssoc.emplace u (less.elem t)) (read c r less colon t) (default t) n x s) x s
  | .map u k t, x, s =>
    TextTree.nested c r (TextTree.readContainer c r x fun n s =>
      readEmplace (BinaryAssoc.emplace u fun a b => less.key k a.1 b.1) (readEntry c r colon k (read c r less colon t))
        (TextTree.default k, default t) n x s) x s

mutual

/-- `read` of a constant compiles. -/
def compilesKey : TextTree.Ty → Bool
  | .str => true
  | .tuple ts => compilesKeys ts
  | .array _ t => compilesKey t
  | _ => false

/-- The same for the elements of a tuple. -/
def compilesKeys : TextTree.Tys → Bool
  | .nil => true
  | .cons t ts => compilesKey t && compilesKeys ts

end

/-- `read` compiles. -/
def compiles : Ty → Bool
  | .base _ => true
  | .pair a b => compiles a && compiles b
  | .vec t => compiles t
  | .set _ t => compiles t
  | .map _ k t => compilesKey k && compiles t

/-- `read`; `none` if it does not compile. -/
def readBack (c : TextTree.Cfg) (r : Reader) (less : Less) (colon : RSt → Option (Bool × RSt)) (t : Ty) (old : Val t)
    (s : RSt) : Option (Bool × Val t × RSt) :=
  if compiles t then read c r less colon t old s else none

end Actl.TextAssoc
