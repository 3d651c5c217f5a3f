import Verif.Model.Ints

/-!
Model of `map/*.hpp`.
-/

namespace Actl.Maps

open Actl.Ints

/-! ### accounting_map -/

section Accounting

variable {K : Type} [DecidableEq K]

/-- `m_range` (keys with numbers) and `m_inverse` (the keys pointed to), `accounting_map.hpp:62-64`;
the mapped type `V` is unsigned with `w` bits (for a signed one take one bit less: larger numbers
turn negative).  The nodes of the container do not move, so pointers are replaced by the keys. -/
structure Acc (w : Nat) (K : Type) where
  range : List (K × BitVec w)
  inverse : List K

/-- `m_range.insert({key, value})`: the state afterwards, the mapped value and whether inserted. -/
def insert {w : Nat} (range : List (K × BitVec w)) (key : K) (value : BitVec w) :
    List (K × BitVec w) × BitVec w × Bool :=
  match range.find? (fun p => p.1 = key) with
  | some p => (range, p.2, false)
  | none => (range ++ [(key, value)], value, true)

/-- `get`, `accounting_map.hpp:44-51`. -/
def Acc.get {w : Nat} (m : Acc w K) (key : K) : BitVec w × Acc w K :=
  match insert m.range key (BitVec.ofNat w m.range.length) with
  | (range, v, inserted) => (v, ⟨range, if inserted then m.inverse ++ [key] else m.inverse⟩)

/-- `invert`, `accounting_map.hpp:53-55`; `none` is undefined behaviour. -/
def Acc.invert {w : Nat} (m : Acc w K) (value : BitVec w) : Option K := m.inverse[value.toNat]?

/-- A history of requests: the numbers returned and the map afterwards. -/
def Acc.getAll {w : Nat} : Acc w K → List K → List (BitVec w) × Acc w K
  | m, [] => ([], m)
  | m, k :: ks =>
    match m.get k with
    | (v, m) => match getAll m ks with | (vs, m) => (v :: vs, m)

end Accounting

/-! ### Adaptors -/

/-- What a map offers, `map/traits.hpp:80-100`; not every map offers all of it. -/
structure MapOps (σ K V : Type) where
  get : σ → K → V
  put : σ → K → V → σ
  invert : σ → V → K
  range : σ → List (K × V)

/-- `composite_map`, `composite_map.hpp:107-136`; `writable2`, `iterable1` select the branches of
`put` and `map_range` as the constants do.  (With more than two maps the composition is nested to
the left, `:58-60`.) -/
def composite {σ τ K A V : Type} (m1 : MapOps σ K A) (m2 : MapOps τ A V) (writable2 iterable1 : Bool) :
    MapOps (σ × τ) K V where
  get s k := m2.get s.2 (m1.get s.1 k)
  put s k v := if writable2 then (s.1, m2.put s.2 (m1.get s.1 k) v)
    else (m1.put s.1 k (m2.invert s.2 v), s.2)
  invert s v := m1.invert s.1 (m2.invert s.2 v)
  range s := if iterable1 then (m1.range s.1).map (fun p => (p.1, m2.get s.2 p.2))
    else (m2.range s.2).map (fun p => (m1.invert s.1 p.1, p.2))

/-- An associative container as a map, `pair_associative_container.hpp:28-44`, the container being
a list of pairs with different keys; `zero` is the value-initialized mapped type.  `map[key]`
inserts `key` if it is absent. -/
def assoc {K V : Type} [DecidableEq K] (zero : V) (noKey : K) : MapOps (List (K × V)) K V where
  get m k := match m.find? (fun p => p.1 = k) with | none => zero | some p => p.2
  put m k v := if m.any (fun p => p.1 = k) then m.map (fun p => if p.1 = k then (k, v) else p)
    else m ++ [(k, v)]
  invert _ _ := noKey            -- not offered
  range m := m

/-- A sequence as a map from ids, `generic_container.hpp:47-58` with `traits.hpp:132-139`: `get`
and `put` for ids in bounds only. -/
def seqGet {V : Type} (c : List V) (i : Nat) : Option V := c[i]?

def seqPut {V : Type} (c : List V) (i : Nat) (v : V) : Option (List V) :=
  if i < c.length then some (c.set i v) else none

/-- `map_range` of a sequence, `generic_container.hpp:54-57`: the ids with the elements. -/
def seqRange {V : Type} (c : List V) : List (Nat × V) :=
  (List.range c.length).filterMap (fun i => match seqGet c i with | none => none | some v => some (i, v))

/-- `filtered_map::map_range`, `filtered_map.hpp:50-56`, with `test_second`, `:22-30`. -/
def filteredRange {σ K V : Type} (m : MapOps σ K V) (pred : V → Bool) (s : σ) : List (K × V) :=
  (m.range s).filter (fun p => pred p.2)

/-! ### shift_map -/

/-- `shift_map::get`, `shift_map.hpp:20-22` (`static_shift_map::get`, `:47-49`, is the same). -/
def shiftGet (K V : IntT) (offset key : Int) : Option Int :=
  match K.promote.arith (key - offset) with
  | none => none
  | some d => some (V.cast d)

/-- `shift_map::invert`, `shift_map.hpp:24-26` (and `:51-53`); the sum is converted to `Key` on
return. -/
def shiftInvert (K : IntT) (offset value : Int) : Option Int :=
  match K.promote.arith (K.cast value + offset) with
  | none => none
  | some s => some (K.cast s)

/-- `identity_map`, `identity_map.hpp:17-23`. -/
def identityGet (V : IntT) (key : Int) : Int := V.cast key
def identityInvert (K : IntT) (value : Int) : Int := K.cast value

end Actl.Maps
