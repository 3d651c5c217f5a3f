/-!
Model of nested maps: `map/*.hpp` combined by `composite_map` and `filtered_map` to any depth.  A
map is a tree with the containers (its state) in the leaves.  All key and value types are taken to
be the integers (conversions between types of different range are the subject of C34).  `none`:
undefined behaviour, or the call does not compile.
-/

namespace Actl.Maps

/-- A map. -/
inductive MapTree where
  /-- `identity_map`, `identity_map.hpp:14-24`. -/
  | ident
  /-- `shift_map`, `static_shift_map`, `shift_map.hpp:15-30`, `:42-54`. -/
  | shift (offset : Int)
  /-- `function_map`, `function_map.hpp:16-29`. -/
  | func (f : Int → Int)
  /-- A random access container, its keys being the positions, `generic_container.hpp:32-58`. -/
  | cont (c : List Int)
  /-- An associative container, `pair_associative_container.hpp:15-44`. -/
  | assoc (l : List (Int × Int))
  /-- `accounting_map`, `accounting_map.hpp:20-65`; the keys in the order of their numbers. -/
  | acc (invertible : Bool) (keys : List Int)
  /-- `composite_map<M1, M2>`, `composite_map.hpp:62-96`; `ref1`, `ref2`: the map is held by
  reference (the argument of the deduction guide, `:138-139`, was an lvalue).  More than two maps are
  nested to the left, `:58-60`. -/
  | comp (ref1 ref2 : Bool) (m1 m2 : MapTree)
  /-- `filtered_map<Map, Predicate>`, `filtered_map.hpp:34-61`. -/
  | filt (pred : Int → Bool) (m : MapTree)

namespace MapTree

/-- `map_traits<…>::writable` of `map/traits.hpp:40` with `identity_map.hpp:33`, `shift_map.hpp:39`,
`function_map.hpp:33`, `generic_container.hpp:40`, `pair_associative_container.hpp:23`,
`accounting_map.hpp:39`, `composite_map.hpp:92`, `filtered_map.hpp:67`; and `invertible` (`:42`, `:34`,
…).  All these maps are readable. -/
def invertible : MapTree → Bool
  | .ident => true
  | .shift _ => true
  | .func _ => false
  | .cont _ => false
  | .assoc _ => false
  | .acc inv _ => inv
  | .comp _ _ m1 m2 => m1.invertible && m2.invertible
  | .filt _ m => m.invertible

/-- See `invertible`.  `composite_map.hpp:76-77`, `:92`. -/
def writable : MapTree → Bool
  | .ident => false
  | .shift _ => false
  | .func _ => false
  | .cont _ => true
  | .assoc _ => true
  | .acc _ _ => false
  | .comp _ _ m1 m2 => m2.writable || (m1.writable && m2.invertible)
  | .filt _ m => m.writable

/-- `iterable`: `generic_container.hpp:42`, `pair_associative_container.hpp:25`,
`accounting_map.hpp:41`, `composite_map.hpp:78-81`, `:94`, `filtered_map.hpp:67`. -/
def iterable : MapTree → Bool
  | .ident => false
  | .shift _ => false
  | .func _ => false
  | .cont _ => true
  | .assoc _ => true
  | .acc _ _ => true
  | .comp _ _ m1 m2 => m1.iterable || (m1.invertible && m2.iterable)
  | .filt _ m => m.iterable

/-- `filtered_map` over a `filtered_map`: `get`, `put` and `invert` are those of the innermost map
(`filtered_map.hpp:76`), and the argument would need two user-defined conversions (`:42-48`), so
that they do not compile. -/
def isFilt : MapTree → Bool
  | .filt _ _ => true
  | _ => false

/-- `get`: the value and the map afterwards (`accounting_map` changes). -/
def get : MapTree → Int → Option (Int × MapTree)
  | .ident, k => some (k, .ident)                              -- identity_map.hpp:17-19
  | .shift o, k => some (k - o, .shift o)                      -- shift_map.hpp:20-22, :47-49
  | .func f, k => some (f k, .func f)                          -- function_map.hpp:23-25
  | .cont c, k =>                                              -- generic_container.hpp:50-52
    if 0 ≤ k ∧ k < c.length then some (c.getD k.toNat 0, .cont c) else none
  | .assoc l, k =>                                             -- pair_associative_container.hpp:32-35
    match l.find? (fun p => p.1 = k) with
    | none => some (0, .assoc l)
    | some p => some (p.2, .assoc l)
  | .acc inv ks, k =>                                          -- accounting_map.hpp:44-51
    match ks.findIdx? (fun x => x = k) with
    | some i => some ((i : Int), .acc inv ks)
    | none => some ((ks.length : Int), .acc inv (ks ++ [k]))
  | .comp r1 r2 m1 m2, k =>                                    -- composite_map.hpp:111-113
    (m1.get k).bind fun a => (m2.get a.1).bind fun v => some (v.1, .comp r1 r2 a.2 v.2)
  | .filt p m, k =>                                            -- filtered_map.hpp:76, :42-44
    if m.isFilt then none else (m.get k).bind fun v => some (v.1, .filt p v.2)

/-- `invert`. -/
def invert : MapTree → Int → Option Int
  | .ident, v => some v                                        -- identity_map.hpp:21-23
  | .shift o, v => some (v + o)                                -- shift_map.hpp:24-26, :51-53
  | .func _, _ => none
  | .cont _, _ => none
  | .assoc _, _ => none
  | .acc inv ks, v =>                                          -- accounting_map.hpp:53-55
    if inv = true ∧ 0 ≤ v then ks[v.toNat]? else none
  | .comp _ _ m1 m2, v =>                                      -- composite_map.hpp:123-125
    (m2.invert v).bind m1.invert
  | .filt _ m, v => if m.isFilt then none else m.invert v      -- filtered_map.hpp:76, :42-44

/-- `put`: the map afterwards. -/
def put : MapTree → Int → Int → Option MapTree
  | .ident, _, _ => none
  | .shift _, _, _ => none
  | .func _, _, _ => none
  | .cont c, k, v =>                                           -- traits.hpp:134-138
    if 0 ≤ k ∧ k < c.length then some (.cont (c.set k.toNat v)) else none
  | .assoc l, k, v =>                                          -- pair_associative_container.hpp:37-39
    if l.any (fun p => p.1 = k) then some (.assoc (l.map fun p => if p.1 = k then (k, v) else p))
    else some (.assoc (l ++ [(k, v)]))
  | .acc _ _, _, _ => none
  | .comp r1 r2 m1 m2, k, v =>                                 -- composite_map.hpp:115-121
    if m2.writable then
      (m1.get k).bind fun a => (m2.put a.1 v).bind fun m2' => some (.comp r1 r2 a.2 m2')
    else
      (m2.invert v).bind fun w => (m1.put k w).bind fun m1' => some (.comp r1 r2 m1' m2)
  | .filt p m, k, v =>                                         -- filtered_map.hpp:76, :42-44
    if m.isFilt then none else (m.put k v).bind fun m' => some (.filt p m')

/-- The values `get` gives at the given keys, and the map afterwards. -/
def getAll : MapTree → List (Int × Int) → Option (List (Int × Int) × MapTree)
  | m, [] => some ([], m)
  | m, p :: ps =>                                              -- composite_map.hpp:27-29
    (m.get p.2).bind fun v => (getAll v.2 ps).bind fun r => some ((p.1, v.1) :: r.1, r.2)

/-- The keys at which the inverse of `m` is defined, with the values. -/
def invertAll (m : MapTree) : List (Int × Int) → Option (List (Int × Int))
  | [] => some []
  | p :: ps =>                                                 -- composite_map.hpp:42-44
    (m.invert p.1).bind fun k => (invertAll m ps).bind fun r => some ((k, p.2) :: r)

/-- The pairs met in one traversal of `map_range`, and the map afterwards (the pairs of a
composite map are computed during the traversal, and may call `get` of an `accounting_map`).
The order in which an associative container is traversed is taken to be that of the insertions.
The transformation of the pairs of a composite map holds a pointer to the other map
(`composite_map.hpp:25`, `:40`), which does not compile for a map held by reference. -/
def range : MapTree → Option (List (Int × Int) × MapTree)
  | .ident => none
  | .shift _ => none
  | .func _ => none
  | .cont c =>                                                 -- generic_container.hpp:54-57, :25-27
    some ((List.range c.length).map (fun i : Nat => ((i : Int), c.getD i 0)), .cont c)
  | .assoc l => some (l, .assoc l)                             -- pair_associative_container.hpp:41-43
  | .acc inv ks =>                                             -- accounting_map.hpp:57-59
    some ((List.range ks.length).map (fun i : Nat => (ks.getD i 0, (i : Int))), .acc inv ks)
  | .comp r1 r2 m1 m2 =>                                       -- composite_map.hpp:127-135
    if m1.iterable then
      if r2 then none
      else m1.range.bind fun l => (m2.getAll l.1).bind fun r => some (r.1, .comp r1 r2 l.2 r.2)
    else if m1.invertible && m2.iterable then
      if r1 then none
      else m2.range.bind fun l => (m1.invertAll l.1).bind fun r => some (r, .comp r1 r2 m1 l.2)
    else none
  | .filt p m =>                                               -- filtered_map.hpp:50-52, :22-30
    m.range.bind fun l => some (l.1.filter (fun x => p x.2), .filt p l.2)

end MapTree

end Actl.Maps
