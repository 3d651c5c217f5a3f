import Verif.Model.TensorAccess
import Verif.Props.Tensor

/-!
# C104: checked access to tensors

Indices out of range are always caught, an assignment through either way of indexing changes one element, views are
the rows.  For tensors of dynamic rank the subscript operator never works.
-/

namespace Actl.Tensor

/-- One index for every dimension, each from 0 up to the dimension. -/
def Valid (dims : List Nat) (is : List Int) : Prop :=
  List.Forall₂ (fun (d : Nat) (i : Int) => 0 ≤ i ∧ i < d) dims is

theorem toSize_lt {d : Nat} (hd : d ≤ 2 ^ 63) {i : Int} (h0 : -2 ^ 63 ≤ i) (h1 : i < 2 ^ 63) :
    toSize i < d ↔ 0 ≤ i ∧ i < d := by
  unfold toSize
  omega

theorem valid_iff {dims : List Nat} (hd : ∀ d ∈ dims, d ≤ 2 ^ 63) {is : List Int}
    (hi : ∀ i ∈ is, -2 ^ 63 ≤ i ∧ i < 2 ^ 63) : Valid dims is ↔ InRange dims (is.map toSize) := by
  unfold Valid
  induction dims generalizing is with
  | nil => cases is <;> simp [InRange]
  | cons d ds ih =>
    cases is with
    | nil => simp [InRange]
    | cons i is =>
      have hi0 := hi i List.mem_cons_self
      rw [List.forall₂_cons, ih (fun x hx => hd x (List.mem_cons_of_mem _ hx))
        (fun x hx => hi x (List.mem_cons_of_mem _ hx)), List.map_cons, InRange,
        toSize_lt (hd d List.mem_cons_self) hi0.1 hi0.2]

instance instDecidableInRange : ∀ ds is : List Nat, Decidable (InRange ds is)
  | [], [] => .isTrue trivial
  | d :: ds, i :: is => @instDecidableAnd _ _ _ (instDecidableInRange ds is)
  | [], _ :: _ => .isFalse id
  | _ :: _, [] => .isFalse id

theorem checkedIndex_eq (ds : List Nat) : ∀ (pre is : List Nat) (res : Nat),
    checkedIndex (pre ++ ds) pre.length res is =
      if InRange ds is then some (getIndex (pre ++ ds) pre.length res is) else none := by
  induction ds with
  | nil =>
    intro pre is res
    cases is with
    | nil => simp [checkedIndex, InRange, getIndex]
    | cons i is => simp [checkedIndex, InRange]
  | cons d ds ih =>
    intro pre is res
    cases is with
    | nil => simp [checkedIndex, InRange]
    | cons i is =>
      rw [checkedIndex, getIndex]
      have e : (pre ++ d :: ds).getD pre.length 0 = d := by simp
      rw [e]
      have := ih (pre ++ [d]) is
        (((if pre.length > 0 then res * d % 2 ^ 64 else res) + i) % 2 ^ 64)
      rw [List.length_append, List.length_singleton, List.append_assoc, List.singleton_append] at this
      rw [this]
      simp only [List.length_append, List.length_cons]
      by_cases hi : i < d
      · rw [if_pos ⟨by omega, hi⟩]
        by_cases h : InRange ds is
        · rw [if_pos h, if_pos (show InRange (d :: ds) (i :: is) from ⟨hi, h⟩)]
        · rw [if_neg h, if_neg (show ¬ InRange (d :: ds) (i :: is) from fun g => h g.2)]
      · have n1 : ¬ (pre.length < pre.length + (ds.length + 1) ∧ i < d) := fun h => hi h.2
        have n2 : ¬ InRange (d :: ds) (i :: is) := fun h => hi h.1
        rw [if_neg n1, if_neg n2]

theorem call_eq (dims : List Nat) (hv : volume dims < 2 ^ 64) (off : Nat) (n : Nat) (is : List Int) :
    (View.mk n dims off).call is = if InRange dims (is.map toSize) then
      some ((off + flat dims (is.map toSize)) % 2 ^ 64) else none := by
  unfold View.call
  have h := checkedIndex_eq dims [] (is.map toSize) 0
  simp only [List.nil_append, List.length_nil] at h
  simp only [h]
  split
  · next hr =>
    have := callIndex_eq dims _ hr hv
    rw [callIndex] at this
    rw [this]; rfl
  · rfl

theorem volume_tail {d : Nat} {ds : List Nat} (h : 0 < d) : volume ds ≤ volume (d :: ds) :=
  volume_tail_le d ds h

theorem subscript_static (d : Nat) (ds : List Nat) (off : Nat) (i : Int) :
    (View.mk (ds.length + 1) (d :: ds) off).subscript i = if toSize i < d then
      some ⟨ds.length, ds, (off + toSize i * volume ds) % 2 ^ 64⟩ else none := by
  simp only [View.subscript, View.reference]
  split
  · cases ds with
    | nil => simp [volume]
    | cons e es =>
      rw [if_pos (by simp), if_pos (by simp)]
      simp only [List.drop_succ_cons, List.drop_zero, List.length_cons, Nat.add_sub_cancel]
      rw [List.take_of_length_le (by simp), computeProduct_eq, Nat.add_mod, Nat.mul_mod_mod, ← Nat.add_mod]
  · rfl

theorem chain_eq (dims : List Nat) : ∀ (off : Nat) (is : List Int),
    (View.mk dims.length dims off).chain is = if InRange dims (is.map toSize) then
      some (if is = [] then off else (off + flat dims (is.map toSize)) % 2 ^ 64) else none := by
  induction dims with
  | nil =>
    intro off is
    cases is with
    | nil => simp [View.chain, InRange]
    | cons i is => simp [View.chain, View.subscript, InRange]
  | cons d ds ih =>
    intro off is
    cases is with
    | nil => simp [View.chain, InRange]
    | cons i is =>
      rw [View.chain, List.length_cons, subscript_static]
      simp only [List.map_cons, InRange, reduceCtorEq, if_false]
      by_cases hi : toSize i < d
      · rw [if_pos hi, Option.bind_some, ih]
        by_cases hr : InRange ds (is.map toSize)
        · have p : toSize i < d ∧ InRange ds (is.map toSize) := ⟨hi, hr⟩
          rw [if_pos hr, if_pos p, flat]
          congr 1
          by_cases e : is = []
          · rw [if_pos e]
            subst e
            cases ds with
            | nil => simp [flat]
            | cons => simp [InRange] at hr
          · rw [if_neg e, Nat.mod_add_mod, Nat.add_assoc]
        · have n : ¬ (toSize i < d ∧ InRange ds (is.map toSize)) := fun h => hr h.2
          rw [if_neg hr, if_neg n]
      · have n : ¬ (toSize i < d ∧ InRange ds (is.map toSize)) := fun h => hi h.1
        rw [if_neg hi, if_neg n]; rfl

/-- A tensor of static rank: with one index for every dimension, each in range, both ways of indexing give the same
cell of the storage; any other indices (also negative ones, also too few or too many) are caught by both. -/
theorem access_checked (dims : List Nat) (hv : volume dims < 2 ^ 64) (hd : ∀ d ∈ dims, d ≤ 2 ^ 63)
    (is : List Int) (hi : ∀ i ∈ is, -2 ^ 63 ≤ i ∧ i < 2 ^ 63) :
    (Valid dims is → ∃ k < volume dims, (View.ofStatic dims).call is = some k ∧
      (View.ofStatic dims).chain is = some k) ∧
    (¬ Valid dims is → (View.ofStatic dims).call is = none ∧ (View.ofStatic dims).chain is = none) := by
  rw [valid_iff hd hi]
  unfold View.ofStatic
  rw [call_eq dims hv, chain_eq]
  constructor
  · intro h
    have hlt := flat_lt _ _ h
    refine ⟨flat dims (is.map toSize), hlt, ?_, ?_⟩
    · rw [if_pos h, Nat.zero_add, Nat.mod_eq_of_lt (by omega)]
    · rw [if_pos h, Nat.zero_add, Nat.mod_eq_of_lt (by omega)]
      split
      · next e =>
        subst e
        cases dims with
        | nil => rfl
        | cons => simp [InRange] at h
      · rfl
  · intro h
    rw [if_neg h, if_neg h]
    exact ⟨rfl, rfl⟩

theorem map_toSize_inj {dims : List Nat} (hd : ∀ d ∈ dims, d ≤ 2 ^ 63) {is js : List Int}
    (hi : Valid dims is) (hj : Valid dims js) (h : is.map toSize = js.map toSize) : is = js := by
  unfold Valid at hi hj
  induction hi generalizing js with
  | nil => cases hj; rfl
  | @cons d i ds is hdi _ ih =>
    cases hj with
    | @cons _ j _ js hdj hjs =>
      simp only [List.map_cons, List.cons.injEq] at h
      have := hd d List.mem_cons_self
      have e : i = j := by
        have := h.1
        unfold toSize at this
        omega
      rw [e, ih (fun x hx => hd x (List.mem_cons_of_mem _ hx)) hjs h.2]

theorem valid_bounds {dims : List Nat} (hd : ∀ d ∈ dims, d ≤ 2 ^ 63) {is : List Int}
    (h : Valid dims is) : ∀ i ∈ is, -2 ^ 63 ≤ i ∧ i < 2 ^ 63 := by
  unfold Valid at h
  induction h with
  | nil => simp
  | @cons d i ds is hdi _ ih =>
    intro x hx
    rcases List.mem_cons.1 hx with rfl | hx
    · have := hd d List.mem_cons_self
      omega
    · exact ih (fun y hy => hd y (List.mem_cons_of_mem _ hy)) x hx

/-- Assigning to one element of a tensor, indexed in either way, is always possible and changes this element, whichever
way it is read, and no other. -/
theorem assign_one {α : Type} (dims : List Nat) (hv : volume dims < 2 ^ 64)
    (hd : ∀ d ∈ dims, d ≤ 2 ^ 63) (mem : List α) (hm : mem.length = volume dims) (x : α) (is : List Int)
    (hi : Valid dims is) (w : Bool) :
    ∃ k mem', (if w then (View.ofStatic dims).call is else (View.ofStatic dims).chain is) = some k ∧
      store mem k x = some mem' ∧ mem'.length = mem.length ∧
      ∀ js, Valid dims js → ∀ r : Bool, ∃ l,
        (if r then (View.ofStatic dims).call js else (View.ofStatic dims).chain js) = some l ∧
        mem'[l]? = if js = is then some x else mem[l]? := by
  obtain ⟨k, hk, h1, h2⟩ := (access_checked dims hv hd is (valid_bounds hd hi)).1 hi
  refine ⟨k, mem.set k x, by cases w <;> simp [h1, h2], by rw [store, if_pos (by omega)], by simp, ?_⟩
  intro js hj r
  obtain ⟨l, hl, g1, g2⟩ := (access_checked dims hv hd js (valid_bounds hd hj)).1 hj
  refine ⟨l, by cases r <;> simp [g1, g2], ?_⟩
  split
  · next e =>
    subst e
    rw [h1] at g1
    cases g1
    simp [hm, hk]
  · next e =>
    rw [List.getElem?_set_ne]
    rintro rfl
    apply e
    unfold View.ofStatic at h1 g1
    rw [call_eq dims hv, if_pos ((valid_iff hd (valid_bounds hd hi)).1 hi), Nat.zero_add] at h1
    rw [call_eq dims hv, if_pos ((valid_iff hd (valid_bounds hd hj)).1 hj), Nat.zero_add] at g1
    have hli := flat_lt _ _ ((valid_iff hd (valid_bounds hd hi)).1 hi)
    have hlj := flat_lt _ _ ((valid_iff hd (valid_bounds hd hj)).1 hj)
    rw [Nat.mod_eq_of_lt (by omega)] at h1 g1
    refine map_toSize_inj hd hj hi (flat_inj dims _ _ ((valid_iff hd (valid_bounds hd hj)).1 hj)
      ((valid_iff hd (valid_bounds hd hi)).1 hi) ?_)
    rw [Option.some.inj h1, Option.some.inj g1]

theorem take_rows {α : Type} (v : Nat) : ∀ (d : Nat) (l : List α),
    (List.range d).flatMap (fun i => (l.drop (i * v)).take v) = l.take (d * v)
  | 0, l => by simp
  | d + 1, l => by
    rw [List.range_succ, List.flatMap_append, take_rows v d, List.flatMap_singleton, Nat.succ_mul, List.take_add]

/-- The views `t[0]`, `t[1]`, ... of a tensor or of a view of static rank: they are the rows.  One after the other, their
elements are the elements in the order of iteration. -/
theorem rows_concat {α : Type} (d : Nat) (ds : List Nat) (off : Nat) (mem : List α)
    (hm : off + volume (d :: ds) ≤ mem.length) (hl : mem.length < 2 ^ 64) (hd : d ≤ 2 ^ 63) :
    (∀ i : Nat, i < d → ∃ u, (View.mk (ds.length + 1) (d :: ds) off).subscript i = some u ∧ u.n = ds.length ∧ u.dims = ds) ∧
    (List.range d).flatMap (fun i : Nat => match (View.mk (ds.length + 1) (d :: ds) off).subscript i with
        | none => []
        | some u => u.elements mem) =
      (View.mk (ds.length + 1) (d :: ds) off).elements mem := by
  have hs : ∀ i : Nat, i < d → (View.mk (ds.length + 1) (d :: ds) off).subscript i =
      some ⟨ds.length, ds, off + i * volume ds⟩ := by
    intro i hi
    have e : toSize i = i := by unfold toSize; omega
    have : i * volume ds ≤ d * volume ds := Nat.mul_le_mul_right _ hi.le
    rw [volume] at hm
    rw [subscript_static, e, if_pos hi, Nat.mod_eq_of_lt (by omega)]
  refine ⟨fun i hi => ⟨_, hs i hi, rfl, rfl⟩, ?_⟩
  have h0 : 0 < d → volume ds < 2 ^ 64 := fun h => by
    have := volume_tail_le d ds h
    omega
  rw [List.flatMap_congr (g := fun i => ((mem.drop off).drop (i * volume ds)).take (volume ds)), take_rows]
  · rw [View.elements, computeProduct_eq, Nat.mod_eq_of_lt (by simp only; omega)]
    rfl
  · intro i hi
    have hi := List.mem_range.1 hi
    simp only [hs i hi, View.elements]
    rw [computeProduct_eq, Nat.mod_eq_of_lt (h0 (by omega)), List.drop_drop]

/-- The elements in the order of iteration: as many as the volume, and in the order of the cells. -/
theorem elements_all {α : Type} (dims : List Nat) (hv : volume dims < 2 ^ 64) (mem : List α)
    (hm : mem.length = volume dims) : (View.ofStatic dims).elements mem = mem := by
  unfold View.ofStatic View.elements
  rw [computeProduct_eq, Nat.mod_eq_of_lt hv, List.drop_zero, List.take_of_length_le (by omega)]

/-- A tensor of dynamic rank: the subscript operator is undefined for every tensor and every index, as the number of
dimensions to read is taken from the template argument. -/
theorem dynamic_subscript_ub (dims : List Nat) (h : dims.length < 2 ^ 64 - 1) (i : Int) :
    (View.ofDynamic dims).subscript i = none := by
  unfold View.subscript View.ofDynamic View.reference
  cases dims with
  | nil => rfl
  | cons d ds =>
    simp only
    split
    · rw [if_pos (by omega), if_neg (by omega)]
    · rfl

/-- The call operator of a tensor of dynamic rank works as that of a tensor of static rank. -/
theorem dynamic_call (dims : List Nat) (is : List Int) :
    (View.ofDynamic dims).call is = (View.ofStatic dims).call is := rfl

/-! ## Concrete cases -/

example : (View.ofStatic [2, 3, 4]).call [1, 2, 3] = some 23 ∧ (View.ofStatic [2, 3, 4]).chain [1, 2, 3] = some 23 ∧
    (View.ofStatic [2, 3, 4]).call [1, 3, 0] = none ∧ (View.ofStatic [2, 3, 4]).call [1, -1, 0] = none ∧
    (View.ofStatic [2, 3, 4]).chain [1, -1, 0] = none ∧ (View.ofStatic [2, 3, 4]).call [1, 1] = none ∧
    (View.ofStatic [2, 3, 4]).chain [1, 1, 1, 1] = none ∧ (View.ofStatic []).call [] = some 0 := by decide +kernel

example : Valid [2, 3, 4] [1, 2, 3] := by simp [Valid]

example : ((View.ofStatic [2, 3]).subscript 1).map (·.elements [10, 11, 12, 13, 14, 15]) = some [13, 14, 15] := by
  decide +kernel

example : (View.ofDynamic [3, 2]).call [2, 1] = some 5 ∧ (View.ofDynamic [3, 2]).subscript 2 = none := by
  decide +kernel

end Actl.Tensor
