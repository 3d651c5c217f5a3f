import Verif.Model.TensorObjects
import Verif.Props.TensorAccess
import Mathlib.Data.List.Nodup

/-!
Index tuples in order, offsets of views.
-/

namespace Actl.TensorObj

open Actl.Tensor

theorem fits_iff : ∀ (ds is : List Nat), fits ds is = true ↔ InRange ds is
  | [], [] => by simp [fits, InRange]
  | d :: ds, i :: is => by simp [fits, InRange, fits_iff ds is]
  | [], _ :: _ => by simp [fits, InRange]
  | _ :: _, [] => by simp [fits, InRange]

theorem volume_append (a b : List Nat) : volume (a ++ b) = volume a * volume b := by
  induction a with
  | nil => simp [volume]
  | cons d a ih => rw [List.cons_append, volume, volume, ih, Nat.mul_assoc]

theorem flat_append : ∀ (a b i j : List Nat), a.length = i.length →
    flat (a ++ b) (i ++ j) = flat a i * volume b + flat b j
  | [], b, [], j, _ => by simp [flat]
  | d :: a, b, x :: i, j, h => by
    rw [List.cons_append, List.cons_append, flat, flat, flat_append a b i j (by simpa using h), volume_append]
    ring
  | [], _, _ :: _, _, h => by simp at h
  | _ :: _, _, [], _, h => by simp at h

theorem inRange_append : ∀ (a b i j : List Nat), a.length = i.length →
    (InRange (a ++ b) (i ++ j) ↔ InRange a i ∧ InRange b j)
  | [], b, [], j, _ => by simp [InRange]
  | d :: a, b, x :: i, j, h => by
    rw [List.cons_append, List.cons_append, InRange, InRange, inRange_append a b i j (by simpa using h), and_assoc]
  | [], _, _ :: _, _, h => by simp at h
  | _ :: _, _, [], _, h => by simp at h

theorem flatMap_range_add (v : Nat) : ∀ d : Nat,
    (List.range d).flatMap (fun i => (List.range v).map (i * v + ·)) = List.range (d * v)
  | 0 => by simp
  | d + 1 => by
    rw [List.range_succ, List.flatMap_append, flatMap_range_add v d, List.flatMap_singleton, Nat.succ_mul, List.range_add]

/-- The tuples in order are at the cells in order. -/
theorem tuples_flat (ds : List Nat) : (tuples ds).map (flat ds) = List.range (volume ds) := by
  induction ds with
  | nil => simp [tuples, flat, volume, List.range_succ]
  | cons d ds ih =>
    rw [tuples, List.map_flatMap, volume, ← flatMap_range_add]
    congr 1
    funext i
    rw [← ih, List.map_map, List.map_map]
    rfl

theorem mem_tuples : ∀ (ds is : List Nat), is ∈ tuples ds ↔ InRange ds is
  | [], [] => by simp [tuples, InRange]
  | [], _ :: _ => by simp [tuples, InRange]
  | _ :: _, [] => by simp [tuples, InRange]
  | d :: ds, i :: is => by simp [tuples, InRange, mem_tuples ds is]

theorem tuples_length (ds : List Nat) : (tuples ds).length = volume ds := by
  have := congrArg List.length (tuples_flat ds)
  simpa using this

theorem tuples_get (ds : List Nat) (i : Nat) (h : i < (tuples ds).length) : flat ds ((tuples ds)[i]) = i := by
  have h2 : i < ((tuples ds).map (flat ds)).length := by simpa using h
  have : ((tuples ds).map (flat ds))[i] = i := by simp only [tuples_flat, List.getElem_range]
  simpa using this

theorem tuples_nodup (ds : List Nat) : (tuples ds).Nodup :=
  List.Nodup.of_map (flat ds) (by rw [tuples_flat]; exact List.nodup_range)

theorem tuples_idxOf (ds is : List Nat) (h : InRange ds is) : (tuples ds).idxOf is = flat ds is := by
  have hl : flat ds is < (tuples ds).length := by rw [tuples_length]; exact flat_lt _ _ h
  have e : (tuples ds)[flat ds is] = is :=
    flat_inj ds _ _ ((mem_tuples _ _).mp (List.getElem_mem _)) h (tuples_get ds _ hl)
  conv_lhs => rw [← e]
  exact (tuples_nodup ds).idxOf_getElem _ hl

/-- The cells hold the contents. -/
def Holds {α : Type} (cells : List (Option α)) (k : Contents α) : Prop :=
  cells.length = volume k.dims ∧ volume k.dims < 2 ^ 64 ∧ (∀ d ∈ k.dims, d < 2 ^ 64) ∧
    ∀ is, InRange k.dims is → cells[flat k.dims is]? = some (k.val is)

/-- A view in the code is a view of the dimensions behind the leading indices. -/
def VRel (dims : List Nat) (sv : SView) (w : VObj) : Prop :=
  InRange (dims.take sv.lead.length) sv.lead ∧
  w.at_ = ⟨(dims.drop sv.lead.length).length, dims.drop sv.lead.length,
    flat (dims.take sv.lead.length) sv.lead * volume (dims.drop sv.lead.length)⟩

theorem lead_length {dims lead : List Nat} (h : InRange (dims.take lead.length) lead) :
    (dims.take lead.length).length = lead.length := inRange_length _ _ h

theorem off_bound {dims lead : List Nat} (h : InRange (dims.take lead.length) lead) :
    flat (dims.take lead.length) lead * volume (dims.drop lead.length) + volume (dims.drop lead.length) ≤ volume dims := by
  have h1 := flat_lt _ _ h
  have : volume dims = volume (dims.take lead.length) * volume (dims.drop lead.length) := by
    rw [← volume_append, List.take_append_drop]
  rw [this, ← Nat.succ_mul]
  exact Nat.mul_le_mul_right _ h1

theorem flat_lead {dims lead is : List Nat} (h : InRange (dims.take lead.length) lead) :
    flat dims (lead ++ is) = flat (dims.take lead.length) lead * volume (dims.drop lead.length) +
      flat (dims.drop lead.length) is := by
  rw [← flat_append _ _ _ _ (lead_length h), List.take_append_drop]

theorem inRange_lead {dims lead is : List Nat} (h : InRange (dims.take lead.length) lead) :
    InRange dims (lead ++ is) ↔ InRange (dims.drop lead.length) is := by
  conv_lhs => rw [← List.take_append_drop lead.length dims]
  rw [inRange_append _ _ _ _ (lead_length h)]
  simp [h]

theorem checked_flat {ds is : List Nat} (hv : volume ds < 2 ^ 64) (h : InRange ds is) :
    checkedIndex ds 0 0 is = some (flat ds is) := by
  have := checkedIndex_eq ds [] is 0
  simp only [List.nil_append, List.length_nil] at this
  rw [this, if_pos h]
  exact congrArg some (callIndex_eq ds is h hv)

/-- The elements of the view in the order of the cells. -/
theorem holds_elements {α : Type} {cells : List (Option α)} {k : Contents α} (hk : Holds cells k) {lead : List Nat}
    (h : InRange (k.dims.take lead.length) lead) :
    (cells.drop (flat (k.dims.take lead.length) lead * volume (k.dims.drop lead.length))).take
      (volume (k.dims.drop lead.length)) =
    (tuples (k.dims.drop lead.length)).map fun is => k.val (lead ++ is) := by
  have hb := off_bound h
  apply List.ext_getElem?
  intro i
  by_cases hi : i < volume (k.dims.drop lead.length)
  · have hl : i < (tuples (k.dims.drop lead.length)).length := by rw [tuples_length]; exact hi
    rw [List.getElem?_take_of_lt hi, List.getElem?_drop, List.getElem?_map, List.getElem?_eq_getElem hl, Option.map_some]
    have hr : InRange (k.dims.drop lead.length) ((tuples (k.dims.drop lead.length))[i]) :=
      (mem_tuples _ _).mp (List.getElem_mem _)
    rw [← hk.2.2.2 _ ((inRange_lead h).mpr hr), flat_lead h, tuples_get _ _ hl]
  · rw [List.getElem?_eq_none (by simp; omega), List.getElem?_eq_none (by simp [tuples_length]; omega)]

/-- Writing an element. -/
theorem holds_write {α : Type} {cells : List (Option α)} {k : Contents α} (hk : Holds cells k) {js : List Nat}
    (h : InRange k.dims js) (a : α) :
    Holds (cells.set (flat k.dims js) (some a)) ⟨k.dims, fun is => if is = js then some a else k.val is⟩ := by
  obtain ⟨h1, h2, h3, h4⟩ := hk
  refine ⟨by simpa using h1, h2, h3, fun is hi => ?_⟩
  simp only
  by_cases e : is = js
  · subst e
    rw [if_pos rfl, List.getElem?_set_self (by rw [h1]; exact flat_lt _ _ hi)]
  · rw [if_neg e, List.getElem?_set_ne (fun g => e (flat_inj _ _ _ hi h g.symm)), h4 is hi]

/-- New cells. -/
theorem holds_make {α : Type} {dims : List Nat} {i : Init α} {f : List Nat → Option α} (h : initial dims i = some f)
    (hv : volume dims < 2 ^ 64) (hd : ∀ d ∈ dims, d < 2 ^ 64) :
    ∃ cells, makeCells (computeProduct dims) i = some cells ∧ Holds cells ⟨dims, f⟩ := by
  have hp : computeProduct dims = volume dims := by rw [computeProduct_eq, Nat.mod_eq_of_lt hv]
  cases i with
  | nothing =>
    simp only [initial, Option.some.injEq] at h
    subst h
    refine ⟨_, rfl, by simp [hp], hv, hd, fun is hi => ?_⟩
    have := flat_lt _ _ hi
    simp only at this ⊢
    rw [List.getElem?_replicate, if_pos (by omega)]
  | value x =>
    simp only [initial, Option.some.injEq] at h
    subst h
    refine ⟨_, rfl, by simp [hp], hv, hd, fun is hi => ?_⟩
    have := flat_lt _ _ hi
    simp only at this ⊢
    rw [List.getElem?_replicate, if_pos (by omega)]
  | range xs =>
    simp only [initial] at h
    by_cases hx : xs.length = volume dims
    · rw [if_pos hx, Option.some.injEq] at h
      subst h
      refine ⟨xs.map some, by rw [makeCells, if_pos (by omega)], by simpa using hx, hv, hd, fun is hi => ?_⟩
      have := flat_lt _ _ hi
      simp only at this ⊢
      rw [tuples_idxOf dims is hi, List.getElem?_map, List.getElem?_eq_getElem (by omega)]
      rfl
    · rw [if_neg hx] at h; cases h

theorem subscripts_eq : ∀ (is ds : List Nat) (off : Nat), (∀ d ∈ ds, d < 2 ^ 64) →
    InRange (ds.take is.length) is → off + volume ds < 2 ^ 64 →
    subscripts ⟨ds.length, ds, off⟩ is = some ⟨(ds.drop is.length).length, ds.drop is.length,
      off + flat (ds.take is.length) is * volume (ds.drop is.length)⟩
  | [], ds, off, _, _, _ => by simp [subscripts, flat]
  | i :: is, [], off, _, h, _ => by simp [InRange] at h
  | i :: is, d :: ds, off, hd, h, hv => by
    rw [List.length_cons, List.take_succ_cons, InRange] at h
    have hd0 := hd d List.mem_cons_self
    have e : toSize i = i := by unfold toSize; omega
    have h1 : volume ds ≤ volume (d :: ds) := volume_tail_le d ds (by omega)
    have h2 : i * volume ds + volume ds ≤ volume (d :: ds) := by
      rw [← Nat.succ_mul, volume]
      exact Nat.mul_le_mul_right _ h.1
    have hs := subscript_static d ds off i
    rw [e, if_pos h.1, Nat.mod_eq_of_lt (by omega)] at hs
    rw [subscripts, List.length_cons, hs]
    simp only [Option.bind_eq_bind, Option.bind_some]
    rw [subscripts_eq is ds _ (fun x hx => hd x (List.mem_cons_of_mem _ hx)) h.2 (by omega)]
    simp only [List.length_cons, List.drop_succ_cons, List.take_succ_cons, flat]
    congr 2
    have : volume ds = volume (ds.take is.length) * volume (ds.drop is.length) := by
      rw [← volume_append, List.take_append_drop]
    rw [Nat.add_assoc, Nat.add_mul, Nat.mul_assoc, ← this]

theorem view_step {dims : List Nat} {sv : SView} {w : VObj} (h : VRel dims sv w) (hd : ∀ d ∈ dims, d < 2 ^ 64)
    (hv : volume dims < 2 ^ 64) {is : List Nat} (hl : sv.lead.length + is.length < dims.length)
    (hr : InRange ((dims.drop sv.lead.length).take is.length) is) :
    is.length < w.at_.n ∧ ∃ u, subscripts w.at_ is = some u ∧ ∀ c b, VRel dims ⟨c, sv.lead ++ is, true⟩ ⟨b, u, true⟩ := by
  obtain ⟨h1, h2⟩ := h
  have hb := off_bound h1
  rw [h2]
  refine ⟨by simp; omega, _, subscripts_eq is _ _ (fun d hx => hd d (List.mem_of_mem_drop hx)) hr (by omega), ?_⟩
  intro c b
  have e1 : dims.take (sv.lead ++ is).length = dims.take sv.lead.length ++ (dims.drop sv.lead.length).take is.length := by
    rw [List.length_append, List.take_add]
  have e2 : dims.drop (sv.lead ++ is).length = (dims.drop sv.lead.length).drop is.length := by
    rw [List.length_append, List.drop_drop]
  have e3 : volume (dims.drop sv.lead.length) =
      volume ((dims.drop sv.lead.length).take is.length) * volume ((dims.drop sv.lead.length).drop is.length) := by
    rw [← volume_append, List.take_append_drop]
  refine ⟨?_, ?_⟩
  · simp only
    rw [e1, inRange_append _ _ _ _ (lead_length h1)]
    exact ⟨h1, hr⟩
  · simp only
    rw [e1, e2, flat_append _ _ _ _ (lead_length h1)]
    congr 1
    rw [Nat.add_mul, Nat.mul_assoc, ← e3]

end Actl.TensorObj
