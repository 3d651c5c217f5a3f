import Verif.Model.Bundles
import Verif.Spec.Bundles
import Verif.Lemmas.AdjacencyC

/-! Assignments to bundles commute with insertions. -/

namespace Actl.Storage

open Actl.Ids

/-! ### Programs -/

section Programs

variable {V β S H : Type}

def addSeq (add : S → V × V × β → Option (S × Option H)) :
    S → List (V × V × β) → Option (S × List (Option H))
  | s, [] => some (s, [])
  | s, c :: cs =>
    match add s c with
    | none => none
    | some (s, a) =>
      match addSeq add s cs with
      | none => none
      | some (s, as) => some (s, a :: as)

/-- What is needed of a store: `Good n` holds after `n` insertions. -/
structure Commutes (add : S → V × V × β → Option (S × Option H)) (write : S → H → β → Option S)
    (Good : Nat → S → Prop) (N : Nat) : Prop where
  good : ∀ n s c s' a, n < N → Good n s → add s c = some (s', a) → Good (n + 1) s'
  same : ∀ n s c x, n < N → Good n s →
    (add s c = none ∧ add s (c.1, c.2.1, x) = none) ∨
    (∃ s', add s c = some (s', none) ∧ add s (c.1, c.2.1, x) = some (s', none)) ∨
    ∃ s1 h s2, add s c = some (s1, some h) ∧ write s1 h x = some s2 ∧ add s (c.1, c.2.1, x) = some (s2, some h)
  comm : ∀ n s h x s' c, n < N → Good n s → write s h x = some s' →
    (add s c = none ∧ add s' c = none) ∨
    ∃ s1 a s2, add s c = some (s1, a) ∧ write s1 h x = some s2 ∧ add s' c = some (s2, a)

variable {add : S → V × V × β → Option (S × Option H)} {write : S → H → β → Option S} {Good : Nat → S → Prop}
  {N : Nat}

theorem addSeq_length {s : S} {cs : List (V × V × β)} {g : S} {as : List (Option H)}
    (h : addSeq add s cs = some (g, as)) : as.length = cs.length := by
  induction cs generalizing s as g with
  | nil => obtain ⟨-, rfl⟩ := Prod.mk.inj (Option.some.inj h); rfl
  | cons c cs ih =>
    simp only [addSeq] at h
    rcases hc : add s c with _ | ⟨s1, a⟩
    · simp [hc] at h
    · rcases hr : addSeq add s1 cs with _ | ⟨s2, as2⟩
      · simp [hc, hr] at h
      · simp only [hc, hr, Option.some.injEq, Prod.mk.injEq] at h
        rw [← h.2, List.length_cons, ih hr, List.length_cons]

theorem addSeq_append (s : S) (cs ds : List (V × V × β)) :
    addSeq add s (cs ++ ds) = (addSeq add s cs).bind fun r =>
      (addSeq add r.1 ds).map fun t => (t.1, r.2 ++ t.2) := by
  induction cs generalizing s with
  | nil =>
    rw [List.nil_append]
    simp only [addSeq, Option.bind_some, List.nil_append]
    rcases addSeq add s ds with _ | ⟨_, _⟩ <;> rfl
  | cons c cs ih =>
    simp only [List.cons_append, addSeq]
    rcases add s c with _ | ⟨s1, a⟩
    · rfl
    · simp only [ih]
      rcases addSeq add s1 cs with _ | ⟨s2, as⟩
      · rfl
      · simp only [Option.bind_some]
        rcases addSeq add s2 ds with _ | ⟨_, _⟩ <;> rfl

/-- An assignment made before some insertions. -/
theorem Commutes.write_first (hc : Commutes add write Good N) {cs : List (V × V × β)} :
    ∀ {n : Nat} {s s' : S} {h : H} {x : β}, n + cs.length ≤ N → Good n s → write s h x = some s' →
    (addSeq add s cs = none ∧ addSeq add s' cs = none) ∨
    ∃ g as g', addSeq add s cs = some (g, as) ∧ write g h x = some g' ∧ addSeq add s' cs = some (g', as) := by
  induction cs with
  | nil => intro n s s' h x _ _ hw; exact Or.inr ⟨s, [], s', rfl, hw, rfl⟩
  | cons c cs ih =>
    intro n s s' h x hn hg hw
    rw [List.length_cons] at hn
    rcases hc.comm n s h x s' c (by omega) hg hw with ⟨h1, h2⟩ | ⟨s1, a, s2, h1, h2, h3⟩
    · left; simp [addSeq, h1, h2]
    · have hg1 := hc.good n s c s1 a (by omega) hg h1
      rcases ih (n := n + 1) (by omega) hg1 h2 with ⟨i1, i2⟩ | ⟨g, as, g', i1, i2, i3⟩
      · left; simp [addSeq, h1, h3, i1, i2]
      · right; exact ⟨g, a :: as, g', by simp [addSeq, h1, i1], i2, by simp [addSeq, h3, i3]⟩

/-- One assignment is as if the edge had been added so. -/
theorem Commutes.modify (hc : Commutes add write Good N) {cs : List (V × V × β)} :
    ∀ {n : Nat} {s : S} {j : Nat} (x : β), n + cs.length ≤ N → Good n s → j < cs.length →
    match addSeq add s cs with
    | none => addSeq add s (cs.modify j fun c => (c.1, c.2.1, x)) = none
    | some (g, as) =>
      match as[j]? with
      | none => False
      | some none => addSeq add s (cs.modify j fun c => (c.1, c.2.1, x)) = some (g, as)
      | some (some h) =>
        match write g h x with
        | none => False
        | some g' => addSeq add s (cs.modify j fun c => (c.1, c.2.1, x)) = some (g', as) := by
  induction cs with
  | nil => intro n s j x _ _ hj; simp at hj
  | cons c cs ih =>
    intro n s j x hn hg hj
    rw [List.length_cons] at hn hj
    rcases j with _ | j
    · simp only [List.modify_zero_cons, addSeq]
      rcases hc.same n s c x (by omega) hg with ⟨h1, h2⟩ | ⟨s', h1, h2⟩ | ⟨s1, h, s2, h1, h2, h3⟩
      · simp [h1, h2]
      · simp only [h1, h2]
        rcases addSeq add s' cs with _ | ⟨g, as⟩ <;> simp
      · have hg1 := hc.good n s c s1 _ (by omega) hg h1
        simp only [h1, h3]
        rcases hc.write_first (n := n + 1) (cs := cs) (by omega) hg1 h2 with ⟨i1, i2⟩ | ⟨g, as, g', i1, i2, i3⟩
        · simp [i1, i2]
        · simp [i1, i2, i3]
    · simp only [List.modify_succ_cons, addSeq]
      rcases h1 : add s c with _ | ⟨s1, a⟩
      · simp
      · have hg1 := hc.good n s c s1 a (by omega) hg h1
        have := ih (n := n + 1) (s := s1) (j := j) x (by omega) hg1 (by omega)
        simp only
        rcases h2 : addSeq add s1 cs with _ | ⟨g, as⟩
        · rw [h2] at this; simp only at this; simp [this]
        · rw [h2] at this
          simp only at this ⊢
          rw [List.getElem?_cons_succ]
          rcases h3 : as[j]? with _ | _ | h
          · rw [h3] at this; exact this
          · rw [h3] at this; simp only at this ⊢; simp [this]
          · rw [h3] at this
            simp only at this ⊢
            rcases h4 : write g h x with _ | g'
            · rw [h4] at this; exact this
            · rw [h4] at this; simp only at this ⊢; simp [this]

/-- The number of calls of `try_add_edge`. -/
def addCount : List (BOp V β) → Nat
  | [] => 0
  | .add .. :: ops => addCount ops + 1
  | .write .. :: ops => addCount ops

theorem asAdded_length {ops : List (BOp V β)} : ∀ {calls r : List (V × V × β)}, asAdded calls ops = some r →
    r.length = calls.length + addCount ops := by
  induction ops with
  | nil => intro calls r h; obtain rfl := Option.some.inj h; rfl
  | cons op ops ih =>
    intro calls r h
    rcases op with ⟨u, v, b⟩ | ⟨j, x⟩
    · have := ih h
      rw [List.length_append, List.length_singleton] at this
      simp only [addCount]; omega
    · simp only [asAdded] at h
      split at h
      · have := ih h
        rw [List.length_modify] at this
        exact this
      · simp at h

theorem Commutes.run (hc : Commutes add write Good N) {s : S} (hg : Good 0 s) {ops : List (BOp V β)} :
    ∀ {calls : List (V × V × β)} {g : S} {as : List (Option H)} {r}, calls.length + addCount ops ≤ N →
    addSeq add s calls = some (g, as) → asAdded calls ops = some r →
    runOps add write g as ops = addSeq add s r := by
  induction ops with
  | nil =>
    intro calls g as r _ h1 h2
    obtain rfl := Option.some.inj h2
    simp only [runOps, h1]
  | cons op ops ih =>
    intro calls g as r hn h1 h2
    rcases op with ⟨u, v, b⟩ | ⟨j, x⟩
    · simp only [addCount] at hn
      simp only [asAdded] at h2
      simp only [runOps]
      have happ := addSeq_append (add := add) s calls [(u, v, b)]
      rw [h1] at happ
      simp only [Option.bind_some, addSeq] at happ
      rcases ha : add g (u, v, b) with _ | ⟨g1, a⟩
      · simp only
        rw [ha] at happ
        simp only [Option.map_none] at happ
        -- the rest cannot repair it
        have key : ∀ (ops : List (BOp V β)) (calls : List (V × V × β)) r, calls.length + addCount ops ≤ N →
            addSeq add s calls = none → asAdded calls ops = some r → addSeq add s r = none := by
          intro ops
          induction ops with
          | nil => intro calls r _ h h'; obtain rfl := Option.some.inj h'; exact h
          | cons op ops ih =>
            intro calls r hn h h'
            rcases op with ⟨u, v, b⟩ | ⟨j, x⟩
            · simp only [addCount] at hn
              refine ih _ r (by rw [List.length_append, List.length_singleton]; omega) ?_ h'
              rw [addSeq_append, h]; rfl
            · simp only [addCount] at hn
              simp only [asAdded] at h'
              split at h'
              · rename_i hj
                refine ih _ r (by rw [List.length_modify]; omega) ?_ h'
                have := hc.modify (n := 0) x (by omega) hg hj
                rw [h] at this
                exact this
              · simp at h'
        exact (key ops _ r (by rw [List.length_append, List.length_singleton]; omega) happ h2).symm
      · simp only
        rw [ha] at happ
        simp only [Option.map_some] at happ
        exact ih (by rw [List.length_append, List.length_singleton]; omega) happ h2
    · simp only [addCount] at hn
      simp only [asAdded] at h2
      split at h2
      · rename_i hj
        have := hc.modify (n := 0) x (by omega) hg hj
        rw [h1] at this
        simp only at this
        simp only [runOps]
        rcases h3 : as[j]? with _ | _ | h
        · rw [h3] at this; exact this.elim
        · rw [h3] at this
          simp only at this ⊢
          exact ih (by rw [List.length_modify]; omega) this h2
        · rw [h3] at this
          simp only at this ⊢
          rcases h4 : write g h x with _ | g'
          · rw [h4] at this; exact this.elim
          · rw [h4] at this
            simp only at this ⊢
            exact ih (by rw [List.length_modify]; omega) this h2
      · simp at h2

end Programs

/-! ### Containers -/

section Containers

variable {α κ : Type} [LinearOrder κ] {key : α → κ}

/-- The elements changed, each at its place. -/
def upd (c : Cont α) (φ : Nat × α → α) : Cont α := { c with items := c.items.map fun p => (p.1, φ p) }

/-- `f` of the element at the address `a`. -/
def sub (a : Nat) (f : α → α) (p : Nat × α) : α := if p.1 = a then f p.2 else p.2

/-- The id is that of the element `x` at the address `a`. -/
def Names (c : Cont α) (id : Int) (a : Nat) (x : α) : Prop :=
  (c.kind.ra = true → 0 ≤ id ∧ c.items[id.toNat]? = some (a, x)) ∧
  (c.kind.ra = false → id = a ∧ (a, x) ∈ c.items)

theorem Names.mem {c : Cont α} {id : Int} {a : Nat} {x : α} (h : Names c id a x) : (a, x) ∈ c.items := by
  cases hk : c.kind.ra
  · exact (h.2 hk).2
  · exact List.mem_of_getElem? (h.1 hk).2

theorem names_of_at {c : Cont α} (hw : (c.items.map Prod.fst).Nodup) {id : Int} {x : α}
    (h : c.at id = some x) : ∃ a, Names c id a x := by
  cases hk : c.kind.ra
  · obtain ⟨a, h1, h2⟩ := (at_node hw hk).mp h
    exact ⟨a, by simp [hk], fun _ => ⟨h1, h2⟩⟩
  · obtain ⟨h1, h2⟩ := (at_vec hk).mp h
    rw [Cont.values, List.getElem?_map, Option.map_eq_some_iff] at h2
    obtain ⟨⟨a, y⟩, h3, rfl⟩ := h2
    exact ⟨a, fun _ => ⟨h1, h3⟩, by simp [hk]⟩

theorem Names.at {c : Cont α} (hw : (c.items.map Prod.fst).Nodup) {id : Int} {a : Nat} {x : α}
    (h : Names c id a x) : c.at id = some x := by
  cases hk : c.kind.ra
  · exact (at_node hw hk).mpr ⟨a, h.2 hk⟩
  · rw [at_vec hk, Cont.values, List.getElem?_map, (h.1 hk).2]
    exact ⟨(h.1 hk).1, rfl⟩

theorem Names.modify {c : Cont α} (hw : (c.items.map Prod.fst).Nodup) {id : Int} {a : Nat} {x : α}
    (h : Names c id a x) (f : α → α) : c.modify id f = upd c (sub a f) := by
  cases hk : c.kind.ra
  · simp only [Cont.modify, hk, Bool.false_eq_true, if_false, upd]
    congr 1
    refine List.map_congr_left fun p _ => ?_
    rw [(h.2 hk).1, sub]
    by_cases hp : p.1 = a
    · rw [if_pos hp, if_pos (by rw [hp])]
    · rw [if_neg hp, if_neg (fun e : (p.1 : Int) = a => hp (Int.ofNat.inj e))]
  · simp only [Cont.modify, hk, if_true, (h.1 hk).1, upd]
    congr 1
    have h1 := (h.1 hk).2
    refine List.ext_getElem? fun i => ?_
    rw [List.getElem?_modify, List.getElem?_map]
    rcases hi : c.items[i]? with _ | p
    · simp
    · simp only [Option.map_some, sub]
      by_cases he : id.toNat = i
      · rw [← he, h1] at hi
        obtain rfl := Option.some.inj hi
        simp [he]
      · have : p.1 ≠ a := by
          intro hp
          have e1 : (c.items.map Prod.fst)[id.toNat]? = some a := by rw [List.getElem?_map, h1]; rfl
          have e2 : (c.items.map Prod.fst)[i]? = some a := by rw [List.getElem?_map, hi, Option.map_some, hp]
          have hlt : id.toNat < (c.items.map Prod.fst).length := (List.getElem?_eq_some_iff.mp e1).1
          exact he ((List.getElem?_inj hlt hw).mp (e1.trans e2.symm))
        simp [he, this]

theorem Names.emplace {c : Cont α} {id : Int} {a : Nat} {x : α} (h : Names c id a x) (ord : Order α) (y : α) :
    Names (c.idEmplace key ord y).1 id a x := by
  by_cases hd : c.kind.unique = true ∧ ∃ z ∈ c.values, key z = key y
  · simp only [Cont.idEmplace, emplace_dup ord hd]; exact h
  · simp only [Cont.idEmplace, emplace_new ord hd]
    refine ⟨fun hk => ?_, fun hk => ?_⟩
    · have hk : c.kind.ra = true := hk
      have ha : c.kind.assoc = false := by revert hk; cases c.kind <;> decide
      obtain ⟨h1, h2⟩ := h.1 hk
      refine ⟨h1, ?_⟩
      simp only [vec_inserted key ord y ha]
      rw [List.getElem?_append_left (List.getElem?_eq_some_iff.mp h2).1]; exact h2
    · have hk : c.kind.ra = false := hk
      exact ⟨(h.2 hk).1, (inserted_perm key ord c y).mem_iff.mpr (List.mem_cons_of_mem _ (h.2 hk).2)⟩

theorem upd_fst (c : Cont α) (φ : Nat × α → α) : (upd c φ).items.map Prod.fst = c.items.map Prod.fst := by
  simp only [upd, List.map_map]; rfl

theorem upd_key {φ : Nat × α → α} (hφ : ∀ p, key (φ p) = key p.2) (c : Cont α) :
    (upd c φ).values.map key = c.values.map key := by
  simp only [upd, Cont.values, List.map_map]
  exact List.map_congr_left fun p _ => hφ p

theorem upd_wf {φ : Nat × α → α} (hφ : ∀ p, key (φ p) = key p.2) {c : Cont α} (hw : c.WF key) :
    (upd c φ).WF key := by
  have hk := upd_key hφ c
  refine ⟨by rw [upd_fst]; exact hw.nodup, ?_, fun hu => ?_, fun hs => ?_⟩
  · intro p hp
    obtain ⟨q, hq, rfl⟩ := List.mem_map.mp hp
    exact hw.lt q hq
  · have e1 := List.pairwise_map (f := key) (R := (· ≠ ·)) (l := (upd c φ).values)
    have e2 := List.pairwise_map (f := key) (R := (· ≠ ·)) (l := c.values)
    rw [hk] at e1
    exact e1.mp (e2.mpr (hw.uniq hu))
  · have e1 := List.pairwise_map (f := key) (R := (· ≤ ·)) (l := (upd c φ).values)
    have e2 := List.pairwise_map (f := key) (R := (· ≤ ·)) (l := c.values)
    rw [hk] at e1
    exact e1.mp (e2.mpr (hw.sorted hs))

theorem upd_dup {φ : Nat × α → α} (hφ : ∀ p, key (φ p) = key p.2) (c : Cont α) (k : κ) :
    (∃ z ∈ (upd c φ).values, key z = k) ↔ ∃ z ∈ c.values, key z = k := by
  have := upd_key hφ c
  rw [← List.mem_map, ← List.mem_map, this]

theorem upd_findPos {φ : Nat × α → α} (hφ : ∀ p, key (φ p) = key p.2) (c : Cont α) (k : κ) :
    (upd c φ).findPos key k = c.findPos key k := by
  simp only [Cont.findPos, upd, List.findIdx_map]
  congr 1
  funext p
  simp only [Function.comp, hφ p]

theorem upd_inserted {ord : Order α} {φ : Nat × α → α} (hφ : ∀ p, key (φ p) = key p.2)
    (c : Cont α) (hb : c.kind.hashed = true → ByKey key ord) (y : α) :
    (upd c φ).inserted key ord (φ (c.next, y)) = (c.inserted key ord y).map fun p => (p.1, φ p) := by
  unfold Cont.inserted
  have hk : (upd c φ).kind = c.kind := rfl
  have hn : (upd c φ).next = c.next := rfl
  have hi : (upd c φ).items = c.items.map fun p => (p.1, φ p) := rfl
  rw [hk, hn, hi]
  split
  · rename_i hh; rw [← hb hh _ _ _ hφ, List.map_cons]
  · split
    · have : upperBound key (φ (c.next, y)) (c.items.map fun p => (p.1, φ p)) = upperBound key y c.items := by
        unfold upperBound
        rw [List.takeWhile_map, List.length_map]
        congr 2
        funext p
        simp only [Function.comp, hφ p, hφ (c.next, y)]
      rw [this, List.map_insertIdx]
    · rw [List.map_append]; rfl

/-- An insertion after some elements (and the one inserted) are changed. -/
theorem upd_emplace {ord : Order α} {φ : Nat × α → α} (hφ : ∀ p, key (φ p) = key p.2)
    (c : Cont α) (hb : c.kind.hashed = true → ByKey key ord) (y : α) :
    (upd c φ).idEmplace key ord (φ (c.next, y)) =
      (upd (c.idEmplace key ord y).1 φ, (c.idEmplace key ord y).2) := by
  have hkey : key (φ (c.next, y)) = key y := hφ (c.next, y)
  have hid : ∀ (d : Cont α) i, (upd d φ).iteratorToId i = d.iteratorToId i := by
    intro d i
    simp only [Cont.iteratorToId, upd, List.getElem?_map]
    rcases d.items[i]? with _ | p <;> rfl
  by_cases hd : c.kind.unique = true ∧ ∃ z ∈ c.values, key z = key y
  · have hd' : (upd c φ).kind.unique = true ∧ ∃ z ∈ (upd c φ).values, key z = key (φ (c.next, y)) :=
      ⟨hd.1, by rw [hkey]; exact (upd_dup hφ c _).mpr hd.2⟩
    simp only [Cont.idEmplace, emplace_dup ord hd, emplace_dup ord hd', hid, hkey, upd_findPos hφ]
  · have hd' : ¬((upd c φ).kind.unique = true ∧ ∃ z ∈ (upd c φ).values, key z = key (φ (c.next, y))) := by
      rw [hkey]; exact fun h => hd ⟨h.1, (upd_dup hφ c _).mp h.2⟩
    simp only [Cont.idEmplace, emplace_new ord hd, emplace_new ord hd']
    have hf : ((upd c φ).inserted key ord (φ (c.next, y))).findIdx (fun p => p.1 == (upd c φ).next) =
        (c.inserted key ord y).findIdx (fun p => p.1 == c.next) := by
      rw [upd_inserted hφ c hb, List.findIdx_map]; rfl
    have he : (⟨(upd c φ).kind, (upd c φ).inserted key ord (φ (c.next, y)), (upd c φ).next + 1⟩ : Cont α) =
        upd ⟨c.kind, c.inserted key ord y, c.next + 1⟩ φ := by
      rw [upd_inserted hφ c hb]; rfl
    rw [hf, he, hid]

theorem sub_key {a : Nat} {f : α → α} (hf : ∀ y, key (f y) = key y) (p : Nat × α) :
    key (sub a f p) = key p.2 := by
  unfold sub; split
  · exact hf _
  · rfl

/-- A change, keeping keys, and then an insertion. -/
theorem modify_emplace {ord : Order α} {c : Cont α} (hb : c.kind.hashed = true → ByKey key ord) (hw : c.WF key) {id : Int} {x : α}
    (h : c.at id = some x) {f : α → α} (hf : ∀ y, key (f y) = key y) (y : α) :
    (c.modify id f).idEmplace key ord y =
      ((c.idEmplace key ord y).1.modify id f, (c.idEmplace key ord y).2) ∧
    (c.idEmplace key ord y).1.at id = some x := by
  obtain ⟨a, ha⟩ := names_of_at hw.nodup h
  have hw1 : (c.idEmplace key ord y).1.WF key := hw.emplace ord y
  have ha1 : Names (c.idEmplace key ord y).1 id a x := ha.emplace ord y
  rw [ha.modify hw.nodup, ha1.modify hw1.nodup]
  have hlt := hw.lt _ ha.mem
  have hy : sub a f (c.next, y) = y := if_neg (fun e : c.next = a => by simp only at hlt; omega)
  refine ⟨?_, ha1.at hw1.nodup⟩
  have := upd_emplace (sub_key (a := a) hf) c hb y
  rw [hy] at this
  exact this

theorem modify_wf {c : Cont α} (hw : c.WF key) {id : Int} {x : α} (h : c.at id = some x) {f : α → α}
    (hf : ∀ y, key (f y) = key y) : (c.modify id f).WF key := by
  obtain ⟨a, ha⟩ := names_of_at hw.nodup h
  rw [ha.modify hw.nodup]
  exact upd_wf (sub_key hf) hw

/-- A change of the element just inserted. -/
theorem emplace_modify {ord : Order α} {c : Cont α} (hb : c.kind.hashed = true → ByKey key ord) (hw : c.WF key) (hfit : c.Fits) {y : α}
    {f : α → α} (hf : ∀ y, key (f y) = key y) :
    ((c.idEmplace key ord y).2.2 = false ∧ c.idEmplace key ord (f y) = c.idEmplace key ord y) ∨
    ((c.idEmplace key ord y).2.2 = true ∧ (c.idEmplace key ord y).1.at (c.idEmplace key ord y).2.1 = some y ∧
      c.idEmplace key ord (f y) =
        ((c.idEmplace key ord y).1.modify (c.idEmplace key ord y).2.1 f, (c.idEmplace key ord y).2)) := by
  by_cases hd : c.kind.unique = true ∧ ∃ z ∈ c.values, key z = key y
  · left
    have hd' : c.kind.unique = true ∧ ∃ z ∈ c.values, key z = key (f y) := by rw [hf]; exact hd
    simp only [Cont.idEmplace, emplace_dup ord hd, emplace_dup ord hd', hf, and_self]
  · right
    obtain ⟨-, -, h3, -⟩ := idEmplace_spec ord hw hfit y
    have hok : (c.idEmplace key ord y).2.2 = true := by simp only [Cont.idEmplace, emplace_new ord hd]
    refine ⟨hok, (h3 hok).1, ?_⟩
    have hm := modify_new hw hfit ord hd f
    have hu := upd_emplace (sub_key (a := c.next) hf) c hb y
    have hc : upd c (sub c.next f) = c := by
      unfold upd
      have : c.items.map (fun p => (p.1, sub c.next f p)) = c.items := by
        conv_rhs => rw [← List.map_id c.items]
        refine List.map_congr_left fun p hp => ?_
        have := hw.lt p hp
        rw [sub, if_neg (by omega)]; rfl
      rw [this]
    rw [hc, sub, if_pos rfl] at hu
    rw [hu]
    congr 1
    have hk : ((c.idEmplace key ord y).1.modify (c.idEmplace key ord y).2.1 f) =
        { (c.idEmplace key ord y).1 with items :=
          ((c.idEmplace key ord y).1.modify (c.idEmplace key ord y).2.1 f).items } := rfl
    rw [hk, hm, upd]
    congr 1
    have hit : (c.idEmplace key ord y).1.items = c.inserted key ord y := by
      simp only [Cont.idEmplace, emplace_new ord hd]
    rw [hit]
    refine List.map_congr_left fun p _ => ?_
    unfold sub; split <;> rfl

theorem emplace_len (ord : Order α) (c : Cont α) (y : α) :
    (c.idEmplace key ord y).1.items.length ≤ c.items.length + 1 ∧ (c.idEmplace key ord y).1.kind = c.kind := by
  refine ⟨?_, emplace_kind ord c y⟩
  by_cases hd : c.kind.unique = true ∧ ∃ z ∈ c.values, key z = key y
  · simp only [Cont.idEmplace, emplace_dup ord hd]; omega
  · simp only [Cont.idEmplace, emplace_new ord hd, (inserted_perm key ord c y).length_eq, List.length_cons]
    exact le_refl _

end Containers

end Actl.Storage
