import Verif.Model.AdjacencyList
import Verif.Spec.Storage
import Verif.Props.EdgeList
import Mathlib.Data.List.Induction

/-! Facts used for adjacency lists: contents of containers, and the iterator of `edges()`. -/

namespace Actl.Storage

open Actl.Ids

variable {V α κ X : Type} [LinearOrder V] [LinearOrder κ]

/-- A container holds these elements (in this order, if it is a sequence). -/
structure Has (key : α → κ) (c : Cont α) (l : List α) : Prop where
  wf : c.WF key
  perm : c.values.Perm l
  seq : c.kind.assoc = false → c.values = l

theorem Has.empty (key : α → κ) (k : Kind) : Has key (Cont.empty k) [] :=
  ⟨Cont.WF.empty key k, List.Perm.refl _, fun _ => rfl⟩

theorem Has.length {key : α → κ} {c : Cont α} {l : List α} (h : Has key c l) :
    c.items.length = l.length := by
  have := h.perm.length_eq; simpa [Cont.values] using this

theorem Has.dup_iff {key : α → κ} {c : Cont α} {l : List α} (h : Has key c l) (x : α) :
    (∃ y ∈ c.values, key y = key x) ↔ ∃ y ∈ l, key y = key x := by
  constructor
  · rintro ⟨y, hy, e⟩; exact ⟨y, h.perm.mem_iff.mp hy, e⟩
  · rintro ⟨y, hy, e⟩; exact ⟨y, h.perm.mem_iff.mpr hy, e⟩

/-- An insertion refused. -/
theorem Has.refuse {key : α → κ} {c : Cont α} {l : List α} (h : Has key c l) (hf : c.Fits)
    (ord : Order α) {x : α} (hd : c.kind.unique = true ∧ ∃ y ∈ l, key y = key x) :
    (c.idEmplace key ord x).2.2 = false :=
  ((idEmplace_spec ord h.wf hf x).1).mpr ⟨hd.1, (h.dup_iff x).mpr hd.2⟩

/-- An insertion that is not refused. -/
theorem Has.add {key : α → κ} {c : Cont α} {l : List α} (h : Has key c l) (hf : c.Fits)
    (ord : Order α) {x : α} (hd : ¬(c.kind.unique = true ∧ ∃ y ∈ l, key y = key x)) :
    let r := c.idEmplace key ord x
    r.2.2 = true ∧ Has key r.1 (l ++ [x]) ∧ r.1.kind = c.kind ∧ r.1.at r.2.1 = some x ∧
      c.at r.2.1 = none ∧ ∀ id y, c.at id = some y → r.1.at id = some y := by
  obtain ⟨h1, h2, h3, h4, h5, h6⟩ := idEmplace_spec ord h.wf hf x
  have hok : (c.idEmplace key ord x).2.2 = true := by
    rw [← Bool.not_eq_false]; intro hc
    exact hd ⟨(h1.mp hc).1, (h.dup_iff x).mp (h1.mp hc).2⟩
  obtain ⟨a1, a0, a2, a3⟩ := h3 hok
  refine ⟨hok, ⟨h5, ?_, ?_⟩, h6, a1, a0, h4⟩
  · exact a2.trans ((List.Perm.cons _ h.perm).trans (List.perm_append_comm (l₁ := [x])))
  · intro ha
    have ha : c.kind.assoc = false := by rw [← h6]; exact ha
    rw [a3 ha, h.seq ha]

theorem modify_new {key : α → κ} {c : Cont α} (hw : c.WF key) (hf : c.Fits) (ord : Order α) {x : α}
    (hd : ¬(c.kind.unique = true ∧ ∃ y ∈ c.values, key y = key x)) (f : α → α) :
    ((c.idEmplace key ord x).1.modify (c.idEmplace key ord x).2.1 f).items =
      (c.inserted key ord x).map fun p => if p.1 = c.next then (p.1, f p.2) else p := by
  have hnd := new_nodup (key := key) hw.nodup hw.lt ord x
  have hm : (c.next, x) ∈ c.inserted key ord x :=
    (inserted_perm key ord c x).mem_iff.mpr (List.mem_cons_self ..)
  cases hra : c.kind.ra
  · simp only [Cont.idEmplace, emplace_new ord hd, Cont.modify, Cont.iteratorToId, hra,
      Bool.false_eq_true, if_false]
    rw [findIdx_addr hnd hm]
    refine List.map_congr_left fun p _ => ?_
    by_cases hp : p.1 = c.next
    · rw [if_pos hp, if_pos (by rw [hp])]
    · rw [if_neg hp]; exact if_neg (fun e => hp (Int.ofNat.inj e))
  · have ha : c.kind.assoc = false := by revert hra; cases c.kind <;> decide
    simp only [Cont.idEmplace, emplace_new ord hd, Cont.modify, Cont.iteratorToId, hra, if_true,
      vec_inserted key ord x ha, vec_findIdx hw.lt, toInt_of_lt (hf hra)]
    rw [if_pos (by omega), Int.toNat_natCast, List.map_append]
    have h1 : c.items.map (fun p => if p.1 = c.next then (p.1, f p.2) else p) = c.items := by
      conv_rhs => rw [← List.map_id c.items]
      refine List.map_congr_left fun p hp => ?_
      have := hw.lt p hp
      rw [if_neg (by omega)]; rfl
    rw [h1]
    have h2 : ∀ l : List (Nat × α), (l ++ [(c.next, x)]).modify l.length (fun p => (p.1, f p.2)) =
        l ++ [(c.next, f x)] := by
      intro l
      induction l with
      | nil => rfl
      | cons a l ih => simp [ih]
    rw [h2]; simp

/-- The same when the element is changed, keeping its key, after it was added. -/
theorem Has.addModify {key : α → κ} {c : Cont α} {l : List α} (h : Has key c l) (hf : c.Fits)
    (ord : Order α) {x : α} (hd : ¬(c.kind.unique = true ∧ ∃ y ∈ l, key y = key x)) (f : α → α)
    (hk : ∀ y, key (f y) = key y) :
    let r := c.idEmplace key ord x
    r.2.2 = true ∧ Has key (r.1.modify r.2.1 f) (l ++ [f x]) ∧ (r.1.modify r.2.1 f).kind = c.kind := by
  obtain ⟨h1, h2, h3, -⟩ := h.add hf ord hd
  have hd' : ¬(c.kind.unique = true ∧ ∃ y ∈ c.values, key y = key x) :=
    fun hc => hd ⟨hc.1, (h.dup_iff x).mp hc.2⟩
  have hi := modify_new h.wf hf ord hd' f
  have hk1 : ((c.idEmplace key ord x).1.modify (c.idEmplace key ord x).2.1 f).kind = c.kind := h3
  have hn1 : ((c.idEmplace key ord x).1.modify (c.idEmplace key ord x).2.1 f).next = c.next + 1 := by
    simp only [Cont.modify, Cont.idEmplace, emplace_new ord hd']
  have hit : (c.idEmplace key ord x).1.items = c.inserted key ord x := by
    simp only [Cont.idEmplace, emplace_new ord hd']
  refine ⟨h1, ?_, h3⟩
  generalize (c.idEmplace key ord x).1.modify (c.idEmplace key ord x).2.1 f = c' at *
  have hfst : c'.items.map Prod.fst = (c.inserted key ord x).map Prod.fst := by
    rw [hi, List.map_map]
    refine List.map_congr_left fun p _ => ?_
    simp only [Function.comp]; split <;> rfl
  have hkey : c'.values.map key = (c.idEmplace key ord x).1.values.map key := by
    unfold Cont.values
    rw [hi, hit, List.map_map, List.map_map, List.map_map]
    refine List.map_congr_left fun p _ => ?_
    simp only [Function.comp]; split
    · exact hk _
    · rfl
  have hold : c.items.map (fun p => if p.1 = c.next then (p.1, f p.2) else p) = c.items := by
    conv_rhs => rw [← List.map_id c.items]
    refine List.map_congr_left fun p hp => ?_
    have := h.wf.lt p hp
    rw [if_neg (by omega)]; rfl
  refine ⟨⟨?_, ?_, ?_, ?_⟩, ?_, ?_⟩
  · rw [hfst, ← hit]; exact h2.wf.nodup
  · intro p hp
    rw [hi] at hp
    obtain ⟨q, hq, rfl⟩ := List.mem_map.mp hp
    have := h2.wf.lt q (by rw [hit]; exact hq)
    have hn2 : (c.idEmplace key ord x).1.next = c.next + 1 := by
      simp only [Cont.idEmplace, emplace_new ord hd']
    rw [hn1, ← hn2]
    split <;> exact this
  · intro hu
    have := h2.wf.uniq (by rw [h3, ← hk1]; exact hu)
    have e1 := List.pairwise_map (f := key) (R := (· ≠ ·)) (l := c'.values)
    have e2 := List.pairwise_map (f := key) (R := (· ≠ ·)) (l := (c.idEmplace key ord x).1.values)
    rw [hkey] at e1
    exact e1.mp (e2.mpr this)
  · intro hu
    have := h2.wf.sorted (by rw [h3, ← hk1]; exact hu)
    have e1 := List.pairwise_map (f := key) (R := (· ≤ ·)) (l := c'.values)
    have e2 := List.pairwise_map (f := key) (R := (· ≤ ·)) (l := (c.idEmplace key ord x).1.values)
    rw [hkey] at e1
    exact e1.mp (e2.mpr this)
  · unfold Cont.values
    rw [hi]
    have hp := ((inserted_perm key ord c x).map fun p => if p.1 = c.next then (p.1, f p.2) else p).map Prod.snd
    refine hp.trans ?_
    rw [List.map_cons, List.map_cons, hold]
    simp only [if_true]
    exact (List.Perm.cons _ h.perm).trans (List.perm_append_comm (l₁ := [f x]))
  · intro ha
    have ha : c.kind.assoc = false := by rw [← hk1]; exact ha
    unfold Cont.values
    rw [hi, vec_inserted key ord x ha, List.map_append, hold]
    have := h.seq ha
    unfold Cont.values at this
    simp [this]

/-! ### The iterator of `edges()` -/

section EdgeIter

variable (begin : V → List X) (rev : V → X → Bool)

/-- What is left to be met by the iterator. -/
def rest : List V → List X → List (V × X)
  | [], _ => []
  | u :: us, it => ((it.filter fun x => !rev u x).map fun x => (u, x)) ++
      us.flatMap fun v => ((begin v).filter fun x => !rev v x).map fun x => (v, x)

theorem rest_head (us : List V) : rest begin rev us (headOuts begin us) =
    us.flatMap fun v => ((begin v).filter fun x => !rev v x).map fun x => (v, x) := by
  cases us <;> simp [rest, headOuts]

theorem skipEmpty_spec : ∀ (us : List V) (it : List X),
    rest begin rev (skipEmpty begin rev us it).1 (skipEmpty begin rev us it).2 = rest begin rev us it ∧
    ((skipEmpty begin rev us it).1 = [] ∨ ∃ u us' x it', skipEmpty begin rev us it = (u :: us', x :: it') ∧
      rev u x = false) := by
  intro us
  induction us with
  | nil => intro it; simp [skipEmpty, rest]
  | cons u us ihu =>
    intro it
    induction it with
    | nil =>
      obtain ⟨h1, h2⟩ := ihu (headOuts begin us)
      rw [show skipEmpty begin rev (u :: us) [] = skipEmpty begin rev us (headOuts begin us) from rfl]
      exact ⟨h1.trans (by rw [rest_head]; simp [rest]), h2⟩
    | cons x it ihi =>
      rw [show skipEmpty begin rev (u :: us) (x :: it) = if rev u x then skipEmpty begin rev (u :: us) it
        else (u :: us, x :: it) from rfl]
      by_cases h : rev u x
      · rw [if_pos h]
        refine ⟨ihi.1.trans ?_, ihi.2⟩
        simp [rest, h]
      · rw [if_neg h]
        exact ⟨rfl, Or.inr ⟨u, us, x, it, rfl, by simpa using h⟩⟩

theorem walk_spec : ∀ (fuel : Nat) (us : List V) (it : List X),
    (us = [] ∨ ∃ u us' x it', (us, it) = (u :: us', x :: it') ∧ rev u x = false) →
    (rest begin rev us it).length < fuel → walk begin rev fuel us it = some (rest begin rev us it) := by
  intro fuel
  induction fuel with
  | zero => intro us it _ h; exact absurd h (Nat.not_lt_zero _)
  | succ fuel ih =>
    intro us it hs hl
    rcases hs with rfl | ⟨u, us', x, it', e, hx⟩
    · simp [walk, rest]
    · obtain ⟨rfl, rfl⟩ := Prod.mk.inj e
      obtain ⟨h1, h2⟩ := skipEmpty_spec begin rev (u :: us') it'
      have hr : rest begin rev (u :: us') (x :: it') = (u, x) :: rest begin rev (u :: us') it' := by
        simp [rest, hx]
      have hw := ih (skipEmpty begin rev (u :: us') it').1 (skipEmpty begin rev (u :: us') it').2
        (by
          rcases h2 with h | ⟨u2, us2, x2, it2, h, hx2⟩
          · exact Or.inl h
          · exact Or.inr ⟨u2, us2, x2, it2, by rw [h], hx2⟩)
        (by rw [h1]; rw [hr, List.length_cons] at hl; omega)
      simp only [walk, hw, hr, h1]

/-- The iterator meets, vertex by vertex, the out-edges that are not reversed. -/
theorem walkAll_spec {vs : List V} (hv : vs ≠ []) (fuel : Nat)
    (hf : (vs.flatMap fun v => ((begin v).filter fun x => !rev v x).map fun x => (v, x)).length < fuel) :
    walkAll begin rev fuel vs =
      some (vs.flatMap fun v => ((begin v).filter fun x => !rev v x).map fun x => (v, x)) := by
  cases vs with
  | nil => exact absurd rfl hv
  | cons u us =>
    obtain ⟨h1, h2⟩ := skipEmpty_spec begin rev (u :: us) (begin u)
    have hr : rest begin rev (u :: us) (begin u) =
      (u :: us).flatMap fun v => ((begin v).filter fun x => !rev v x).map fun x => (v, x) := by
      simp [rest]
    simp only [walkAll]
    rw [walk_spec begin rev fuel _ _ ?_ (by rw [h1, hr]; exact hf), h1, hr]
    rcases h2 with h | ⟨u2, us2, x2, it2, h, hx2⟩
    · exact Or.inl h
    · exact Or.inr ⟨u2, us2, x2, it2, by rw [h], hx2⟩

end EdgeIter

/-! ### Lists -/

/-- Changing one list of a union over distinct elements. -/
theorem flatMap_add {f g : V → List X} {vs : List V} (hn : vs.Nodup) {u : V} (hu : u ∈ vs) {x : X}
    (h1 : (f u).Perm (x :: g u)) (h2 : ∀ v ∈ vs, v ≠ u → (f v).Perm (g v)) :
    (vs.flatMap f).Perm (x :: vs.flatMap g) := by
  induction vs with
  | nil => exact absurd hu List.not_mem_nil
  | cons a vs ih =>
    rw [List.nodup_cons] at hn
    rw [List.flatMap_cons, List.flatMap_cons]
    rcases List.mem_cons.mp hu with rfl | hu
    · have hr : (vs.flatMap f).Perm (vs.flatMap g) :=
        List.Perm.flatMap_left _ fun v hv => h2 v (List.mem_cons_of_mem _ hv) (fun e => hn.1 (e ▸ hv))
      exact (h1.append hr)
    · have ha : a ≠ u := fun e => hn.1 (e ▸ hu)
      have h3 := ih hn.2 hu fun v hv => h2 v (List.mem_cons_of_mem _ hv)
      exact ((h2 a (List.mem_cons_self ..) ha).append h3).trans List.perm_middle

variable {ι : Type}

theorem outOf_append (un : Bool) (es : List (V × V × ι)) (e : V × V × ι) (u : V) :
    outOf un (es ++ [e]) u = outOf un es u ++
      (if e.1 = u then [(e.2.1, e.2.2)] else if un = true ∧ e.2.1 = u then [(e.1, e.2.2)] else []) := by
  unfold outOf
  rw [List.filterMap_append]
  congr 1
  by_cases h1 : e.1 = u
  · simp [h1]
  · by_cases h2 : un = true ∧ e.2.1 = u
    · simp [h1, h2]
    · simp [h1, h2]

theorem inOf_append (es : List (V × V × ι)) (e : V × V × ι) (u : V) :
    inOf (es ++ [e]) u = inOf es u ++ (if e.2.1 = u then [(e.1, e.2.2)] else []) := by
  unfold inOf
  rw [List.filterMap_append]
  congr 1
  by_cases h1 : e.2.1 = u <;> simp [h1]

theorem mem_outOf {un : Bool} {es : List (V × V × ι)} {u : V} {d : V × ι} :
    d ∈ outOf un es u ↔ ∃ e ∈ es, (e.1 = u ∧ d = (e.2.1, e.2.2)) ∨
      (e.1 ≠ u ∧ un = true ∧ e.2.1 = u ∧ d = (e.1, e.2.2)) := by
  unfold outOf
  rw [List.mem_filterMap]
  constructor
  · rintro ⟨e, he, h⟩
    refine ⟨e, he, ?_⟩
    split at h
    · rename_i h1; exact Or.inl ⟨h1, (Option.some.inj h).symm⟩
    · split at h
      · rename_i h1 h2; exact Or.inr ⟨h1, h2.1, h2.2, (Option.some.inj h).symm⟩
      · simp at h
  · rintro ⟨e, he, ⟨h1, rfl⟩ | ⟨h1, h2, h3, rfl⟩⟩
    · exact ⟨e, he, by simp [h1]⟩
    · exact ⟨e, he, by simp [h1, h2, h3]⟩

theorem ends_eq_iff {un : Bool} {d e : V × V × ι} : ends un d = ends un e ↔
    (d.1 = e.1 ∧ d.2.1 = e.2.1) ∨ (un = true ∧ d.1 = e.2.1 ∧ d.2.1 = e.1) := by
  obtain ⟨a, b, _⟩ := d
  obtain ⟨c, d, _⟩ := e
  unfold ends
  cases un
  · simp
  · simp only [if_true, Prod.mk.injEq, true_and]
    constructor
    · rintro ⟨h1, h2⟩
      rcases le_total a b with h | h <;> rcases le_total c d with h' | h' <;>
        simp only [min_eq_left, min_eq_right, max_eq_left, max_eq_right, h, h'] at h1 h2 <;> subst h1 h2 <;>
        simp
    · rintro (⟨rfl, rfl⟩ | ⟨rfl, rfl⟩)
      · exact ⟨rfl, rfl⟩
      · exact ⟨min_comm _ _, max_comm _ _⟩

/-- The other ends among the out-edges of a vertex are those of the edges between the two. -/
theorem dup_outOf {un : Bool} {es : List (V × V × ι)} {u v : V} {t : ι} :
    (∃ d ∈ outOf un es u, d.1 = v) ↔ ∃ d ∈ es, ends un d = ends un (u, v, t) := by
  constructor
  · rintro ⟨d, hd, rfl⟩
    obtain ⟨e, he, ⟨h1, rfl⟩ | ⟨h1, h2, h3, rfl⟩⟩ := mem_outOf.mp hd
    · exact ⟨e, he, ends_eq_iff.mpr (Or.inl ⟨h1, rfl⟩)⟩
    · exact ⟨e, he, ends_eq_iff.mpr (Or.inr ⟨h2, rfl, h3⟩)⟩
  · rintro ⟨e, he, hee⟩
    rcases ends_eq_iff.mp hee with ⟨h1, h2⟩ | ⟨h1, h2, h3⟩
    · exact ⟨(e.2.1, e.2.2), mem_outOf.mpr ⟨e, he, Or.inl ⟨h1, rfl⟩⟩, h2⟩
    · simp only at h2 h3
      by_cases h : e.1 = u
      · exact ⟨(e.2.1, e.2.2), mem_outOf.mpr ⟨e, he, Or.inl ⟨h, rfl⟩⟩, by
          show e.2.1 = v
          rw [h3, ← h, h2]⟩
      · exact ⟨(e.1, e.2.2), mem_outOf.mpr ⟨e, he, Or.inr ⟨h, h1, h3, rfl⟩⟩, h2⟩

theorem outOf_length (un : Bool) (es : List (V × V × ι)) (u : V) : (outOf un es u).length ≤ es.length :=
  List.length_filterMap_le _ _

theorem inOf_length (es : List (V × V × ι)) (u : V) : (inOf es u).length ≤ es.length :=
  List.length_filterMap_le _ _

/-- All out-edges that are not reversed are all the edges. -/
theorem outOf_all (un : Bool) {vs : List V} (hn : vs.Nodup) {es : List (V × V × ι)}
    (hv : ∀ e ∈ es, e.1 ∈ vs ∧ e.2.1 ∈ vs) :
    (vs.flatMap fun u => ((outOf un es u).filter fun d => !(un && decide (d.1 < u))).map
      fun d => ((u, d.1), d.2)).Perm (es.map fun e => (ends un e, e.2.2)) := by
  induction es using List.reverseRecOn with
  | nil => simp [outOf]
  | append_singleton es e ih =>
    have ih := ih fun d hd => hv d (List.mem_append_left _ hd)
    obtain ⟨he1, he2⟩ := hv e (List.mem_append_right _ (List.mem_singleton.mpr rfl))
    rw [List.map_append, List.map_singleton]
    refine List.Perm.trans ?_ ((List.Perm.cons (ends un e, e.2.2) ih).trans
      (List.perm_append_comm (l₁ := [(ends un e, e.2.2)])))
    refine flatMap_add hn (u := (ends un e).1) ?_ ?_ ?_
    · unfold ends; split
      · rcases le_total e.1 e.2.1 with h | h
        · simp only [min_eq_left h]; exact he1
        · simp only [min_eq_right h]; exact he2
      · exact he1
    · rw [outOf_append, List.filter_append, List.map_append]
      refine List.perm_append_comm.trans ?_
      refine (List.Perm.of_eq ?_)
      rw [← List.singleton_append]
      congr 1
      obtain ⟨a, b, t⟩ := e
      cases un
      · simp [ends]
      · simp only [ends, if_true, Bool.true_and]
        rcases lt_trichotomy a b with h | h | h
        · simp [min_eq_left (le_of_lt h), max_eq_right (le_of_lt h), not_lt.mpr (le_of_lt h)]
        · subst h; simp
        · simp [min_eq_right (le_of_lt h), max_eq_left (le_of_lt h), not_lt.mpr (le_of_lt h), (ne_of_lt h).symm]
    · intro v _ hne
      rw [outOf_append, List.filter_append, List.map_append]
      refine List.Perm.of_eq ?_
      have : ((if e.1 = v then [(e.2.1, e.2.2)] else if un = true ∧ e.2.1 = v then [(e.1, e.2.2)] else []).filter
          fun d => !(un && decide (d.1 < v))) = [] := by
        obtain ⟨a, b, t⟩ := e
        cases un
        · simp only [ends, Bool.false_eq_true, if_false] at hne
          simp [Ne.symm hne]
        · simp only [ends, if_true] at hne
          by_cases h1 : a = v
          · subst h1
            have : b < a := by
              by_contra hc
              exact hne (min_eq_left (not_lt.mp hc)).symm
            simp [this]
          · by_cases h2 : b = v
            · subst h2
              have : a < b := by
                by_contra hc
                exact hne (min_eq_right (not_lt.mp hc)).symm
              simp [h1, this]
            · simp [h1, h2]
      rw [this]; simp

end Actl.Storage
