import Verif.Lemmas.AdjacencyN
import Mathlib.Data.List.Perm.Subperm

/-! C41: adjacency lists without an edge container. -/

namespace Actl.Storage

open Actl.Ids

variable {V β : Type} [LinearOrder V]

theorem mapM_of_map {γ δ : Type} {f : γ → Option δ} {l : List γ} {m : List δ}
    (h : l.map f = m.map some) : l.mapM f = some m := by
  induction l generalizing m with
  | nil => cases m with
    | nil => rfl
    | cons a m => simp at h
  | cons x l ih => cases m with
    | nil => simp at h
    | cons a m =>
      simp only [List.map_cons, List.cons.injEq] at h
      rw [List.mapM_cons, h.1, ih h.2]; rfl

/-- The out-edges of a vertex: its targets are those of the specification, the ids are distinct and
designate them. -/
theorem NInv.outEdges {moved : β → β} {k : Kind} {g : AdjN V β} {es} (h : NInv moved k g es)
    (hl : k = .vec → es.length < 2 ^ 31) {u : V} (hu : u ∈ g.vertices) :
    ∃ l, g.outEdges u = some l ∧ (∀ e ∈ l, e.1 = u) ∧ (l.map fun e => e.2.2).Nodup ∧
      l.map (fun e => e.2.1) = (g.outs u).values.map Prod.fst ∧
      (∀ v id, (u, v, id) ∈ l ↔ ∃ b, (g.outs u).at id = some (v, b)) := by
  obtain ⟨ids, h1, h2, h3, h4, -, -⟩ := ids_spec (h.out u).wf (h.fits hl u)
  have hlen : ids.length = (g.outs u).values.length := by
    have := congrArg List.length h3; simpa using this
  have hget : ∀ (i : Nat) (hi : i < ids.length), (g.outs u).at ids[i] =
      some ((g.outs u).values[i]'(hlen ▸ hi)) := by
    intro i hi
    have := congrArg (fun l => l[i]?) h3
    simp only [List.getElem?_map, List.getElem?_eq_getElem hi,
      List.getElem?_eq_getElem (hlen ▸ hi : i < (g.outs u).values.length), Option.map_some,
      Option.some.injEq] at this
    exact this
  have hmap : ids.map (g.getEdge u) =
      ((ids.zipWith (fun id d => (u, d.1, id)) (g.outs u).values).map some) := by
    refine List.ext_getElem (by simp [hlen]) fun i h5 h6 => ?_
    simp only [List.length_map] at h5
    simp only [List.getElem_map, List.getElem_zipWith]
    simp [AdjN.getEdge, hget i h5]
  refine ⟨ids.zipWith (fun id d => (u, d.1, id)) (g.outs u).values, ?_, ?_, ?_, ?_, ?_⟩
  · simp only [AdjN.outEdges, hu, not_true_eq_false, if_false, h1]
    exact mapM_of_map hmap
  · intro e he
    obtain ⟨i, hi, rfl⟩ := List.mem_iff_getElem.mp he
    simp
  · have : (ids.zipWith (fun id d => (u, d.1, id)) (g.outs u).values).map (fun e => e.2.2) = ids := by
      refine List.ext_getElem (by simp [hlen]) fun i h5 h6 => by simp
    rw [this]; exact h2
  · refine List.ext_getElem (by simp [hlen]) fun i h5 h6 => by simp
  · intro v id
    have hsome : some (u, v, id) ∈ ids.map (g.getEdge u) ↔ ∃ b, (g.outs u).at id = some (v, b) := by
      rw [List.mem_map]
      constructor
      · rintro ⟨j, -, hj⟩
        simp only [AdjN.getEdge, Option.map_eq_some_iff, Prod.mk.injEq, true_and] at hj
        obtain ⟨⟨a, b⟩, hd, rfl, rfl⟩ := hj
        exact ⟨b, hd⟩
      · rintro ⟨b, hb⟩
        exact ⟨id, (h4 id).mpr (by rw [hb]; rfl), by simp [AdjN.getEdge, hb]⟩
    rw [← hsome, hmap, List.mem_map]
    constructor
    · intro hm; exact ⟨_, hm, rfl⟩
    · rintro ⟨e, he, hee⟩; rw [← Option.some.inj hee]; exact he

theorem NInv.outEdges_targets {moved : β → β} {k : Kind} {g : AdjN V β} {es} (h : NInv moved k g es)
    (u : V) : ((g.outs u).values.map Prod.fst).Perm ((outOf g.dir.un es u).map Prod.fst) ∧
      (k.assoc = false → (g.outs u).values.map Prod.fst = (outOf g.dir.un es u).map Prod.fst) := by
  rw [← outN_fst moved]
  refine ⟨(h.out u).perm.map _, fun ha => ?_⟩
  rw [(h.out u).seq (by rw [h.kindO]; exact ha)]

theorem outEdges_bundles {g : AdjN V β} {u : V} {l} (h : g.outEdges u = some l)
    {key : V × β → V} (hw : (g.outs u).WF key) (hf : (g.outs u).Fits) :
    (l.map fun e => (e.2.1, g.bundle e)) = (g.outs u).values.map fun d => (d.1, some d.2) := by
  obtain ⟨ids, h1, -, h3, -⟩ := ids_spec hw hf
  by_cases hu : u ∈ g.vertices
  · simp only [AdjN.outEdges, hu, not_true_eq_false, if_false, h1] at h
    generalize (g.outs u).values = vals at h3 ⊢
    clear h1
    induction ids generalizing l vals with
    | nil =>
      cases vals with
      | nil => obtain rfl : [] = l := Option.some.inj h; rfl
      | cons a vals => simp at h3
    | cons id ids ih =>
      cases vals with
      | nil => simp at h3
      | cons a vals =>
        simp only [List.map_cons, List.cons.injEq] at h3
        rw [List.mapM_cons] at h
        have hg : g.getEdge u id = some (u, a.1, id) := by simp [AdjN.getEdge, h3.1]
        rw [hg] at h
        rcases hm : ids.mapM (g.getEdge u) with _ | m
        · rw [hm] at h; simp at h
        · rw [hm] at h
          obtain rfl : (u, a.1, id) :: m = l := Option.some.inj h
          rw [List.map_cons, List.map_cons, ih hm vals h3.2]
          simp [AdjN.bundle, h3.1]
  · simp [AdjN.outEdges, hu] at h

theorem outN_strip (moved : β → β) (un : Bool) (es : List (V × V × (β × Int))) (u : V) :
    outN moved un es u = outWith moved un (es.map fun e => (e.1, e.2.1, e.2.2.1)) u := by
  unfold outN outWith
  rw [List.filterMap_map]
  rfl

/-- Symmetry of the specification: between two vertices of an undirected graph. -/
theorem outOf_symm {ι : Type} (es : List (V × V × ι)) (u v : V) :
    ((outOf true es u).map Prod.fst).count v = ((outOf true es v).map Prod.fst).count u := by
  induction es using List.reverseRecOn with
  | nil => rfl
  | append_singleton es e ih =>
    rw [outOf_append, outOf_append, List.map_append, List.map_append, List.count_append,
      List.count_append, ih]
    congr 1
    obtain ⟨a, b, t⟩ := e
    simp only [true_and]
    by_cases h1 : a = u <;> by_cases h2 : b = u <;> by_cases h3 : a = v <;> by_cases h4 : b = v <;>
      simp_all [List.count_singleton]
    all_goals first | tauto | (intro h; simp_all) | skip

/-- All out-edges of a graph that is not undirected: exactly the edges added, with their ids. -/
theorem NInv.allOut {moved : β → β} {k : Kind} {g : AdjN V β} {es} (h : NInv moved k g es)
    (hl : k = .vec → es.length < 2 ^ 31) (hd : g.dir.un = false) :
    (g.vertices.flatMap fun u => (g.outEdges u).getD []).Perm
      (es.map fun e => (e.1, e.2.1, e.2.2.2)) := by
  have hall := outOf_all false h.nd h.closed
  simp only [Bool.false_and, Bool.not_false, List.filter_true, ends, Bool.false_eq_true, if_false]
    at hall
  have hall2 := hall.map fun d : (V × V) × (β × Int) => (d.1.1, d.1.2, d.2.2)
  rw [List.map_map, List.map_flatMap] at hall2
  refine List.Perm.trans ?_ hall2
  refine List.Perm.flatMap_left _ fun u hu => ?_
  obtain ⟨l, h1, h2, h3, h4, h5⟩ := h.outEdges hl hu
  rw [h1, Option.getD_some, List.map_map]
  have hlen : l.length = (outOf false es u).length := by
    have e1 := congrArg List.length h4
    have e2 := (h.outEdges_targets u).1.length_eq
    rw [hd] at e2
    simp only [List.length_map] at e1 e2
    omega
  -- the edges of the specification are among them, and are distinct
  have hnd : ((outOf false es u).map ((fun d : (V × V) × (β × Int) => (d.1.1, d.1.2, d.2.2)) ∘
      fun d => ((u, d.1), d.2))).Nodup := by
    have hsub : ∀ es : List (V × V × (β × Int)), ((outOf false es u).map fun d => (u, d.2.2)).Sublist
        (es.map fun e => (e.1, e.2.2.2)) := by
      intro es
      induction es with
      | nil => exact List.Sublist.slnil
      | cons e es ih =>
        by_cases he : e.1 = u
        · simp only [outOf, List.filterMap_cons, he, if_true, List.map_cons] at ih ⊢
          exact ih.cons_cons _
        · simp only [outOf, List.filterMap_cons, he, if_false, Bool.false_eq_true, false_and,
            List.map_cons] at ih ⊢
          exact ih.cons _
    have := h.idn.sublist (hsub es)
    refine List.Nodup.of_map (fun e : V × V × Int => (e.1, e.2.2)) ?_
    rw [List.map_map]; exact this
  refine (List.Subperm.perm_of_length_le (List.subperm_of_subset hnd ?_) (by rw [hlen, List.length_map])).symm
  intro x hx
  obtain ⟨d, hd1, rfl⟩ := List.mem_map.mp hx
  obtain ⟨e, he, ⟨e1, e2⟩ | ⟨_, e2, _⟩⟩ := mem_outOf.mp hd1
  · subst e1 e2
    exact (h5 _ _).mpr ⟨_, h.ids e he⟩
  · simp at e2

theorem inOf_eq (es : List (V × V × (β × Int))) (u : V) :
    (inOf es u).map ((fun d : V × Int => (d.1, u, d.2)) ∘ fun d => (d.1, d.2.2)) =
      (es.map fun e => (e.1, e.2.1, e.2.2.2)).filter fun e => decide (e.2.1 = u) := by
  unfold inOf
  induction es with
  | nil => rfl
  | cons e es ih =>
    by_cases he : e.2.1 = u
    · simp only [List.filterMap_cons, he, if_true, List.map_cons, List.filter_cons, decide_true, ih]; rfl
    · simp only [List.filterMap_cons, he, if_false, List.map_cons, List.filter_cons, decide_false, ih]; rfl

/-- The in-edges of a vertex of a bidirectional graph are exactly the out-edges that lead to it, with
the same ids. -/
theorem NInv.inEdges {moved : β → β} {k : Kind} {g : AdjN V β} {es} (h : NInv moved k g es)
    (hl : k = .vec → es.length < 2 ^ 31) (hb : g.dir = .bidirectional) {u : V} (hu : u ∈ g.vertices) :
    ∃ m, g.inEdges u = some m ∧ m.Perm ((g.vertices.flatMap fun w => (g.outEdges w).getD []).filter
      fun e => decide (e.2.1 = u)) := by
  have hun : g.dir.un = false := by rw [hb]; rfl
  refine ⟨(g.ins u).values.map fun d => (d.1, u, d.2), ?_, ?_⟩
  · simp only [AdjN.inEdges, hun, Bool.false_eq_true, if_false, hu, not_true_eq_false]
  · refine List.Perm.trans ?_ ((h.allOut hl hun).filter _).symm
    refine ((h.inn (by rw [hb]; rfl) u).perm.map _).trans (List.Perm.of_eq ?_)
    rw [List.map_map]
    exact inOf_eq es u

/-- The in-edges of a vertex of an undirected graph are its out-edges reversed. -/
theorem inEdges_undirected {g : AdjN V β} (hd : g.dir = .undirected) (u : V) :
    g.inEdges u = (g.outEdges u).map fun l => l.map fun e => (e.2.1, e.1, e.2.2) := by
  simp [AdjN.inEdges, hd, Dir.un]

/-- `edges()`: every edge once. -/
theorem NInv.allEdges {moved : β → β} {k : Kind} {g : AdjN V β} {es} (h : NInv moved k g es)
    (hl : k = .vec → es.length < 2 ^ 31) (hne : g.vertices ≠ []) :
    ∃ l, (∀ fuel, l.length < fuel → g.allEdges fuel = some l) ∧
      (l.map fun e => (e.1, e.2.1)).Perm (es.map (ends g.dir.un)) ∧
      (l.map fun e => (e.1, e.2.2)).Nodup ∧
      (∀ e ∈ l, ∃ b, (g.outs e.1).at e.2.2 = some (e.2.1, b)) := by
  have hm : (g.vertices.mapM fun u => g.outEdges u) =
      some (g.vertices.map fun u => (g.outEdges u).getD []) := by
    refine mapM_of_map ?_
    rw [List.map_map]
    refine List.map_congr_left fun u hu => ?_
    obtain ⟨l, h1, -⟩ := h.outEdges hl hu
    simp [h1]
  have hw := walkAll_spec (fun u => (g.outEdges u).getD [])
    (fun u e => g.dir.un && decide (e.2.1 < u)) hne
  have hsnd : ∀ vs : List V, (vs.flatMap fun v => (((g.outEdges v).getD []).filter
      fun x => !(g.dir.un && decide (x.2.1 < v))).map fun x => (v, x)).map Prod.snd =
      vs.flatMap fun v => ((g.outEdges v).getD []).filter fun x => !(g.dir.un && decide (x.2.1 < v)) := by
    intro vs
    rw [List.map_flatMap]
    congr 1
    funext v
    rw [List.map_map]
    exact List.map_id _
  refine ⟨g.vertices.flatMap fun v => ((g.outEdges v).getD []).filter
    fun x => !(g.dir.un && decide (x.2.1 < v)), ?_, ?_, ?_, ?_⟩
  · intro fuel hf
    simp only [AdjN.allEdges, hm]
    rw [hw fuel (by rw [← hsnd, List.length_map] at hf; exact hf), Option.map_some, hsnd]
  · have hall := (outOf_all g.dir.un h.nd h.closed).map Prod.fst
    rw [List.map_map] at hall
    refine List.Perm.trans ?_ hall
    rw [List.map_flatMap, List.map_flatMap]
    refine List.Perm.flatMap_left _ fun u hu => ?_
    obtain ⟨l, h1, h2, h3, h4, h5⟩ := h.outEdges hl hu
    rw [h1, Option.getD_some, List.map_map]
    have e1 : (l.filter fun x => !(g.dir.un && decide (x.2.1 < u))).map (fun e => (e.1, e.2.1)) =
        ((l.map fun e => e.2.1).filter fun t => !(g.dir.un && decide (t < u))).map fun t => (u, t) := by
      rw [List.filter_map, List.map_map]
      refine List.map_congr_left fun e he => ?_
      have := h2 e (List.mem_filter.mp he).1
      simp only [Function.comp]
      rw [this]
    have e2 : ((outOf g.dir.un es u).filter fun d => !(g.dir.un && decide (d.1 < u))).map
        (Prod.fst ∘ fun d => ((u, d.1), d.2)) =
        (((outOf g.dir.un es u).map Prod.fst).filter fun t => !(g.dir.un && decide (t < u))).map
          fun t => (u, t) := by
      rw [List.filter_map, List.map_map]; rfl
    rw [e1, e2, h4]
    exact ((h.outEdges_targets u).1.filter _).map _
  · rw [List.map_flatMap, List.nodup_flatMap]
    constructor
    · intro u hu
      obtain ⟨l, h1, h2, h3, h4, h5⟩ := h.outEdges hl hu
      rw [h1, Option.getD_some]
      refine List.Nodup.of_map Prod.snd ?_
      rw [List.map_map]
      exact h3.sublist (List.filter_sublist.map _)
    · refine h.nd.imp_of_mem ?_
      intro a b ha hb hab x hx hy
      obtain ⟨la, ha1, ha2, -⟩ := h.outEdges hl ha
      obtain ⟨lb, hb1, hb2, -⟩ := h.outEdges hl hb
      beta_reduce at hx hy
      rw [ha1, Option.getD_some] at hx
      rw [hb1, Option.getD_some] at hy
      obtain ⟨e, he, rfl⟩ := List.mem_map.mp hx
      obtain ⟨e', he', hee⟩ := List.mem_map.mp hy
      have h6 := ha2 e (List.mem_filter.mp he).1
      have h7 := hb2 e' (List.mem_filter.mp he').1
      have h8 := (Prod.mk.inj hee).1
      exact hab (by rw [← h6, ← h7, h8])
  · intro e he
    obtain ⟨u, hu, he⟩ := List.mem_flatMap.mp he
    obtain ⟨l, h1, h2, h3, h4, h5⟩ := h.outEdges hl hu
    rw [h1, Option.getD_some] at he
    have hem := (List.mem_filter.mp he).1
    have heu := h2 e hem
    obtain ⟨a, b, c⟩ := e
    simp only at heu
    subst heu
    exact (h5 _ _).mp hem

/-! ### Histories -/

/-- A sequence of calls of `try_add_edge`; `pre` gives the vertices at the start of a call. -/
def addAllN (pre : List V → V → V → Option (List V)) (o : OrdersN V β) (moved : β → β) :
    AdjN V β → List (V × V × β) → Option (AdjN V β × List (Option (EdgeN V)))
  | g, [] => some (g, [])
  | g, e :: es =>
    match pre g.vertices e.1 e.2.1 with
    | none => none
    | some vs =>
      match ({ g with vertices := vs } : AdjN V β).tryAddEdgeImpl o moved e.1 e.2.1 e.2.2 with
      | none => none
      | some (g, a) =>
        match addAllN pre o moved g es with
        | none => none
        | some (g, as) => some (g, a :: as)

/-- What `pre` has to do with some kind of vertices `Q` and ends `ok`. -/
def Grows (pre : List V → V → V → Option (List V)) (Q : List V → Prop) (ok : V → Prop) : Prop :=
  ∀ vs u v, Q vs → ok u → ok v → ∃ vs', pre vs u v = some vs' ∧ Q vs' ∧ vs'.Nodup ∧ (∀ w ∈ vs, w ∈ vs') ∧
    u ∈ vs' ∧ v ∈ vs'

/-- Forgets the id. -/
def strip (e : V × V × (β × Int)) : V × V × β := (e.1, e.2.1, e.2.2.1)

theorem ends_strip (un : Bool) (e : V × V × (β × Int)) : ends un (strip e) = ends un e := rfl

theorem outOf_strip (un : Bool) (es : List (V × V × (β × Int))) (u : V) :
    outOf un (es.map strip) u = (outOf un es u).map fun d => (d.1, d.2.1) := by
  unfold outOf
  rw [List.map_filterMap, List.filterMap_map]
  congr 1
  funext e
  by_cases h1 : e.1 = u
  · simp [strip, h1]
  · by_cases h2 : un = true ∧ e.2.1 = u <;> simp [strip, h1, h2]

theorem addAllN_inv {pre : List V → V → V → Option (List V)} {Q : List V → Prop} {ok : V → Prop}
    (hp : Grows pre Q ok) (o : OrdersN V β) (moved : β → β) {k : Kind} {calls : List (V × V × β)} :
    ∀ {g : AdjN V β} {es}, NInv moved k g es → Q g.vertices → (∀ e ∈ calls, ok e.1 ∧ ok e.2.1) →
    (k = .vec → es.length + calls.length < 2 ^ 31) →
    ∃ g' as es', addAllN pre o moved g calls = some (g', as) ∧ NInv moved k g' es' ∧ Q g'.vertices ∧
      g'.dir = g.dir ∧
      g'.vertices = calls.foldl (fun vs e => (pre vs e.1 e.2.1).getD vs) g.vertices ∧
      es'.map strip = (accept k.unique g.dir.un (es.map strip) calls).1 ∧
      as.map Option.isSome = (accept k.unique g.dir.un (es.map strip) calls).2 ∧
      es'.length ≤ es.length + calls.length ∧
      (∀ e ∈ calls, e.1 ∈ g'.vertices ∧ e.2.1 ∈ g'.vertices) ∧ (∀ w ∈ g.vertices, w ∈ g'.vertices) ∧
      ∃ new, es' = es ++ new ∧ as.filterMap id = new.map fun e => (e.1, e.2.1, e.2.2.2) := by
  induction calls with
  | nil =>
    intro g es h hQ _ _
    exact ⟨g, [], es, rfl, h, hQ, rfl, rfl, rfl, rfl, by simp, by simp, fun w hw => hw, [], by simp, rfl⟩
  | cons e calls ih =>
    intro g es h hQ hok hl
    obtain ⟨vs, p1, p2, p3, p4, p5, p6⟩ := hp g.vertices e.1 e.2.1 hQ (hok e (List.mem_cons_self ..)).1
      (hok e (List.mem_cons_self ..)).2
    have hg := h.grow p3 p4
    have hl1 : k = .vec → es.length < 2 ^ 31 := fun hk => by
      have := hl hk; simp only [List.length_cons] at this; omega
    obtain ⟨s1, s2⟩ := hg.step hl1 o p5 p6 e.2.2
    have hd : (∃ d ∈ es, ends g.dir.un d = ends g.dir.un (e.1, e.2.1, (e.2.2, (0 : Int)))) ↔
        ∃ d ∈ es.map strip, ends g.dir.un d = ends g.dir.un e := by
      constructor
      · rintro ⟨d, hd, he⟩; exact ⟨_, List.mem_map_of_mem hd, he⟩
      · rintro ⟨d, hd, he⟩
        obtain ⟨f, hf, rfl⟩ := List.mem_map.mp hd
        exact ⟨f, hf, he⟩
    by_cases hdup : k.unique = true ∧ ∃ d ∈ es.map strip, ends g.dir.un d = ends g.dir.un e
    · have hs := s1 ⟨hdup.1, hd.mpr hdup.2⟩
      obtain ⟨g', as, es', i1, i2, i3, i4, i5, i6, i7, i8, i9, i10, i11⟩ := ih hg p2
        (fun f hf => hok f (List.mem_cons_of_mem _ hf)) (fun hk => by
          have := hl hk; simp only [List.length_cons] at this; omega)
      refine ⟨g', none :: as, es', ?_, i2, i3, i4, ?_, ?_, ?_, ?_, ?_, ?_, ?_⟩
      · simp only [addAllN, p1, hs, i1]
      · rw [List.foldl_cons, p1]; exact i5
      · simp only [accept, if_pos hdup]; exact i6
      · simp only [accept, if_pos hdup, List.map_cons, Option.isSome_none]; rw [i7]
      · simp only [List.length_cons]; omega
      · intro f hf
        rcases List.mem_cons.mp hf with rfl | hf
        · exact ⟨i10 _ p5, i10 _ p6⟩
        · exact i9 f hf
      · exact fun w hw => i10 w (p4 w hw)
      · simpa using i11
    · obtain ⟨g1, id, hs, hi, hd1, hv1, -⟩ := s2 fun hc => hdup ⟨hc.1, hd.mp hc.2⟩
      obtain ⟨g', as, es', i1, i2, i3, i4, i5, i6, i7, i8, i9, i10, i11⟩ := ih hi (by rw [hv1]; exact p2)
        (fun f hf => hok f (List.mem_cons_of_mem _ hf)) (fun hk => by
          have := hl hk
          simp only [List.length_cons, List.length_append, List.length_nil] at this ⊢; omega)
      have hd2 : g1.dir = g.dir := hd1
      have hv2 : g1.vertices = vs := hv1
      rw [hd2] at i4 i6 i7
      rw [hv2] at i5 i10
      rw [List.map_append, List.map_singleton] at i6 i7
      refine ⟨g', some (e.1, e.2.1, id) :: as, es', ?_, i2, i3, i4, ?_, ?_, ?_, ?_, ?_, ?_, ?_⟩
      · simp only [addAllN, p1, hs, i1]
      · rw [List.foldl_cons, p1]; exact i5
      · simp only [accept, if_neg hdup]; exact i6
      · simp only [accept, if_neg hdup, List.map_cons, Option.isSome_some]; rw [i7]; rfl
      · simp only [List.length_cons, List.length_append, List.length_nil] at i8 ⊢; omega
      · intro f hf
        rcases List.mem_cons.mp hf with rfl | hf
        · exact ⟨i10 _ p5, i10 _ p6⟩
        · exact i9 f hf
      · exact fun w hw => i10 w (p4 w hw)
      · obtain ⟨new, rfl, hnew⟩ := i11
        refine ⟨(e.1, e.2.1, (e.2.2, id)) :: new, by simp, ?_⟩
        show _ :: List.filterMap _root_.id as = _
        rw [hnew]; rfl

/-- C41 without an edge container, for any kind of vertices.  After any sequence of calls of
`try_add_edge`, with the endpoints allowed:
* the answers are those of the specification and `edge_count` is the number of edges accepted;
* the endpoints are vertices;
* the out-edges of a vertex lead where the specification says (in the order of insertion for a
  sequence), with distinct ids;
* the in-edges of a bidirectional graph are exactly the out-edges leading to the vertex, those of an
  undirected graph are the out-edges reversed, and its out-edges are symmetric;
* `edges()` yields every accepted edge exactly once;
* the edges returned are among the out-edges of their sources;
* the bundles of the out-edges are those given, except that the copies at the second end of the edges of
  an undirected graph have what was left of them. -/
theorem adjacencyN_history {pre : List V → V → V → Option (List V)} {Q : List V → Prop} {ok : V → Prop}
    (hp : Grows pre Q ok) (o : OrdersN V β) (moved : β → β) (dir : Dir) (k : Kind) {vs : List V}
    (hn : vs.Nodup) (hQ : Q vs) {calls : List (V × V × β)} (hne : vs ≠ [] ∨ calls ≠ [])
    (hok : ∀ e ∈ calls, ok e.1 ∧ ok e.2.1) (hl : k = .vec → calls.length < 2 ^ 31) :
    ∃ g as, addAllN pre o moved (AdjN.init dir k vs) calls = some (g, as) ∧ g.dir = dir ∧
      as.map Option.isSome = (accept k.unique dir.un [] calls).2 ∧
      g.edgeCount = (accept k.unique dir.un [] calls).2.count true ∧
      g.vertices.Nodup ∧
      g.vertices = calls.foldl (fun vs e => (pre vs e.1 e.2.1).getD vs) vs ∧
      (∀ e ∈ calls, e.1 ∈ g.vertices ∧ e.2.1 ∈ g.vertices) ∧
      (∀ u ∈ g.vertices, ∃ l, g.outEdges u = some l ∧ (∀ e ∈ l, e.1 = u) ∧
        (l.map fun e => e.2.2).Nodup ∧
        (l.map fun e => e.2.1).Perm ((outOf dir.un (accept k.unique dir.un [] calls).1 u).map Prod.fst) ∧
        (k.assoc = false →
          (l.map fun e => e.2.1) = (outOf dir.un (accept k.unique dir.un [] calls).1 u).map Prod.fst)) ∧
      (dir = .bidirectional → ∀ u ∈ g.vertices, ∃ m, g.inEdges u = some m ∧
        m.Perm ((g.vertices.flatMap fun w => (g.outEdges w).getD []).filter fun e => decide (e.2.1 = u))) ∧
      (dir = .undirected → (∀ u ∈ g.vertices, ∃ l, g.outEdges u = some l ∧
          g.inEdges u = some (l.map fun e => (e.2.1, e.1, e.2.2))) ∧
        ∀ u v l m, g.outEdges u = some l → g.outEdges v = some m →
          (l.map fun e => e.2.1).count v = (m.map fun e => e.2.1).count u) ∧
      (∃ l, (∀ fuel, l.length < fuel → g.allEdges fuel = some l) ∧
        (l.map fun e => (e.1, e.2.1)).Perm ((accept k.unique dir.un [] calls).1.map (ends dir.un)) ∧
        (l.map fun e => (e.1, e.2.2)).Nodup) ∧
      (∀ e, some e ∈ as → ∃ l, g.outEdges e.1 = some l ∧ e ∈ l) ∧
      (∀ u l, g.outEdges u = some l → (l.map fun e => (e.2.1, g.bundle e)).Perm
        ((outWith moved dir.un (accept k.unique dir.un [] calls).1 u).map fun d => (d.1, some d.2))) := by
  obtain ⟨g, as, es, i1, i2, i3, i4, i5, i6, i7, i8, i9, i10, new, i11, i12⟩ :=
    addAllN_inv hp o moved (NInv.init moved dir k hn) hQ hok (by simpa using hl)
  have hdir : g.dir = dir := i4
  rw [show (AdjN.init dir k vs : AdjN V β).dir = dir from rfl] at i6 i7
  simp only [List.map_nil] at i6 i7
  have hl' : k = .vec → es.length < 2 ^ 31 := fun hk => by
    have := hl hk; simp only [List.length_nil] at i8; omega
  have htgt : ∀ u, ((outOf dir.un es u).map Prod.fst) =
      (outOf dir.un (accept k.unique dir.un [] calls).1 u).map Prod.fst := by
    intro u
    rw [← i6, outOf_strip, List.map_map]; rfl
  have hends : es.map (ends dir.un) = (accept k.unique dir.un [] calls).1.map (ends dir.un) := by
    rw [← i6, List.map_map]; rfl
  have hcount : ∀ (calls st : List (V × V × β)), (accept k.unique dir.un st calls).1.length =
      st.length + (accept k.unique dir.un st calls).2.count true := by
    intro calls
    induction calls with
    | nil => intro st; simp [accept]
    | cons e calls ih =>
      intro st
      simp only [accept]
      split
      · simp [ih]
      · simp [ih]; omega
  have hvne : g.vertices ≠ [] := by
    rcases hne with h | h
    · obtain ⟨w, hw⟩ := List.exists_mem_of_ne_nil _ h
      exact List.ne_nil_of_mem (i10 w hw)
    · obtain ⟨w, hw⟩ := List.exists_mem_of_ne_nil _ h
      exact List.ne_nil_of_mem (i9 w hw).1
  have hout : ∀ u ∈ g.vertices, ∃ l, g.outEdges u = some l ∧ (∀ e ∈ l, e.1 = u) ∧
        (l.map fun e => e.2.2).Nodup ∧
        (l.map fun e => e.2.1).Perm ((outOf dir.un (accept k.unique dir.un [] calls).1 u).map Prod.fst) ∧
        (k.assoc = false →
          (l.map fun e => e.2.1) = (outOf dir.un (accept k.unique dir.un [] calls).1 u).map Prod.fst) := by
    intro u hu
    obtain ⟨l, h1, h2, h3, h4, -⟩ := i2.outEdges hl' hu
    obtain ⟨t1, t2⟩ := i2.outEdges_targets u
    rw [hdir, htgt] at t1 t2
    exact ⟨l, h1, h2, h3, by rw [h4]; exact t1, fun ha => by rw [h4]; exact t2 ha⟩
  refine ⟨g, as, i1, hdir, i7, ?_, i2.nd, i5, i9, hout, ?_, ?_, ?_, ?_, ?_⟩
  · have h1 := hcount calls []
    have h2 := congrArg List.length i6
    rw [List.length_map] at h2
    simp only [List.length_nil, Nat.zero_add] at h1
    exact i2.cnt.trans (h2.trans h1)
  · intro hb u hu
    exact i2.inEdges hl' (hdir.trans hb) hu
  · intro hu
    constructor
    · intro u huv
      obtain ⟨l, h1, -⟩ := hout u huv
      exact ⟨l, h1, by rw [inEdges_undirected (hdir.trans hu), h1]; rfl⟩
    · intro u v l m hlu hmv
      have hmem : ∀ w l, g.outEdges w = some l → w ∈ g.vertices := by
        intro w l hw
        by_contra hc
        simp [AdjN.outEdges, hc] at hw
      obtain ⟨l', h1, -, -, h4, -⟩ := hout u (hmem u l hlu)
      obtain ⟨m', g1, -, -, g4, -⟩ := hout v (hmem v m hmv)
      obtain rfl := Option.some.inj (hlu.symm.trans h1)
      obtain rfl := Option.some.inj (hmv.symm.trans g1)
      rw [h4.count_eq, g4.count_eq, show dir.un = true by rw [hu]; rfl]
      exact outOf_symm _ u v
  · obtain ⟨l, h1, h2, h3, -⟩ := i2.allEdges hl' hvne
    rw [hdir, hends] at h2
    exact ⟨l, h1, h2, h3⟩
  · intro e he
    have hm : e ∈ as.filterMap id := List.mem_filterMap.mpr ⟨some e, he, rfl⟩
    rw [i12] at hm
    obtain ⟨f, hf, rfl⟩ := List.mem_map.mp hm
    have hf' : f ∈ es := by rw [i11]; exact List.mem_append_right _ hf
    obtain ⟨l, h1, -, -, -, h5⟩ := i2.outEdges hl' (i2.closed f hf').1
    exact ⟨l, h1, (h5 _ _).mpr ⟨_, i2.ids f hf'⟩⟩
  · intro u l hul
    rw [outEdges_bundles hul (i2.out u).wf (i2.fits hl' u), ← i6]
    refine ((i2.out u).perm.map _).trans (List.Perm.of_eq ?_)
    rw [outN_strip, hdir]; rfl

/-- `find_edge`, after any sequence of calls: an out-edge with this target if there is one; otherwise its
behaviour is undefined. -/
theorem adjacencyN_find {pre : List V → V → V → Option (List V)} {Q : List V → Prop} {ok : V → Prop}
    (hp : Grows pre Q ok) (o : OrdersN V β) (moved : β → β) (dir : Dir) (k : Kind) {vs : List V}
    (hn : vs.Nodup) (hQ : Q vs) {calls : List (V × V × β)}
    (hok : ∀ e ∈ calls, ok e.1 ∧ ok e.2.1) (hl : k = .vec → calls.length < 2 ^ 31) {g as}
    (hg : addAllN pre o moved (AdjN.init dir k vs) calls = some (g, as)) {u l} (hu : g.outEdges u = some l)
    (v : V) :
    ((∃ e ∈ l, e.2.1 = v) → ∃ e ∈ l, e.2.1 = v ∧ g.findEdge u v = some e) ∧
    ((∀ e ∈ l, e.2.1 ≠ v) → g.findEdge u v = none) := by
  obtain ⟨g', as', es, i1, i2, i3, i4, i5, i6, i7, i8, -⟩ :=
    addAllN_inv hp o moved (NInv.init moved dir k hn) hQ hok (by simpa using hl)
  obtain ⟨rfl, rfl⟩ := Prod.mk.inj (Option.some.inj (hg.symm.trans i1))
  have hl' : k = .vec → es.length < 2 ^ 31 := fun hk => by
    have := hl hk; simp only [List.length_nil] at i8; omega
  have huv : u ∈ g.vertices := by
    by_contra hc
    simp [AdjN.outEdges, hc] at hu
  obtain ⟨l', h1, h2, h3, h4, h5⟩ := i2.outEdges hl' huv
  obtain rfl := Option.some.inj (hu.symm.trans h1)
  obtain ⟨f1, f2⟩ := idFind_spec (i2.out u).wf (i2.fits hl' u) v
  have hmem : (∃ y ∈ (g.outs u).values, y.1 = v) ↔ ∃ e ∈ l, e.2.1 = v := by
    have h6 : v ∈ l.map (fun e => e.2.1) ↔ v ∈ (g.outs u).values.map Prod.fst := by rw [h4]
    rw [List.mem_map, List.mem_map] at h6
    exact h6.symm
  constructor
  · intro hex
    obtain ⟨e1, e2⟩ := f1 (hmem.mpr hex)
    obtain ⟨x, hx⟩ := Option.isSome_iff_exists.mp e2
    rw [hx] at e1
    have hfs := List.find?_some e1.symm
    have hk : x.1 = v := of_decide_eq_true hfs
    refine ⟨(u, x.1, (g.outs u).idFind Prod.fst v), (h5 _ _).mpr ⟨x.2, hx⟩, hk, ?_⟩
    simp only [AdjN.findEdge, huv, not_true_eq_false, if_false, AdjN.getEdge, hx, Option.map_some]
  · intro hne
    have e := f2 fun y hy hk => by
      obtain ⟨e, he, hev⟩ := hmem.mp ⟨y, hy, hk⟩
      exact hne e he hev
    obtain ⟨_, _, _, _, _, _, hend⟩ := ids_spec (i2.out u).wf (i2.fits hl' u)
    simp only [AdjN.findEdge, huv, not_true_eq_false, if_false, AdjN.getEdge, e, hend, Option.map_none]

/-- `edges()` of a graph without vertices is undefined. -/
theorem AdjN.allEdges_empty_ub {g : AdjN V β} (h : g.vertices = []) (fuel : Nat) : g.allEdges fuel = none := by
  simp [AdjN.allEdges, h, walkAll]

end Actl.Storage
