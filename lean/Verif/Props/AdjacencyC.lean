import Verif.Lemmas.AdjacencyC
import Verif.Props.AdjacencyN

/-! C41: adjacency lists with an edge container. -/

namespace Actl.Storage

open Actl.Ids

variable {V R β : Type} [LinearOrder V]

/-- What is needed of the ends stored in an edge (C40): each end of an edge is recovered from the other,
the source only where it is asked for. -/
structure GoodRep (rep : Rep V R) (dir : Dir) (P : V → Prop) : Prop where
  target : ∀ u v, P u → P v → rep.other (rep.store u v) u = v
  source : dir ≠ .directed → ∀ u v, P u → P v → rep.other (rep.store u v) v = u

theorem good_target : GoodRep (targetRep V) .directed fun _ => True :=
  ⟨fun _ _ _ _ => rfl, fun h => absurd rfl h⟩

theorem good_xor (dir : Dir) : GoodRep xorRep dir IsInt :=
  ⟨fun _ _ hu hv => (xorRep_other hu hv).1, fun _ _ _ hu hv => (xorRep_other hu hv).2⟩

theorem good_twoInt (dir : Dir) : GoodRep twoRepInt dir IsInt :=
  ⟨fun _ _ hu hv => (twoRepInt_other hu hv).1, fun _ _ _ hu hv => (twoRepInt_other hu hv).2⟩

theorem good_two (dir : Dir) : GoodRep (twoRep V) dir fun _ => True :=
  ⟨fun u v _ _ => (twoRep_other u v).1, fun _ u v _ _ => (twoRep_other u v).2⟩

theorem GoodRep.ends {rep : Rep V R} {dir : Dir} {P : V → Prop} (h : GoodRep rep dir P) {ι : Type} {u v : V}
    (hu : P u) (hv : P v) (t : ι) :
    rep.other (rep.store (ends dir.un (u, v, t)).1 (ends dir.un (u, v, t)).2) u = v ∧
    (dir ≠ .directed →
      rep.other (rep.store (ends dir.un (u, v, t)).1 (ends dir.un (u, v, t)).2) v = u) := by
  unfold Storage.ends
  cases hd : dir.un
  · exact ⟨h.target u v hu hv, fun hn => h.source hn u v hu hv⟩
  · have hn : dir ≠ .directed := by rintro rfl; simp [Dir.un] at hd
    simp only [if_true]
    rcases le_total u v with hle | hle
    · rw [min_eq_left hle, max_eq_right hle]
      exact ⟨h.target u v hu hv, fun hn => h.source hn u v hu hv⟩
    · rw [min_eq_right hle, max_eq_left hle]
      exact ⟨h.source hn v u hv hu, fun _ => h.target v u hv hu⟩

theorem mapM_filterMap {γ δ : Type} {f : γ → Option δ} {l : List γ} (h : ∀ x ∈ l, (f x).isSome) :
    l.mapM f = some (l.filterMap f) := by
  refine mapM_of_map ?_
  induction l with
  | nil => rfl
  | cons x l ih =>
    obtain ⟨y, hy⟩ := Option.isSome_iff_exists.mp (h x (List.mem_cons_self ..))
    rw [List.filterMap_cons_some hy, List.map_cons, List.map_cons, hy,
      ih fun z hz => h z (List.mem_cons_of_mem _ hz)]

theorem filterMap_map_some {γ δ ε : Type} {f : δ → Option ε} {h : γ → δ} {r : γ → ε} {l : List γ}
    (hf : ∀ x ∈ l, f (h x) = some (r x)) : (l.map h).filterMap f = l.map r := by
  induction l with
  | nil => rfl
  | cons x l ih =>
    rw [List.map_cons, List.filterMap_cons_some (hf x (List.mem_cons_self ..)), List.map_cons,
      ih fun z hz => hf z (List.mem_cons_of_mem _ hz)]

section

variable {rep : Rep V R} {k ke : Kind} {g : AdjC V R β} {es : List (V × V × (β × Int))} {P : V → Prop}

theorem getEdge_out (h : CInv rep k ke g es) (hr : g.hasOut = false → GoodRep rep g.dir P) (hP : ∀ v ∈ g.vertices, P v)
    {u : V} {d : V × (β × Int)} (hd : d ∈ outOf g.dir.un es u) :
    g.getEdge rep u (farOf g.hasOut d.1, d.2.2) = some (u, d.1, d.2.2) := by
  cases ho : g.hasOut
  · obtain ⟨e, he, hc⟩ := mem_outOf.mp hd
    obtain ⟨v1, v2⟩ := h.closed e he
    have hid := h.ids e he
    have hgood := (hr ho).ends (hP _ v1) (hP _ v2) e.2.2
    rcases hc with ⟨h1, rfl⟩ | ⟨h1, h2, h3, rfl⟩
    · subst h1
      simp only [AdjC.getEdge, farOf, Bool.false_eq_true, if_false, EdgeList.getTarget, hid, Option.map_some,
        datumC]
      rw [hgood.1]
    · subst h3
      simp only [AdjC.getEdge, farOf, Bool.false_eq_true, if_false, EdgeList.getTarget, hid, Option.map_some,
        datumC]
      rw [hgood.2 (by rintro e; rw [e] at h2; simp [Dir.un] at h2)]
  · rfl

theorem getEdge_in (h : CInv rep k ke g es) (hr : g.hasOut = false → GoodRep rep g.dir P) (hP : ∀ v ∈ g.vertices, P v)
    (hb : g.dir = .bidirectional) {u : V} {d : V × (β × Int)} (hd : d ∈ inOf es u) :
    g.getEdge rep u (farOf g.hasOut d.1, d.2.2) = some (u, d.1, d.2.2) := by
  cases ho : g.hasOut
  · unfold inOf at hd
    obtain ⟨e, he, hc⟩ := List.mem_filterMap.mp hd
    split at hc
    · rename_i h3
      obtain rfl := Option.some.inj hc
      obtain ⟨v1, v2⟩ := h.closed e he
      have hid := h.ids e he
      have hgood := (hr ho).ends (hP _ v1) (hP _ v2) e.2.2
      subst h3
      simp only [AdjC.getEdge, farOf, Bool.false_eq_true, if_false, EdgeList.getTarget, hid, Option.map_some,
        datumC]
      rw [hgood.2 (by rw [hb]; simp)]
    · simp at hc
  · rfl

/-- The out-edges of a vertex are those of the specification, with their ids. -/
theorem CInv.outEdges (h : CInv rep k ke g es) (hr : g.hasOut = false → GoodRep rep g.dir P) (hP : ∀ v ∈ g.vertices, P v)
    {u : V} (hu : u ∈ g.vertices) :
    ∃ l, g.outEdges rep u = some l ∧ l.Perm ((outOf g.dir.un es u).map fun d => (u, d.1, d.2.2)) ∧
      (k.assoc = false → l = (outOf g.dir.un es u).map fun d => (u, d.1, d.2.2)) := by
  have hf : (outC g.hasOut g.dir.un es u).filterMap (g.getEdge rep u) =
      (outOf g.dir.un es u).map fun d => (u, d.1, d.2.2) :=
    filterMap_map_some fun d hd => getEdge_out h hr hP hd
  refine ⟨(g.outs u).values.filterMap (g.getEdge rep u), ?_, ?_, ?_⟩
  · simp only [AdjC.outEdges, hu, not_true_eq_false, if_false]
    refine mapM_filterMap fun y hy => ?_
    obtain ⟨d, hd, rfl⟩ := List.mem_map.mp ((h.out u).perm.mem_iff.mp hy)
    rw [getEdge_out h hr hP hd]; rfl
  · rw [← hf]; exact (h.out u).perm.filterMap _
  · intro ha
    rw [← hf, (h.out u).seq (by rw [h.kindO]; exact ha)]

theorem CInv.inEdges' (h : CInv rep k ke g es) (hr : g.hasOut = false → GoodRep rep g.dir P) (hP : ∀ v ∈ g.vertices, P v)
    (hb : g.dir = .bidirectional) {u : V} (hu : u ∈ g.vertices) :
    ∃ m, g.inEdges rep u = some m ∧ m.Perm ((inOf es u).map fun d => (d.1, u, d.2.2)) := by
  have hun : g.dir.un = false := by rw [hb]; rfl
  have hf : (inC g.hasOut es u).filterMap (g.getEdge rep u) = (inOf es u).map fun d => (u, d.1, d.2.2) :=
    filterMap_map_some fun d hd => getEdge_in h hr hP hb hd
  have hi := h.inn (by rw [hb]; rfl) u
  have hm : (g.ins u).values.mapM (g.getEdge rep u) = some ((g.ins u).values.filterMap (g.getEdge rep u)) :=
    mapM_filterMap fun y hy => by
      obtain ⟨d, hd, rfl⟩ := List.mem_map.mp (hi.perm.mem_iff.mp hy)
      rw [getEdge_in h hr hP hb hd]; rfl
  refine ⟨((g.ins u).values.filterMap (g.getEdge rep u)).map fun e => (e.2.1, e.1, e.2.2), by
    simp only [AdjC.inEdges, hun, Bool.false_eq_true, if_false, hu, not_true_eq_false, hm,
    Option.map_some], ?_⟩
  refine ((hi.perm.filterMap _).map _).trans ?_
  rw [hf, List.map_map]; rfl

theorem CInv.allOut (h : CInv rep k ke g es) (hr : g.hasOut = false → GoodRep rep g.dir P) (hP : ∀ v ∈ g.vertices, P v)
    (hd : g.dir.un = false) : (g.vertices.flatMap fun u => (g.outEdges rep u).getD []).Perm
      (es.map fun e => (e.1, e.2.1, e.2.2.2)) := by
  have hall := outOf_all false h.nd h.closed
  simp only [Bool.false_and, Bool.not_false, List.filter_true, Storage.ends, Bool.false_eq_true, if_false]
    at hall
  have hall2 := hall.map fun d : (V × V) × (β × Int) => (d.1.1, d.1.2, d.2.2)
  rw [List.map_map, List.map_flatMap] at hall2
  refine List.Perm.trans ?_ hall2
  refine List.Perm.flatMap_left _ fun u hu => ?_
  obtain ⟨l, h1, h2, -⟩ := h.outEdges hr hP hu
  rw [hd] at h2
  rw [h1, Option.getD_some, List.map_map]
  exact h2

/-- The in-edges of a vertex of a bidirectional graph: exactly the out-edges leading to it. -/
theorem CInv.inEdges (h : CInv rep k ke g es) (hr : g.hasOut = false → GoodRep rep g.dir P) (hP : ∀ v ∈ g.vertices, P v)
    (hb : g.dir = .bidirectional) {u : V} (hu : u ∈ g.vertices) :
    ∃ m, g.inEdges rep u = some m ∧
      m.Perm ((g.vertices.flatMap fun w => (g.outEdges rep w).getD []).filter
        fun e => decide (e.2.1 = u)) := by
  obtain ⟨m, h1, h2⟩ := h.inEdges' hr hP hb hu
  refine ⟨m, h1, h2.trans ?_⟩
  refine List.Perm.trans ?_ ((h.allOut hr hP (by rw [hb]; rfl)).filter _).symm
  exact List.Perm.of_eq (inOf_eq es u)

/-- `edges()`: every edge once, with its id. -/
theorem CInv.allEdges (h : CInv rep k ke g es) (hr : g.hasOut = false → GoodRep rep g.dir P) (hP : ∀ v ∈ g.vertices, P v)
    (hne : g.vertices ≠ []) :
    ∃ l, (∀ fuel, l.length < fuel → g.allEdges rep fuel = some l) ∧
      (l.map fun e => ((e.1, e.2.1), e.2.2)).Perm (es.map fun e => (ends g.dir.un e, e.2.2.2)) := by
  have hm : (g.vertices.mapM fun u => g.outEdges rep u) =
      some (g.vertices.map fun u => (g.outEdges rep u).getD []) := by
    refine mapM_of_map ?_
    rw [List.map_map]
    refine List.map_congr_left fun u hu => ?_
    obtain ⟨l, h1, -⟩ := h.outEdges hr hP hu
    simp [h1]
  have hw := walkAll_spec (fun u => (g.outEdges rep u).getD [])
    (fun u e => g.dir.un && decide (e.2.1 < u)) hne
  have hsnd : ∀ vs : List V, (vs.flatMap fun v => (((g.outEdges rep v).getD []).filter
      fun x => !(g.dir.un && decide (x.2.1 < v))).map fun x => (v, x)).map Prod.snd =
      vs.flatMap fun v => ((g.outEdges rep v).getD []).filter fun x => !(g.dir.un && decide (x.2.1 < v)) := by
    intro vs
    rw [List.map_flatMap]
    congr 1
    funext v
    rw [List.map_map]
    exact List.map_id _
  refine ⟨g.vertices.flatMap fun v => ((g.outEdges rep v).getD []).filter
    fun x => !(g.dir.un && decide (x.2.1 < v)), ?_, ?_⟩
  · intro fuel hf
    simp only [AdjC.allEdges, hm]
    rw [hw fuel (by rw [← hsnd, List.length_map] at hf; exact hf), Option.map_some, hsnd]
  · have hall := (outOf_all g.dir.un h.nd h.closed).map fun d : (V × V) × (β × Int) => (d.1, d.2.2)
    rw [List.map_map, List.map_flatMap] at hall
    refine List.Perm.trans ?_ hall
    rw [List.map_flatMap]
    refine List.Perm.flatMap_left _ fun u hu => ?_
    obtain ⟨l, h1, h2, -⟩ := h.outEdges hr hP hu
    rw [h1, Option.getD_some]
    refine ((h2.filter _).map _).trans (List.Perm.of_eq ?_)
    rw [List.filter_map, List.map_map, List.map_map]
    rfl

/-- `edges()` where both ends are stored: those of the edge list. -/
theorem CInv.twoEdges {β : Type} {rep : Rep V (V × V)} {g : AdjC V (V × V) β} {es : List (V × V × (β × Int))}
    (h : CInv rep k ke g es) (hrep : ∀ u v, rep.store u v = (u, v)) (hl : k = .vec ∨ ke = .vec → es.length < 2 ^ 31) :
    ∃ l, g.edges.edges = some l ∧ (l.map fun a => a.2.2).Nodup ∧
      (l.map fun a => (a.1, a.2.1)) = es.map (ends g.dir.un) ∧
      ∀ a ∈ l, ∃ b, g.edges.cont.at a.2.2 = some ((a.1, a.2.1), b) := by
  have hd : es.map (datumC rep g.dir.un) = (es.map fun e => (e.1, e.2.1, e.2.2.1)).map (datum g.edges.undirected) := by
    rw [List.map_map]
    refine List.map_congr_left fun e _ => ?_
    simp only [datumC, hrep, Function.comp, datum, h.eun]
    rfl
  have hH : Holds g.edges (es.map fun e => (e.1, e.2.1, e.2.2.1)) := by
    refine ⟨⟨h.edg.wf.nodup, h.edg.wf.lt, ?_, ?_⟩, ?_, ?_⟩
    · intro hc
      have := unique_assoc hc; rw [h.kindE, h.hke] at this; simp at this
    · intro hc
      have : g.edges.cont.kind.assoc = true := by revert hc; cases g.edges.cont.kind <;> decide
      rw [h.kindE, h.hke] at this; simp at this
    · rw [← hd]; exact h.edg.perm
    · intro _; rw [← hd]; exact h.edg.seq (by rw [h.kindE]; exact h.hke)
  obtain ⟨l, l1, l2, -, l4, l5⟩ := edges_spec hH (h.fitsE hl)
  refine ⟨l, l1, l2, ?_, l5⟩
  rw [l4 (by rw [h.kindE]; exact h.hke), h.eun, List.map_map]
  rfl

end

/-! ### Histories -/

/-- A sequence of calls of `try_add_edge`; `pre` gives the vertices at the start of a call. -/
def addAllC (rep : Rep V R) (pre : List V → V → V → Option (List V)) (o : OrdersC V R β) (junk : Int) :
    AdjC V R β → List (V × V × β) → Option (AdjC V R β × List (Option (EdgeN V)))
  | g, [] => some (g, [])
  | g, e :: es =>
    match pre g.vertices e.1 e.2.1 with
    | none => none
    | some vs =>
      match ({ g with vertices := vs } : AdjC V R β).tryAddEdgeImpl rep o junk e.1 e.2.1 e.2.2 with
      | none => none
      | some (g, a) =>
        match addAllC rep pre o junk g es with
        | none => none
        | some (g, as) => some (g, a :: as)

theorem AdjC.tryAddEdgeImpl_hasOut {rep : Rep V R} {o : OrdersC V R β} {junk : Int} {g : AdjC V R β} {u v : V} {b : β} {r}
    (h : g.tryAddEdgeImpl rep o junk u v b = some r) : r.1.hasOut = g.hasOut := by
  unfold AdjC.tryAddEdgeImpl at h
  split at h
  · cases h
  · dsimp only at h
    split at h
    · rw [← Option.some.inj h]
    · split at h <;> (try split at h) <;> (try split at h) <;>
        cases h <;> rfl

theorem addAllC_hasOut {rep : Rep V R} {pre : List V → V → V → Option (List V)} {o : OrdersC V R β} {junk : Int}
    {calls : List (V × V × β)} : ∀ {g : AdjC V R β} {r}, addAllC rep pre o junk g calls = some r → r.1.hasOut = g.hasOut := by
  induction calls with
  | nil => intro g r h; rw [← Option.some.inj h]
  | cons e calls ih =>
    intro g r h
    unfold addAllC at h
    split at h
    · cases h
    · split at h
      · cases h
      · rename_i g1 a h1
        have h2 := AdjC.tryAddEdgeImpl_hasOut h1
        split at h
        · cases h
        · rename_i g2 as h3
          rw [← Option.some.inj h]
          exact (ih h3).trans h2

theorem addAllC_inv {rep : Rep V R} {pre : List V → V → V → Option (List V)} {Q : List V → Prop}
    {ok : V → Prop} (hp : Grows pre Q ok) (o : OrdersC V R β) (junk : Int) {k ke : Kind}
    {calls : List (V × V × β)} :
    ∀ {g : AdjC V R β} {es}, CInv rep k ke g es → Q g.vertices → (∀ e ∈ calls, ok e.1 ∧ ok e.2.1) →
    (k = .vec ∨ ke = .vec → es.length + calls.length < 2 ^ 31) →
    ∃ g' as es', addAllC rep pre o junk g calls = some (g', as) ∧ CInv rep k ke g' es' ∧ Q g'.vertices ∧
      g'.dir = g.dir ∧
      g'.vertices = calls.foldl (fun vs e => (pre vs e.1 e.2.1).getD vs) g.vertices ∧
      es'.map strip = (accept k.unique g.dir.un (es.map strip) calls).1 ∧
      as.map Option.isSome = (accept k.unique g.dir.un (es.map strip) calls).2 ∧
      es'.length ≤ es.length + calls.length ∧
      (∀ e ∈ calls, e.1 ∈ g'.vertices ∧ e.2.1 ∈ g'.vertices) ∧ (∀ w ∈ g.vertices, w ∈ g'.vertices) ∧
      ∃ new, es' = es ++ new ∧ as.filterMap id = new.map fun e => (e.1, e.2.1, e.2.2.2) := by
  induction calls with
  | nil =>
    intro g es h hQ _ _
    exact ⟨g, [], es, rfl, h, hQ, rfl, rfl, rfl, rfl, by simp, by simp, fun w hw => hw, [], by simp, rfl⟩
  | cons e calls ih =>
    intro g es h hQ hok hl
    obtain ⟨vs, p1, p2, p3, p4, p5, p6⟩ := hp g.vertices e.1 e.2.1 hQ (hok e (List.mem_cons_self ..)).1
      (hok e (List.mem_cons_self ..)).2
    have hg := h.grow p3 p4
    have hl1 : k = .vec ∨ ke = .vec → es.length < 2 ^ 31 := fun hk => by
      have := hl hk; simp only [List.length_cons] at this; omega
    obtain ⟨s1, s2⟩ := hg.step hl1 o junk p5 p6 e.2.2
    have hd : (∃ d ∈ es, ends g.dir.un d = ends g.dir.un (e.1, e.2.1, (e.2.2, (0 : Int)))) ↔
        ∃ d ∈ es.map strip, ends g.dir.un d = ends g.dir.un e := by
      constructor
      · rintro ⟨d, hd, he⟩; exact ⟨_, List.mem_map_of_mem hd, he⟩
      · rintro ⟨d, hd, he⟩
        obtain ⟨f, hf, rfl⟩ := List.mem_map.mp hd
        exact ⟨f, hf, he⟩
    by_cases hdup : k.unique = true ∧ ∃ d ∈ es.map strip, ends g.dir.un d = ends g.dir.un e
    · have hs := s1 ⟨hdup.1, hd.mpr hdup.2⟩
      obtain ⟨g', as, es', i1, i2, i3, i4, i5, i6, i7, i8, i9, i10, i11⟩ := ih hg p2
        (fun f hf => hok f (List.mem_cons_of_mem _ hf)) (fun hk => by
          have := hl hk; simp only [List.length_cons] at this; omega)
      refine ⟨g', none :: as, es', ?_, i2, i3, i4, ?_, ?_, ?_, ?_, ?_, ?_, ?_⟩
      · simp only [addAllC, p1, hs, i1]
      · rw [List.foldl_cons, p1]; exact i5
      · simp only [accept, if_pos hdup]; exact i6
      · simp only [accept, if_pos hdup, List.map_cons, Option.isSome_none]; rw [i7]
      · simp only [List.length_cons]; omega
      · intro f hf
        rcases List.mem_cons.mp hf with rfl | hf
        · exact ⟨i10 _ p5, i10 _ p6⟩
        · exact i9 f hf
      · exact fun w hw => i10 w (p4 w hw)
      · simpa using i11
    · obtain ⟨g1, id, hs, hi, hd1, hv1, -⟩ := s2 fun hc => hdup ⟨hc.1, hd.mp hc.2⟩
      obtain ⟨g', as, es', i1, i2, i3, i4, i5, i6, i7, i8, i9, i10, i11⟩ := ih hi (by rw [hv1]; exact p2)
        (fun f hf => hok f (List.mem_cons_of_mem _ hf)) (fun hk => by
          have := hl hk
          simp only [List.length_cons, List.length_append, List.length_nil] at this ⊢; omega)
      have hd2 : g1.dir = g.dir := hd1
      have hv2 : g1.vertices = vs := hv1
      rw [hd2] at i4 i6 i7
      rw [hv2] at i5 i10
      rw [List.map_append, List.map_singleton] at i6 i7
      refine ⟨g', some (e.1, e.2.1, id) :: as, es', ?_, i2, i3, i4, ?_, ?_, ?_, ?_, ?_, ?_, ?_⟩
      · simp only [addAllC, p1, hs, i1]
      · rw [List.foldl_cons, p1]; exact i5
      · simp only [accept, if_neg hdup]; exact i6
      · simp only [accept, if_neg hdup, List.map_cons, Option.isSome_some]; rw [i7]; rfl
      · simp only [List.length_cons, List.length_append, List.length_nil] at i8 ⊢; omega
      · intro f hf
        rcases List.mem_cons.mp hf with rfl | hf
        · exact ⟨i10 _ p5, i10 _ p6⟩
        · exact i9 f hf
      · exact fun w hw => i10 w (p4 w hw)
      · obtain ⟨new, rfl, hnew⟩ := i11
        refine ⟨(e.1, e.2.1, (e.2.2, id)) :: new, by simp, ?_⟩
        show _ :: List.filterMap _root_.id as = _
        rw [hnew]; rfl

/-- C41 with an edge container, for any kind of vertices.  After any sequence of calls of
`try_add_edge`, with the endpoints allowed:
* the answers are those of the specification and `edge_count` is the number of edges accepted;
* the endpoints are vertices;
* there is a list of the ids of the accepted edges, all distinct, such that the out-edges of a vertex are
  those of the specification with these ids (in the order of insertion for a sequence);
* every edge of a bidirectional graph is among the in-edges of its target and there is nothing else, those
  of an undirected graph are the out-edges reversed, and its out-edges are symmetric;
* `edges()` yields every accepted edge exactly once, with its id;
* the edges returned have these ids;
* the edge container holds the bundle given under the id of the edge. -/
theorem adjacencyC_history {rep : Rep V R} {pre : List V → V → V → Option (List V)} {Q : List V → Prop}
    {ok P : V → Prop} (hp : Grows pre Q ok) (hQP : ∀ vs, Q vs → ∀ v ∈ vs, P v) (o : OrdersC V R β) (junk : Int)
    (dir : Dir) {hasOut : Bool} (hr : hasOut = false → GoodRep rep dir P) {k ke : Kind}
    (hk : hasOut = false → k.assoc = false) (hke : ke.assoc = false) {vs : List V}
    (hn : vs.Nodup) (hQ : Q vs) {calls : List (V × V × β)} (hne : vs ≠ [] ∨ calls ≠ [])
    (hok : ∀ e ∈ calls, ok e.1 ∧ ok e.2.1) (hl : k = .vec ∨ ke = .vec → calls.length < 2 ^ 31) :
    ∃ g as es, addAllC rep pre o junk (AdjC.init dir hasOut k ke vs) calls = some (g, as) ∧ g.dir = dir ∧
      as.map Option.isSome = (accept k.unique dir.un [] calls).2 ∧
      g.edgeCount = (accept k.unique dir.un [] calls).2.count true ∧
      g.vertices.Nodup ∧
      g.vertices = calls.foldl (fun vs e => (pre vs e.1 e.2.1).getD vs) vs ∧
      (∀ e ∈ calls, e.1 ∈ g.vertices ∧ e.2.1 ∈ g.vertices) ∧
      (es.map strip = (accept k.unique dir.un [] calls).1 ∧ (es.map fun e => e.2.2.2).Nodup ∧
        as.filterMap id = es.map fun e => (e.1, e.2.1, e.2.2.2)) ∧
      (∀ u ∈ g.vertices, ∃ l, g.outEdges rep u = some l ∧
        l.Perm ((outOf dir.un es u).map fun d => (u, d.1, d.2.2)) ∧
        (k.assoc = false → l = (outOf dir.un es u).map fun d => (u, d.1, d.2.2))) ∧
      (dir = .bidirectional → ∀ u ∈ g.vertices, ∃ m, g.inEdges rep u = some m ∧
        m.Perm ((g.vertices.flatMap fun w => (g.outEdges rep w).getD []).filter
          fun e => decide (e.2.1 = u))) ∧
      (dir = .undirected → (∀ u ∈ g.vertices, ∃ l, g.outEdges rep u = some l ∧
          g.inEdges rep u = some (l.map fun e => (e.2.1, e.1, e.2.2))) ∧
        ∀ u v l m, g.outEdges rep u = some l → g.outEdges rep v = some m →
          (l.map fun e => e.2.1).count v = (m.map fun e => e.2.1).count u) ∧
      (∃ l, (∀ fuel, l.length < fuel → g.allEdges rep fuel = some l) ∧
        (l.map fun e => ((e.1, e.2.1), e.2.2)).Perm (es.map fun e => (ends dir.un e, e.2.2.2))) ∧
      (∀ e ∈ es, (g.edges.cont.at e.2.2.2).map Prod.snd = some e.2.2.1) := by
  obtain ⟨g, as, es, i1, i2, i3, i4, i5, i6, i7, i8, i9, i10, new, i11, i12⟩ :=
    addAllC_inv hp o junk (CInv.init (β := β) rep dir hk hke hn) hQ hok (by simpa using hl)
  have hdir : g.dir = dir := i4
  have hr : g.hasOut = false → GoodRep rep dir P := fun h => hr ((addAllC_hasOut i1).symm.trans h)
  rw [show (AdjC.init dir hasOut k ke vs : AdjC V R β).dir = dir from rfl] at i6 i7
  simp only [List.map_nil] at i6 i7
  rw [← hdir] at hr
  have hP := hQP _ i3
  rw [List.nil_append] at i11
  subst i11
  have hcount : ∀ (calls st : List (V × V × β)), (accept k.unique dir.un st calls).1.length =
      st.length + (accept k.unique dir.un st calls).2.count true := by
    intro calls
    induction calls with
    | nil => intro st; simp [accept]
    | cons e calls ih =>
      intro st
      simp only [accept]
      split
      · simp [ih]
      · simp [ih]; omega
  have hvne : g.vertices ≠ [] := by
    rcases hne with h | h
    · obtain ⟨w, hw⟩ := List.exists_mem_of_ne_nil _ h
      exact List.ne_nil_of_mem (i10 w hw)
    · obtain ⟨w, hw⟩ := List.exists_mem_of_ne_nil _ h
      exact List.ne_nil_of_mem (i9 w hw).1
  have hout : ∀ u ∈ g.vertices, ∃ l, g.outEdges rep u = some l ∧
        l.Perm ((outOf dir.un es u).map fun d => (u, d.1, d.2.2)) ∧
        (k.assoc = false → l = (outOf dir.un es u).map fun d => (u, d.1, d.2.2)) := by
    intro u hu
    obtain ⟨l, h1, h2⟩ := i2.outEdges hr hP hu
    rw [hdir] at h2
    exact ⟨l, h1, h2⟩
  refine ⟨g, as, es, i1, hdir, i7, ?_, i2.nd, i5, i9, ⟨i6, i2.idn, i12⟩, hout, ?_, ?_, ?_, ?_⟩
  · have h1 := hcount calls []
    have h2 := congrArg List.length i6
    have h3 := i2.edg.length
    rw [List.length_map] at h2 h3
    simp only [List.length_nil, Nat.zero_add] at h1
    exact h3.trans (h2.trans h1)
  · intro hb u hu
    exact i2.inEdges hr hP (hdir.trans hb) hu
  · intro hu
    constructor
    · intro u huv
      obtain ⟨l, h1, -⟩ := hout u huv
      refine ⟨l, h1, ?_⟩
      simp [AdjC.inEdges, hdir, hu, Dir.un, h1]
    · intro u v l m hlu hmv
      have hmem : ∀ w l, g.outEdges rep w = some l → w ∈ g.vertices := by
        intro w l hw
        by_contra hc
        simp [AdjC.outEdges, hc] at hw
      obtain ⟨l', h1, h4, -⟩ := hout u (hmem u l hlu)
      obtain ⟨m', g1, g4, -⟩ := hout v (hmem v m hmv)
      obtain rfl := Option.some.inj (hlu.symm.trans h1)
      obtain rfl := Option.some.inj (hmv.symm.trans g1)
      have e1 := (h4.map fun e : EdgeN V => e.2.1).count_eq v
      have e2 := (g4.map fun e : EdgeN V => e.2.1).count_eq u
      rw [List.map_map] at e1 e2
      rw [e1, e2, show dir.un = true by rw [hu]; rfl]
      exact outOf_symm es u v
  · obtain ⟨l, h1, h2⟩ := i2.allEdges hr hP hvne
    rw [hdir] at h2
    exact ⟨l, h1, h2⟩
  · intro e he
    rw [i2.ids e he]; rfl

/-- `edges()` where both ends are stored in the edges, after any sequence of calls: every accepted edge
once, in the order of insertion. -/
theorem adjacencyC_twoEdges {rep : Rep V (V × V)} (hrep : ∀ u v, rep.store u v = (u, v))
    {pre : List V → V → V → Option (List V)} {Q : List V → Prop}
    {ok : V → Prop} (hp : Grows pre Q ok) (o : OrdersC V (V × V) β) (junk : Int)
    (dir : Dir) {hasOut : Bool} {k ke : Kind}
    (hk : hasOut = false → k.assoc = false) (hke : ke.assoc = false) {vs : List V}
    (hn : vs.Nodup) (hQ : Q vs) {calls : List (V × V × β)}
    (hok : ∀ e ∈ calls, ok e.1 ∧ ok e.2.1) (hl : k = .vec ∨ ke = .vec → calls.length < 2 ^ 31) :
    ∃ g as l, addAllC rep pre o junk (AdjC.init dir hasOut k ke vs) calls = some (g, as) ∧
      g.edges.edges = some l ∧ (l.map fun a => a.2.2).Nodup ∧
      (l.map fun a => (a.1, a.2.1)) = (accept k.unique dir.un [] calls).1.map (ends dir.un) ∧
      l.length = g.edgeCount := by
  obtain ⟨g, as, es, i1, i2, i3, i4, i5, i6, i7, i8, -⟩ :=
    addAllC_inv hp o junk (CInv.init (β := β) rep dir hk hke hn) hQ hok (by simpa using hl)
  have hdir : g.dir = dir := i4
  obtain ⟨l, l1, l2, l3, -⟩ := i2.twoEdges hrep (fun h => by
    have := hl h; simp only [List.length_nil] at i8; omega)
  refine ⟨g, as, l, i1, l1, l2, ?_, ?_⟩
  · rw [l3, hdir]
    have : (es.map strip).map (ends dir.un) = es.map (ends dir.un) := by rw [List.map_map]; rfl
    rw [← this, i6]; rfl
  · have h1 := congrArg List.length l3
    have h2 := i2.edg.length
    simp only [List.length_map] at h1 h2
    exact h1.trans h2.symm

/-- `find_edge`, after any sequence of calls: an out-edge with this target if there is one; otherwise
undefined if the targets are kept in the out-edges, and `edge{}` if they are not. -/
theorem adjacencyC_find {rep : Rep V R} {pre : List V → V → V → Option (List V)} {Q : List V → Prop}
    {ok P : V → Prop} (hp : Grows pre Q ok) (hQP : ∀ vs, Q vs → ∀ v ∈ vs, P v) (o : OrdersC V R β) (junk : Int)
    (dir : Dir) {hasOut : Bool} (hr : hasOut = false → GoodRep rep dir P) {k ke : Kind}
    (hk : hasOut = false → k.assoc = false) (hke : ke.assoc = false) {vs : List V}
    (hn : vs.Nodup) (hQ : Q vs) {calls : List (V × V × β)}
    (hok : ∀ e ∈ calls, ok e.1 ∧ ok e.2.1) (hl : k = .vec ∨ ke = .vec → calls.length < 2 ^ 31) {g as}
    (hg : addAllC rep pre o junk (AdjC.init dir hasOut k ke vs) calls = some (g, as)) {u l}
    (hu : g.outEdges rep u = some l) (v : V) :
    ((∃ e ∈ l, e.2.1 = v) → ∃ e ∈ l, e.2.1 = v ∧ g.findEdge rep u v = some (some e)) ∧
    ((∀ e ∈ l, e.2.1 ≠ v) → g.findEdge rep u v = if g.hasOut then none else some none) := by
  obtain ⟨g', as', es, i1, i2, i3, i4, i5, i6, i7, i8, -⟩ :=
    addAllC_inv hp o junk (CInv.init (β := β) rep dir hk hke hn) hQ hok (by simpa using hl)
  obtain ⟨rfl, rfl⟩ := Prod.mk.inj (Option.some.inj (hg.symm.trans i1))
  have hl' : k = .vec ∨ ke = .vec → es.length < 2 ^ 31 := fun hk => by
    have := hl hk; simp only [List.length_nil] at i8; omega
  have hdir : g.dir = dir := i4
  have hr : g.hasOut = false → GoodRep rep dir P := fun h => hr ((addAllC_hasOut i1).symm.trans h)
  rw [← hdir] at hr
  have hP := hQP _ i3
  have huv : u ∈ g.vertices := by
    by_contra hc
    simp [AdjC.outEdges, hc] at hu
  obtain ⟨l', h1, h2, -⟩ := i2.outEdges hr hP huv
  obtain rfl := Option.some.inj (hu.symm.trans h1)
  cases ho : g.hasOut
  · have hf : g.findEdge rep u v = some (l.find? fun e => decide (e.2.1 = v)) := by
      simp [AdjC.findEdge, huv, ho, hu]
    rw [hf]
    constructor
    · rintro ⟨e, he, hev⟩
      obtain ⟨x, hx⟩ := Option.isSome_iff_exists.mp
        (List.find?_isSome (p := fun e : EdgeN V => decide (e.2.1 = v)).mpr ⟨e, he, decide_eq_true hev⟩)
      have hfs := List.find?_some hx
      exact ⟨x, List.mem_of_find?_eq_some hx, of_decide_eq_true hfs, by rw [hx]⟩
    · intro hne
      rw [List.find?_eq_none.mpr fun e he => by simpa using hne e he]
      simp
  · obtain ⟨f1, f2⟩ := idFind_spec (i2.out u).wf (i2.fits hl' u) (outKey (some v, 0))
    have hmem : (∃ y ∈ (g.outs u).values, outKey y = outKey (some v, 0)) ↔ ∃ e ∈ l, e.2.1 = v := by
      constructor
      · rintro ⟨y, hy, e⟩
        obtain ⟨d, hd, rfl⟩ := List.mem_map.mp ((i2.out u).perm.mem_iff.mp hy)
        refine ⟨_, h2.mem_iff.mpr (List.mem_map_of_mem hd), ?_⟩
        rw [ho] at e
        exact Option.some.inj e
      · rintro ⟨e, he, rfl⟩
        obtain ⟨d, hd, rfl⟩ := List.mem_map.mp (h2.mem_iff.mp he)
        refine ⟨(farOf g.hasOut d.1, d.2.2), (i2.out u).perm.mem_iff.mpr (List.mem_map_of_mem hd), ?_⟩
        rw [ho]; rfl
    constructor
    · intro hex
      obtain ⟨e1, e2⟩ := f1 (hmem.mpr hex)
      obtain ⟨x, hx⟩ := Option.isSome_iff_exists.mp e2
      rw [hx] at e1
      have hfs := List.find?_some e1.symm
      have hkx : outKey x = outKey (some v, 0) := of_decide_eq_true hfs
      obtain ⟨d, hd, hdx⟩ := List.mem_map.mp ((i2.out u).perm.mem_iff.mp (List.mem_of_find?_eq_some e1.symm))
      have hge := getEdge_out i2 hr hP hd
      rw [hdx] at hge
      refine ⟨(u, d.1, d.2.2), h2.mem_iff.mpr (List.mem_map_of_mem hd), ?_, ?_⟩
      · rw [← hdx, ho] at hkx
        exact Option.some.inj hkx
      · simp only [AdjC.findEdge, huv, not_true_eq_false, if_false, ho, if_true, hx, hge, Option.map_some]
    · intro hne
      have e := f2 fun y hy hk => by
        obtain ⟨e, he, hev⟩ := hmem.mp ⟨y, hy, hk⟩
        exact hne e he hev
      obtain ⟨_, _, _, _, _, _, hend⟩ := ids_spec (i2.out u).wf (i2.fits hl' u)
      simp only [AdjC.findEdge, huv, not_true_eq_false, if_false, ho, if_true, e, hend]

/-- `edges()` of a graph without vertices is undefined, unless both ends are stored. -/
theorem AdjC.allEdges_empty_ub {rep : Rep V R} {g : AdjC V R β} (h : g.vertices = []) (fuel : Nat) :
    g.allEdges rep fuel = none := by
  simp [AdjC.allEdges, h, walkAll]

end Actl.Storage
