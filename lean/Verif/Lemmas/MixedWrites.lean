import Verif.Model.MixedWrites
import Verif.Lemmas.BundleStores
import Verif.Props.Bundles
import Verif.Props.MixedEdges

/-! Assignments to bundles between insertions of vertices and edges: a graph with assignments is one without, with other bundles. -/

namespace Actl.Storage

open Actl.Ids

variable {α R β κ : Type} [LinearOrder κ] {key : α → κ} {dflt : α} {ordV : Order α} {rep : Rep Int R} {o : OrdersC Int R β}
  {junk : Int} {dir : Dir} {hasOut : Bool} {k ke kv : Kind} {g g0 : MixedC α R β} {log : List (Insert α β × Got)}
  {H : List (Event α β)}

/-! ### Histories -/

/-- The call, with another bundle if it returned the edge with this id. -/
def setBundle (id : Int) (x : β) : Insert α β × Got → Insert α β × Got
  | (.edge u v b, .edge (some e)) => (.edge u v (if e.2.2 = id then x else b), .edge (some e))
  | c => c

/-- The calls of a history, those that added edges with the bundles last assigned. -/
def insertions (H : List (Event α β)) : List (Insert α β × Got) :=
  H.foldl (fun log ev => match ev with
    | .call c a => log ++ [(c, a)]
    | .setEdge e x => log.map (setBundle e.2.2 x)
    | .setVertex _ _ => log) []

theorem calls_call (H : List (Event α β)) (c : Insert α β) (a : Got) : calls (H ++ [.call c a]) = calls H ++ [(c, a)] := by
  simp [calls]

theorem calls_setEdge (H : List (Event α β)) (e : Int × Int × Int) (x : β) : calls (H ++ [.setEdge e x]) = calls H := by
  simp [calls]

theorem calls_setVertex (H : List (Event α β)) (v : Int) (x : α) : calls (H ++ [.setVertex v x]) = calls H := by
  simp [calls]

theorem insertions_call (H : List (Event α β)) (c : Insert α β) (a : Got) : insertions (H ++ [.call c a]) = insertions H ++ [(c, a)] := by
  simp [insertions, List.foldl_append]

theorem insertions_setEdge (H : List (Event α β)) (e : Int × Int × Int) (x : β) :
    insertions (H ++ [.setEdge e x]) = (insertions H).map (setBundle e.2.2 x) := by
  simp [insertions, List.foldl_append]

theorem insertions_setVertex (H : List (Event α β)) (v : Int) (x : α) : insertions (H ++ [.setVertex v x]) = insertions H := by
  simp [insertions, List.foldl_append]

theorem lastBundle_call (H : List (Event α β)) (c : Insert α β) (a : Got) : lastBundle (H ++ [.call c a]) = lastBundle H := by
  funext id; simp [lastBundle, List.foldl_append]

theorem lastBundle_setEdge (H : List (Event α β)) (e : Int × Int × Int) (x : β) (id : Int) :
    lastBundle (H ++ [.setEdge e x]) id = if e.2.2 = id then some x else lastBundle H id := by
  simp [lastBundle, List.foldl_append]

theorem lastBundle_setVertex (H : List (Event α β)) (v : Int) (x : α) : lastBundle (H ++ [.setVertex v x]) = lastBundle H := by
  funext id; simp [lastBundle, List.foldl_append]

theorem lastValue_call (H : List (Event α β)) (c : Insert α β) (a : Got) : lastValue (H ++ [.call c a]) = lastValue H := by
  funext id; simp [lastValue, List.foldl_append]

theorem lastValue_setEdge (H : List (Event α β)) (e : Int × Int × Int) (x : β) : lastValue (H ++ [.setEdge e x]) = lastValue H := by
  funext id; simp [lastValue, List.foldl_append]

theorem lastValue_setVertex (H : List (Event α β)) (w : Int) (x : α) (v : Int) :
    lastValue (H ++ [.setVertex w x]) v = if w = v then some x else lastValue H v := by
  simp [lastValue, List.foldl_append]

theorem vertexCalls_setBundle (id : Int) (x : β) (log : List (Insert α β × Got)) :
    vertexCalls (log.map (setBundle id x)) = vertexCalls log := by
  induction log with
  | nil => rfl
  | cons c log ih =>
    obtain ⟨_ | _, _ | _ | _⟩ := c <;> simp [vertexCalls, setBundle, ih]

theorem numbered_setBundle (id : Int) (x : β) (log : List (Insert α β × Got)) :
    ∀ n, numbered n (log.map (setBundle id x)) = numbered n log := by
  induction log with
  | nil => intro n; rfl
  | cons c log ih =>
    intro n
    obtain ⟨_ | _, _ | _ | _⟩ := c <;> simp [numbered, setBundle, ih]

/-- What happens to a call for an edge. -/
def setCall (id : Int) (x : β) (c : (Int × Int × β) × Option (Int × Int × Int)) : (Int × Int × β) × Option (Int × Int × Int) :=
  match c.2 with
  | none => c
  | some e => ((c.1.1, c.1.2.1, if e.2.2 = id then x else c.1.2.2), some e)

theorem edgeCalls_setBundle (id : Int) (x : β) (log : List (Insert α β × Got)) :
    edgeCalls (log.map (setBundle id x)) = (edgeCalls log).map (setCall id x) := by
  induction log with
  | nil => rfl
  | cons c log ih =>
    obtain ⟨_ | _, _ | _ | _⟩ := c <;> simp [edgeCalls, setBundle, setCall, ih]

theorem LegalC.setBundle {c : Insert α β} (h : LegalC k ke kv log c) (id : Int) (x : β) :
    LegalC k ke kv (log.map (Storage.setBundle id x)) c := by
  cases c with
  | vertex y =>
    simp only [LegalC, Legal] at h ⊢
    rw [numbered_setBundle]
    exact h
  | edge u v b =>
    simp only [LegalC, Legal] at h ⊢
    rw [edgeCalls_setBundle, vertexCalls_setBundle, List.length_map]
    exact h

/-- The ids of the edges that were returned. -/
def edgeIds (log : List (Insert α β × Got)) : List Int := ((edgeCalls log).filterMap Prod.snd).map fun e => e.2.2

theorem edgeIds_append (l m : List (Insert α β × Got)) : edgeIds (l ++ m) = edgeIds l ++ edgeIds m := by
  simp [edgeIds, edgeCalls_append]

theorem edgeIds_setBundle (id : Int) (x : β) (log : List (Insert α β × Got)) : edgeIds (log.map (setBundle id x)) = edgeIds log := by
  unfold edgeIds
  rw [edgeCalls_setBundle, List.filterMap_map]
  congr 1
  refine List.filterMap_congr fun c _ => ?_
  obtain ⟨c, _ | e⟩ := c <;> rfl

theorem setBundle_other {id : Int} (h : id ∉ edgeIds log) (x : β) : log.map (setBundle id x) = log := by
  induction log with
  | nil => rfl
  | cons c log ih =>
    rw [show c :: log = [c] ++ log from rfl, edgeIds_append, List.mem_append, not_or] at h
    rw [List.map_cons, ih h.2]
    congr 1
    obtain ⟨_ | _, _ | _ | _⟩ := c <;> simp [setBundle]
    rename_i e
    intro he
    refine absurd ?_ h.1
    simp [edgeIds, edgeCalls, he]

/-! ### Assignments to edges -/

theorem growTo_adj {u v : Int} {g2 : MixedC α R β} (h : g.growTo dflt u v = some g2) :
    g2.adj = g.adj ∧ ∀ a : AdjC Int R β, MixedC.growTo dflt ⟨g.vs, a⟩ u v = some ⟨g2.vs, a⟩ := by
  obtain ⟨vs, adj⟩ := g
  simp only [MixedC.growTo, MixedC.vertexCount] at h ⊢
  by_cases h1 : vs.kind.ra = true
  · rw [if_pos h1] at h
    by_cases h2 : max u v ≥ (vs.items.length : Int)
    · rw [if_pos h2] at h
      by_cases h3 : max u v < 2 ^ 31 - 1
      · rw [if_pos h3] at h
        obtain rfl := Option.some.inj h
        exact ⟨rfl, fun a => by rw [if_pos h1, if_pos h2, if_pos h3]⟩
      · rw [if_neg h3] at h; cases h
    · rw [if_neg h2] at h
      obtain rfl := Option.some.inj h
      exact ⟨rfl, fun a => by rw [if_pos h1, if_neg h2]⟩
  · rw [if_neg h1] at h
    obtain rfl := Option.some.inj h
    exact ⟨rfl, fun a => by rw [if_neg h1]⟩

/-- How a call of `try_add_edge` went. -/
theorem tryAddEdge_cases {u v : Int} {b : β} {g1 : MixedC α R β} {a : Option (EdgeN Int)}
    (h : g.tryAddEdge dflt rep o junk u v b = some (g1, a)) :
    ∃ g2 l adj, g.growTo dflt u v = some g2 ∧ g2.vs.ids = some l ∧
      ({ g.adj with vertices := l } : AdjC Int R β).tryAddEdgeImpl rep o junk u v b = some (adj, a) ∧ g1 = ⟨g2.vs, adj⟩ := by
  unfold MixedC.tryAddEdge at h
  cases h1 : g.growTo dflt u v with
  | none => rw [h1] at h; cases h
  | some g2 =>
    rw [h1] at h
    dsimp only at h
    have hadj := (growTo_adj h1).1
    cases h2 : g2.vs.ids with
    | none =>
      have : g2.see = none := by unfold MixedC.see; rw [h2]; rfl
      rw [this] at h; cases h
    | some l =>
      have hsee : g2.see = some { g.adj with vertices := l } := by unfold MixedC.see; rw [h2, hadj]; rfl
      rw [hsee] at h
      dsimp only at h
      cases h3 : ({ g.adj with vertices := l } : AdjC Int R β).tryAddEdgeImpl rep o junk u v b with
      | none => rw [h3] at h; cases h
      | some r =>
        rw [h3] at h
        obtain ⟨e1, e2⟩ := Prod.mk.inj (Option.some.inj h)
        exact ⟨g2, l, r.1, rfl, h2, by rw [← e2]; exact h3, e1.symm⟩

theorem tryAddEdge_of {u v : Int} {b : β} {g2 : MixedC α R β} {a : Option (EdgeN Int)} {l : List Int} {adj' adj : AdjC Int R β}
    (h1 : g.growTo dflt u v = some g2) (h2 : g2.vs.ids = some l)
    (h3 : ({ adj' with vertices := l } : AdjC Int R β).tryAddEdgeImpl rep o junk u v b = some (adj, a)) :
    MixedC.tryAddEdge dflt rep o junk ⟨g.vs, adj'⟩ u v b = some (⟨g2.vs, adj⟩, a) := by
  unfold MixedC.tryAddEdge
  rw [(growTo_adj h1).2 adj']
  have hsee : (⟨g2.vs, adj'⟩ : MixedC α R β).see = some { adj' with vertices := l } := by
    unfold MixedC.see; simp only [h2]; rfl
  simp only [hsee, h3]

/-- The edge container is as the lemmas about assignments need it. -/
theorem goodEdges (h : CMInv key dflt ordV rep dir hasOut k ke kv g log) :
    GoodE (fun _ => (0 : Nat)) ke (g.adj.edges.cont.items.length + 1) g.adj.edges.cont.items.length g.adj.edges ∧
      (ke.hashed = true → ByKey (fun _ : R × β => (0 : Nat)) o.edge) ∧ g.adj.edges.cont.kind.unique = false := by
  obtain ⟨es, l, -, a2, -, -, -, a6, -⟩ := h.edges
  have hke := a2.hke
  have hkind : g.adj.edges.cont.kind = ke := a2.kindE
  have hlen : g.adj.edges.cont.items.length = es.length := by
    have := a2.edg.length
    rw [List.length_map] at this
    exact this
  refine ⟨⟨a2.edg.wf, le_refl _, fun hr => ?_, hkind⟩, fun hh => ?_, ?_⟩
  · rw [hkind] at hr
    have := h.len (Or.inr (ra_vec hr))
    omega
  · exfalso; revert hke hh; cases ke <;> simp [Kind.assoc, Kind.hashed]
  · rw [hkind]; revert hke; cases ke <;> simp [Kind.assoc, Kind.unique]

theorem writeEdge_some {e : EdgeN Int} {x : β} {g' : MixedC α R β} (h : g.writeEdge e x = some g') :
    ∃ el, g.adj.edges.write e x = some el ∧ g' = ⟨g.vs, { g.adj with edges := el }⟩ := by
  unfold MixedC.writeEdge AdjC.write at h
  cases h1 : g.adj.edges.write e x with
  | none => rw [h1] at h; cases h
  | some el =>
    rw [h1] at h
    exact ⟨el, rfl, (Option.some.inj h).symm⟩

theorem writeEdge_of {e : EdgeN Int} {x : β} {el : EdgeList R β} (h : g.adj.edges.write e x = some el) :
    g.writeEdge e x = some ⟨g.vs, { g.adj with edges := el }⟩ := by
  unfold MixedC.writeEdge AdjC.write
  rw [h]; rfl

/-- An insertion after an assignment. -/
theorem tryAddEdge_write (hi : CMInv key dflt ordV rep dir hasOut k ke kv g log) {e : EdgeN Int} {x : β} {g' g1 : MixedC α R β}
    {u v : Int} {b : β} {a : Option (EdgeN Int)} (hw : g.writeEdge e x = some g')
    (h : g.tryAddEdge dflt rep o junk u v b = some (g1, a)) :
    ∃ g1', g1.writeEdge e x = some g1' ∧ g'.tryAddEdge dflt rep o junk u v b = some (g1', a) := by
  obtain ⟨hg, hb, -⟩ := goodEdges (o := o) hi
  obtain ⟨el', hwe, rfl⟩ := writeEdge_some hw
  obtain ⟨el1, w1, w2⟩ := EdgeList.tryAdd_write (rep := rep) hb hg hwe u v b
  obtain ⟨g2, l, adj, h1, h2, h3, rfl⟩ := tryAddEdge_cases h
  have hI := AdjC.impl_edges (g := { g.adj with vertices := l }) (o := o) (junk := junk) w2
  rw [h3] at hI
  refine ⟨⟨g2.vs, { adj with edges := if a.isSome then el1 else el' }⟩, ?_, ?_⟩
  · obtain ⟨-, ⟨rfl, rfl⟩ | ⟨rfl, he⟩⟩ := AdjC.impl_result h3
    · exact writeEdge_of (g := ⟨g2.vs, { g.adj with vertices := l }⟩) hwe
    · exact writeEdge_of (g := ⟨g2.vs, adj⟩) (by rw [he]; exact w1)
  · exact tryAddEdge_of h1 h2 hI

/-- An insertion followed by an assignment to the edge inserted. -/
theorem tryAddEdge_new (hi : CMInv key dflt ordV rep dir hasOut k ke kv g log) {g1 : MixedC α R β}
    {u v : Int} {b : β} {f : EdgeN Int} (h : g.tryAddEdge dflt rep o junk u v b = some (g1, some f)) (e : EdgeN Int) (x : β)
    (he : e.2.2 = f.2.2) :
    ∃ g1', g1.writeEdge e x = some g1' ∧ g.tryAddEdge dflt rep o junk u v x = some (g1', some f) := by
  obtain ⟨hg, hb, hu⟩ := goodEdges (o := o) hi
  obtain ⟨g2, l, adj, h1, h2, h3, rfl⟩ := tryAddEdge_cases h
  rcases EdgeList.write_new (rep := rep) hb hg (Nat.lt_succ_self _) u v b x with ⟨w1, -⟩ | ⟨el1, -, w2, w3⟩
  · rw [tryAdd_ok _ _ _ hu] at w1; cases w1
  · have hI := AdjC.impl_edges (g := { g.adj with vertices := l }) (o := o) (junk := junk) w3
    rw [h3] at hI
    obtain ⟨-, ⟨h4, -⟩ | ⟨h4, h5⟩⟩ := AdjC.impl_result h3
    · cases h4
    · refine ⟨⟨g2.vs, { adj with edges := el1 }⟩, ?_, ?_⟩
      · refine writeEdge_of (g := ⟨g2.vs, adj⟩) ?_
        rw [h5]
        have hf : e.2.2 = (g.adj.edges.tryAddEdge rep (fun _ => (0 : Nat)) o.edge u v b).2.1.2.2 := by
          rw [he, Option.some.inj h4]
        unfold EdgeList.write at w2 ⊢
        rw [hf]
        exact w2
      · exact tryAddEdge_of (adj' := g.adj) h1 h2 hI

/-- The ids returned are different. -/
theorem MadeC.idsNodup (h : MadeC key dflt ordV rep o junk dir hasOut k ke kv g log) (hk : hasOut = false → k.assoc = false)
    (hke : ke.assoc = false) : (edgeIds log).Nodup := by
  obtain ⟨es, l, -, a2, -, -, a5, -, -⟩ := (h.inv hk hke).edges
  unfold edgeIds
  rw [a5, List.map_map]
  exact a2.idn

/-- An assignment to an edge gives a graph that insertions alone reach: those of the history, where the one that added the edge has the
new bundle. -/
theorem MadeC.writeEdge (h : MadeC key dflt ordV rep o junk dir hasOut k ke kv g log) (hk : hasOut = false → k.assoc = false)
    (hke : ke.assoc = false) {e : EdgeN Int} (he : e.2.2 ∈ edgeIds log) (x : β) :
    ∃ g', g.writeEdge e x = some g' ∧
      MadeC key dflt ordV rep o junk dir hasOut k ke kv g' (log.map (setBundle e.2.2 x)) := by
  induction h with
  | init => simp [edgeIds, edgeCalls] at he
  | @snoc g log c g1 a hm hl hs ih =>
    rw [List.map_append]
    cases c with
    | vertex y =>
      simp only [MixedC.insert, Option.some.injEq, Prod.mk.injEq] at hs
      obtain ⟨rfl, rfl⟩ := hs
      rw [edgeIds_append] at he
      have he' : e.2.2 ∈ edgeIds log := by simpa [edgeIds, edgeCalls] using he
      obtain ⟨g', hw, hm'⟩ := ih he'
      obtain ⟨el, hwe, rfl⟩ := writeEdge_some hw
      refine ⟨_, writeEdge_of (g := (g.tryAddVertex key ordV y).1) hwe, ?_⟩
      exact hm'.snoc (hl.setBundle _ _) rfl
    | edge u v b =>
      have hm1 := hm.snoc hl hs
      cases ht : g.tryAddEdge dflt rep o junk u v b with
      | none => simp only [MixedC.insert, ht, Option.map_none] at hs; cases hs
      | some r =>
        obtain ⟨g2, f⟩ := r
        simp only [MixedC.insert, ht, Option.map_some, Option.some.injEq, Prod.mk.injEq] at hs
        obtain ⟨rfl, rfl⟩ := hs
        by_cases hin : e.2.2 ∈ edgeIds log
        · obtain ⟨g', hw, hm'⟩ := ih hin
          obtain ⟨g1', w1, w2⟩ := tryAddEdge_write (hm.inv hk hke) hw ht
          refine ⟨g1', w1, ?_⟩
          have hlast : [((.edge u v b : Insert α β), Got.edge f)].map (setBundle e.2.2 x) = [(.edge u v b, .edge f)] := by
            cases f with
            | none => rfl
            | some f =>
              have hnd := hm1.idsNodup hk hke
              rw [edgeIds_append] at hnd
              have hne : f.2.2 ≠ e.2.2 := by
                intro e'
                have := (List.nodup_append.mp hnd).2.2 _ hin f.2.2 (by simp [edgeIds, edgeCalls])
                exact this e'.symm
              simp [setBundle, hne]
          rw [hlast]
          exact hm'.snoc (hl.setBundle _ _) (by simp only [MixedC.insert, w2, Option.map_some])
        · rw [edgeIds_append, List.mem_append] at he
          have he' := he.resolve_left hin
          cases f with
          | none => simp [edgeIds, edgeCalls] at he'
          | some f =>
            have hef : e.2.2 = f.2.2 := by simpa [edgeIds, edgeCalls] using he'
            obtain ⟨g1', w1, w2⟩ := tryAddEdge_new (hm.inv hk hke) ht e x hef
            refine ⟨g1', w1, ?_⟩
            rw [setBundle_other hin]
            have hlast : [((.edge u v b : Insert α β), Got.edge (some f))].map (setBundle e.2.2 x) =
                [(.edge u v x, .edge (some f))] := by simp [setBundle, hef]
            rw [hlast]
            refine hm.snoc ?_ (by simp only [MixedC.insert, w2, Option.map_some])
            exact hl

/-- The insertions have the vertices and the ends and answers of the calls. -/
theorem insertions_calls (H : List (Event α β)) :
    vertexCalls (insertions H) = vertexCalls (calls H) ∧ (∀ n, numbered n (insertions H) = numbered n (calls H)) ∧
      (edgeCalls (insertions H)).map (fun c => ((c.1.1, c.1.2.1, ()), c.2)) =
        (edgeCalls (calls H)).map (fun c => ((c.1.1, c.1.2.1, ()), c.2)) := by
  induction H using List.reverseRecOn with
  | nil => exact ⟨rfl, fun _ => rfl, rfl⟩
  | append_singleton H ev ih =>
    obtain ⟨h1, h2, h3⟩ := ih
    cases ev with
    | call c a =>
      rw [insertions_call, calls_call]
      refine ⟨by rw [vertexCalls_append, vertexCalls_append, h1], fun n => by rw [numbered_append, numbered_append, h2], ?_⟩
      rw [edgeCalls_append, edgeCalls_append, List.map_append, List.map_append, h3]
    | setEdge e x =>
      rw [insertions_setEdge, calls_setEdge]
      refine ⟨by rw [vertexCalls_setBundle, h1], fun n => by rw [numbered_setBundle, h2], ?_⟩
      rw [edgeCalls_setBundle, ← h3, List.map_map]
      refine List.map_congr_left fun c _ => ?_
      obtain ⟨c, _ | f⟩ := c <;> rfl
    | setVertex v x =>
      rw [insertions_setVertex, calls_setVertex]
      exact ⟨h1, h2, h3⟩

theorem LegalC.insertions {c : Insert α β} (h : LegalC k ke kv (calls H) c) : LegalC k ke kv (Storage.insertions H) c := by
  obtain ⟨h1, h2, h3⟩ := insertions_calls H
  have h4 : (edgeCalls (Storage.insertions H)).length = (edgeCalls (calls H)).length := by
    simpa using congrArg List.length h3
  cases c with
  | vertex y =>
    simp only [LegalC, Legal] at h ⊢
    rw [h2]
    exact h
  | edge u v b =>
    simp only [LegalC, Legal] at h ⊢
    rw [h1, h4]
    exact h

theorem edgeIds_insertions (H : List (Event α β)) : edgeIds (insertions H) = edgeIds (calls H) := by
  have h := congrArg (fun l => (l.filterMap Prod.snd).map fun e : Int × Int × Int => e.2.2) (insertions_calls H).2.2
  simp only [List.filterMap_map] at h
  exact h

theorem mem_edgeIds {id : Int} : id ∈ edgeIds log ↔ ∃ c ∈ edgeCalls log, ∃ f, c.2 = some f ∧ f.2.2 = id := by
  simp only [edgeIds, List.mem_map, List.mem_filterMap]
  constructor
  · rintro ⟨f, ⟨c, hc, hf⟩, rfl⟩
    exact ⟨c, hc, f, hf, rfl⟩
  · rintro ⟨c, hc, f, hf, rfl⟩
    exact ⟨f, ⟨c, hc, hf⟩, rfl⟩

/-! ### Assignments to vertices -/

/-- The same vertices, possibly with other bundles. -/
structure Like (F : Int → Option α) (c c0 : Cont α) : Prop where
  kind : c.kind = c0.kind
  next : c.next = c0.next
  addr : c.items.map Prod.fst = c0.items.map Prod.fst
  assoc : c0.kind.assoc = true → c = c0 ∧ ∀ v, F v = none
  vals : ∀ v, c.at v = (c0.at v).map fun y => (F v).getD y
  old : ∀ v, c0.at v = none → F v = none

variable {F : Int → Option α} {c c0 : Cont α}

theorem Like.length (h : Like F c c0) : c.items.length = c0.items.length := by
  simpa using congrArg List.length h.addr

theorem Like.ids (h : Like F c c0) : c.ids = c0.ids := by
  unfold Cont.ids Cont.idEnd
  rw [h.kind, h.length]
  have := congrArg (List.map fun n : Nat => (n : Int)) h.addr
  rw [List.map_map, List.map_map] at this
  rw [show (c.items.map fun p => (p.1 : Int)) = c0.items.map fun p => (p.1 : Int) from this]

/-- New elements behind the others. -/
theorem at_append (c : Cont α) (l : List (Nat × α)) (n : Nat) (v : Int) :
    (⟨c.kind, c.items ++ l, n⟩ : Cont α).at v = (c.at v).or
      (if c.kind.ra then if 0 ≤ v then (l.map Prod.snd)[v.toNat - c.items.length]? else none
        else (l.find? fun p => (p.1 : Int) == v).map Prod.snd) := by
  unfold Cont.at Cont.values
  cases hk : c.kind.ra
  · simp only [Bool.false_eq_true, if_false, List.find?_append, Option.map_or]
  · simp only [if_true]
    by_cases h0 : 0 ≤ v
    · simp only [if_pos h0, List.map_append]
      by_cases h1 : v.toNat < c.items.length
      · rw [List.getElem?_append_left (by simpa using h1), List.getElem?_eq_getElem (by simpa using h1)]
        rfl
      · rw [List.getElem?_append_right (by simpa using h1),
          List.getElem?_eq_none (l := c.items.map Prod.snd) (by simpa using h1), Option.none_or, List.length_map]
    · simp only [if_neg h0, Option.none_or]

theorem Like.append (h : Like F c c0) (hk : c0.kind.assoc = false) (l : List (Nat × α)) (n : Nat) :
    Like F ⟨c.kind, c.items ++ l, n⟩ ⟨c0.kind, c0.items ++ l, n⟩ := by
  refine ⟨h.kind, rfl, ?_, ?_, ?_, ?_⟩
  · simp only [List.map_append, h.addr]
  · intro ha
    rw [hk] at ha; cases ha
  · intro v
    rw [at_append, at_append, h.kind, h.length, h.vals v]
    cases hv : c0.at v with
    | some y => rfl
    | none =>
      rw [h.old v hv]
      simp
  · intro v hv
    rw [at_append, Option.or_eq_none_iff] at hv
    exact h.old v hv.1

theorem Like.emplace (h : Like F c c0) (x : α) :
    Like F (c.idEmplace key ordV x).1 (c0.idEmplace key ordV x).1 ∧
      (c.idEmplace key ordV x).2 = (c0.idEmplace key ordV x).2 := by
  cases ha : c0.kind.assoc with
  | true =>
    obtain ⟨rfl, hF⟩ := h.assoc ha
    refine ⟨⟨rfl, rfl, rfl, fun _ => ⟨rfl, hF⟩, fun v => ?_, fun v _ => hF v⟩, rfl⟩
    simp [hF v]
  | false =>
    have hs : ∀ d : Cont α, d.kind = c0.kind → d.emplace key ordV x =
        (⟨d.kind, d.items ++ [(d.next, x)], d.next + 1⟩, (d.items ++ [(d.next, x)]).findIdx fun p => p.1 == d.next, true) := by
      intro d hd
      have h1 : d.kind.unique = false := by rw [hd]; revert ha; cases c0.kind <;> simp [Kind.assoc, Kind.unique]
      have h2 : d.kind.hashed = false := by rw [hd]; revert ha; cases c0.kind <;> simp [Kind.assoc, Kind.hashed]
      have h3 : d.kind.sorted = false := by rw [hd]; revert ha; cases c0.kind <;> simp [Kind.assoc, Kind.sorted]
      simp [Cont.emplace, Cont.inserted, h1, h2, h3]
    have e1 := hs c h.kind
    have e2 := hs c0 rfl
    have hl := h.append ha [(c0.next, x)] (c0.next + 1)
    have hidx : ∀ l : List (Nat × α), (l.findIdx fun p => p.1 == c0.next) = (l.map Prod.fst).findIdx fun n => n == c0.next := by
      intro l
      rw [List.findIdx_map]; rfl
    unfold Cont.idEmplace
    rw [e1, e2, h.next]
    refine ⟨hl, ?_⟩
    have hf : ((c.items ++ [(c0.next, x)]).findIdx fun p => p.1 == c0.next) =
        (c0.items ++ [(c0.next, x)]).findIdx fun p => p.1 == c0.next := by
      rw [hidx, hidx, hl.addr]
    have hi : ∀ i, (⟨c.kind, c.items ++ [(c0.next, x)], c0.next + 1⟩ : Cont α).iteratorToId i =
        (⟨c0.kind, c0.items ++ [(c0.next, x)], c0.next + 1⟩ : Cont α).iteratorToId i := by
      intro i
      unfold Cont.iteratorToId
      rw [h.kind]
      split
      · rfl
      · have h1 := congrArg (fun l : List Nat => l[i]?) hl.addr
        simp only [List.getElem?_map] at h1
        cases hx : (c.items ++ [(c0.next, x)])[i]? <;> cases hy : (c0.items ++ [(c0.next, x)])[i]? <;>
          rw [hx, hy] at h1 <;> simp_all
    simp only
    rw [hf, hi]

theorem Like.resize (h : Like F c c0) (hk : c0.kind.assoc = false) (dflt : α) {n : Nat} (hn : c0.items.length ≤ n) :
    Like F (resizeVec c dflt n) (resizeVec c0 dflt n) := by
  have hl := h.length
  unfold resizeVec
  rw [List.take_of_length_le (by omega), List.take_of_length_le hn, hl, h.next]
  exact h.append hk _ _

theorem Like.growTo {adj : AdjC Int R β} (h : Like F c c0) {u v : Int} {g2 : MixedC α R β}
    (hg : MixedC.growTo dflt ⟨c0, adj⟩ u v = some g2) :
    ∃ c', MixedC.growTo dflt ⟨c, adj⟩ u v = some ⟨c', adj⟩ ∧ Like F c' g2.vs ∧ g2.adj = adj := by
  simp only [MixedC.growTo, MixedC.vertexCount] at hg ⊢
  rw [h.kind, h.length]
  by_cases h1 : c0.kind.ra = true
  · rw [if_pos h1] at hg ⊢
    have ha : c0.kind.assoc = false := by revert h1; cases c0.kind <;> simp [Kind.ra, Kind.assoc]
    by_cases h2 : max u v ≥ (c0.items.length : Int)
    · rw [if_pos h2] at hg ⊢
      by_cases h3 : max u v < 2 ^ 31 - 1
      · rw [if_pos h3] at hg ⊢
        obtain rfl := Option.some.inj hg
        exact ⟨_, rfl, h.resize ha dflt (by omega), rfl⟩
      · rw [if_neg h3] at hg; cases hg
    · rw [if_neg h2] at hg ⊢
      obtain rfl := Option.some.inj hg
      exact ⟨c, rfl, h, rfl⟩
  · rw [if_neg h1] at hg ⊢
    obtain rfl := Option.some.inj hg
    exact ⟨c, rfl, h, rfl⟩

/-- A call after assignments to vertices. -/
theorem Like.insert {adj : AdjC Int R β} (h : Like F c c0) {i : Insert α β} {g1 : MixedC α R β} {a : Got}
    (hs : MixedC.insert key dflt ordV rep o junk ⟨c0, adj⟩ i = some (g1, a)) :
    ∃ c', MixedC.insert key dflt ordV rep o junk ⟨c, adj⟩ i = some (⟨c', g1.adj⟩, a) ∧ Like F c' g1.vs := by
  cases i with
  | vertex x =>
    simp only [MixedC.insert, MixedC.tryAddVertex, Option.some.injEq, Prod.mk.injEq] at hs ⊢
    obtain ⟨rfl, rfl⟩ := hs
    obtain ⟨h1, h2⟩ := h.emplace (key := key) (ordV := ordV) x
    exact ⟨_, ⟨rfl, by rw [h2]⟩, h1⟩
  | edge u v b =>
    cases ht : MixedC.tryAddEdge dflt rep o junk ⟨c0, adj⟩ u v b with
    | none => simp only [MixedC.insert, ht, Option.map_none] at hs; cases hs
    | some r =>
      obtain ⟨g2, f⟩ := r
      simp only [MixedC.insert, ht, Option.map_some, Option.some.injEq, Prod.mk.injEq] at hs
      obtain ⟨rfl, rfl⟩ := hs
      obtain ⟨g3, l, adj', h1, h2, h3, rfl⟩ := tryAddEdge_cases ht
      obtain ⟨c', k1, k2, -⟩ := h.growTo h1
      refine ⟨c', ?_, k2⟩
      have := tryAddEdge_of (g := ⟨c, adj⟩) (adj' := adj) k1 (k2.ids.trans h2) h3
      simp only [MixedC.insert, this, Option.map_some]

theorem Like.write (h : Like F c c0) (ha : c0.kind.assoc = false) {v : Int} {x : α} {c' : Cont α}
    (hw : Storage.writeVertex c v x = some c') : Like (fun w => if v = w then some x else F w) c' c0 := by
  unfold Storage.writeVertex at hw
  cases hv : c.at v with
  | none => rw [hv] at hw; cases hw
  | some y =>
    rw [hv] at hw
    obtain rfl := Option.some.inj hw
    refine ⟨h.kind, h.next, (modify_items c v _).1.trans h.addr, fun h1 => absurd (ha.symm.trans h1) (by simp), fun w => ?_, fun w hw => ?_⟩
    · rw [at_modify]
      by_cases hvw : v = w
      · subst hvw
        rw [if_pos rfl, if_pos rfl, h.vals, Option.map_map]
        rfl
      · rw [if_neg (Ne.symm hvw), if_neg hvw, h.vals]
    · by_cases hvw : v = w
      · subst hvw
        rw [h.vals, hw] at hv; cases hv
      · rw [if_neg hvw]; exact h.old w hw

/-! ### Programs -/

/-- What holds after a program: without the assignments to vertices and with the bundles of edges assigned before, insertions alone reach
the graph. -/
structure Ghost (key : α → κ) (dflt : α) (ordV : Order α) (rep : Rep Int R) (o : OrdersC Int R β) (junk : Int) (dir : Dir)
    (hasOut : Bool) (k ke kv : Kind) (g g0 : MixedC α R β) (H : List (Event α β)) : Prop where
  made : MadeC key dflt ordV rep o junk dir hasOut k ke kv g0 (insertions H)
  adj : g.adj = g0.adj
  like : Like (lastValue H) g.vs g0.vs
  set : ∀ id x, lastBundle H id = some x → id ∈ edgeIds (calls H)
  mem : ∀ cl ∈ edgeCalls (calls H), ∀ f, cl.2 = some f →
    ((cl.1.1, cl.1.2.1, (lastBundle H f.2.2).getD cl.1.2.2), some f) ∈ edgeCalls (insertions H)

theorem Ghost.call (h : Ghost key dflt ordV rep o junk dir hasOut k ke kv g g0 H) (hk : hasOut = false → k.assoc = false)
    (hke : ke.assoc = false) {i : Insert α β} (hl : LegalC k ke kv (calls H) i) :
    ∃ g' g0' a, g.insert key dflt ordV rep o junk i = some (g', a) ∧
      Ghost key dflt ordV rep o junk dir hasOut k ke kv g' g0' (H ++ [.call i a]) := by
  obtain ⟨g0', a, h1, h2⟩ := mixedC_insert h.made hk hke hl.insertions
  obtain ⟨gvs, gadj⟩ := g
  obtain ⟨gvs0, gadj0⟩ := g0
  obtain rfl : gadj = gadj0 := h.adj
  obtain ⟨c', h3, h4⟩ := h.like.insert h1
  refine ⟨_, g0', a, h3, ?_, rfl, ?_, ?_, ?_⟩
  · rw [insertions_call]; exact h2
  · rw [lastValue_call]; exact h4
  · intro id x hx
    rw [lastBundle_call] at hx
    rw [calls_call, edgeIds_append]
    exact List.mem_append_left _ (h.set id x hx)
  · intro cl hc f hf
    rw [calls_call, edgeCalls_append, List.mem_append] at hc
    rw [lastBundle_call, insertions_call, edgeCalls_append, List.mem_append]
    rcases hc with hc | hc
    · exact Or.inl (h.mem cl hc f hf)
    · right
      have hnd := h2.idsNodup hk hke
      rw [edgeIds_append] at hnd
      have hnone : lastBundle H f.2.2 = none := by
        cases hb : lastBundle H f.2.2 with
        | none => rfl
        | some x =>
          have h5 := h.set _ _ hb
          rw [← edgeIds_insertions] at h5
          exact absurd rfl ((List.nodup_append.mp hnd).2.2 _ h5 f.2.2 (mem_edgeIds.mpr ⟨cl, hc, f, hf, rfl⟩))
      rw [hnone]
      obtain ⟨⟨u, v, b⟩, o'⟩ := cl
      dsimp only at hf
      subst hf
      exact hc

theorem Ghost.setEdge (h : Ghost key dflt ordV rep o junk dir hasOut k ke kv g g0 H) (hk : hasOut = false → k.assoc = false)
    (hke : ke.assoc = false) {e : EdgeN Int} (x : β) (he : e.2.2 ∈ edgeIds (calls H)) :
    ∃ g' g0', g.writeEdge e x = some g' ∧
      Ghost key dflt ordV rep o junk dir hasOut k ke kv g' g0' (H ++ [.setEdge e x]) := by
  obtain ⟨gvs, gadj⟩ := g
  obtain ⟨gvs0, gadj0⟩ := g0
  obtain rfl : gadj = gadj0 := h.adj
  obtain ⟨g0', h1, h2⟩ := h.made.writeEdge hk hke (e := e) (by rw [edgeIds_insertions]; exact he) x
  obtain ⟨el, h3, rfl⟩ := writeEdge_some h1
  refine ⟨_, ⟨gvs0, { gadj with edges := el }⟩, writeEdge_of (g := ⟨gvs, gadj⟩) h3, ?_, rfl, ?_, ?_, ?_⟩
  · rw [insertions_setEdge]; exact h2
  · rw [lastValue_setEdge]; exact h.like
  · intro id y hy
    rw [lastBundle_setEdge] at hy
    rw [calls_setEdge]
    by_cases hid : e.2.2 = id
    · rw [← hid]; exact he
    · rw [if_neg hid] at hy; exact h.set id y hy
  · intro cl hc f hf
    rw [calls_setEdge] at hc
    rw [insertions_setEdge, edgeCalls_setBundle, lastBundle_setEdge]
    refine List.mem_map.mpr ⟨_, h.mem cl hc f hf, ?_⟩
    simp only [setCall, Prod.mk.injEq, true_and]
    by_cases hid : e.2.2 = f.2.2
    · rw [if_pos hid, if_pos hid.symm]; exact ⟨rfl, trivial⟩
    · rw [if_neg hid, if_neg (Ne.symm hid)]; exact ⟨rfl, trivial⟩

theorem Ghost.setVertex (h : Ghost key dflt ordV rep o junk dir hasOut k ke kv g g0 H) (hk : hasOut = false → k.assoc = false)
    (hke : ke.assoc = false) (hkv : kv.assoc = false) {v : Int} {x : α} {g' : MixedC α R β} (hw : g.writeVertex v x = some g') :
    Ghost key dflt ordV rep o junk dir hasOut k ke kv g' g0 (H ++ [.setVertex v x]) := by
  have hkind := (h.made.vsFacts hk hke).1
  unfold MixedC.writeVertex at hw
  cases hc : Storage.writeVertex g.vs v x with
  | none => rw [hc] at hw; cases hw
  | some c' =>
    rw [hc] at hw
    obtain rfl := Option.some.inj hw
    refine ⟨?_, h.adj, ?_, ?_, ?_⟩
    · rw [insertions_setVertex]; exact h.made
    · have := h.like.write (by rw [hkind]; exact hkv) hc
      rw [show lastValue (H ++ [.setVertex v x]) = fun w => if v = w then some x else lastValue H w from
        funext fun w => lastValue_setVertex H v x w]
      exact this
    · rw [lastBundle_setVertex, calls_setVertex]; exact h.set
    · rw [lastBundle_setVertex, calls_setVertex, insertions_setVertex]; exact h.mem

theorem MadeW.ghost (h : MadeW key dflt ordV rep o junk dir hasOut k ke kv g H) (hk : hasOut = false → k.assoc = false)
    (hke : ke.assoc = false) : ∃ g0, Ghost key dflt ordV rep o junk dir hasOut k ke kv g g0 H := by
  induction h with
  | init =>
    refine ⟨_, MadeC.init, rfl, ⟨rfl, rfl, rfl, fun _ => ⟨rfl, fun _ => rfl⟩, fun v => ?_, fun _ _ => rfl⟩, ?_, ?_⟩
    · simp [lastValue]
    · intro id x hx; simp [lastBundle] at hx
    · intro cl hc; simp [calls, edgeCalls] at hc
  | @call g H c g' a hm hl hs ih =>
    obtain ⟨g0, hg⟩ := ih
    obtain ⟨g1, g1', a', h1, h2⟩ := hg.call hk hke hl
    rw [hs] at h1
    obtain ⟨rfl, rfl⟩ := Prod.mk.inj (Option.some.inj h1)
    exact ⟨_, h2⟩
  | @setEdge g H e x g' hm he hs ih =>
    obtain ⟨g0, hg⟩ := ih
    obtain ⟨g1, g1', h1, h2⟩ := hg.setEdge hk hke x (mem_edgeIds.mpr he)
    rw [hs] at h1
    obtain rfl := Option.some.inj h1
    exact ⟨_, h2⟩
  | @setVertex g H v x g' hm hkv hs ih =>
    obtain ⟨g0, hg⟩ := ih
    exact ⟨g0, hg.setVertex hk hke hkv hs⟩

end Actl.Storage
