import Verif.Lemmas.MixedWrites

/-!
# C140: adjacency lists with an edge container under any mixture of insertions and assignments to bundles

* `mixedW_call`, `mixedW_setEdge`, `mixedW_setVertex`: every step of a program succeeds.
* `mixedW_vertices`: the vertices and the bundles they have.
* `mixedW_edges`: the edges, their handles and the bundles they have.
* `mixedW_graph`, `mixedW_dfs`, `mixedW_bfs`: what the searches see and answer.
-/

namespace Actl.Storage

open Actl.Ids Actl.Traversal Actl.Built

variable {α R β κ : Type} [LinearOrder κ] {key : α → κ} {dflt : α} {ordV : Order α} {rep : Rep Int R} {o : OrdersC Int R β}
  {junk : Int} {dir : Dir} {hasOut : Bool} {k ke kv : Kind} {g g0 : MixedC α R β} {H : List (Event α β)} {P : Int → Prop}

/-! ### Steps -/

/-- **C140** Every allowed call succeeds, whatever was called and assigned before. -/
theorem mixedW_call (h : MadeW key dflt ordV rep o junk dir hasOut k ke kv g H) (hk : hasOut = false → k.assoc = false)
    (hke : ke.assoc = false) {c : Insert α β} (hl : LegalC k ke kv (calls H) c) :
    ∃ g' a, g.insert key dflt ordV rep o junk c = some (g', a) ∧
      MadeW key dflt ordV rep o junk dir hasOut k ke kv g' (H ++ [.call c a]) := by
  obtain ⟨g0, hg⟩ := h.ghost hk hke
  obtain ⟨g', -, a, h1, -⟩ := hg.call hk hke hl
  exact ⟨g', a, h1, h.call hl h1⟩

/-- **C140** Every handle with the id of an edge that was returned can be assigned through. -/
theorem mixedW_setEdge (h : MadeW key dflt ordV rep o junk dir hasOut k ke kv g H) (hk : hasOut = false → k.assoc = false)
    (hke : ke.assoc = false) {e : EdgeN Int} (he : ∃ c ∈ edgeCalls (calls H), ∃ f, c.2 = some f ∧ f.2.2 = e.2.2) (x : β) :
    ∃ g', g.writeEdge e x = some g' ∧ MadeW key dflt ordV rep o junk dir hasOut k ke kv g' (H ++ [.setEdge e x]) := by
  obtain ⟨g0, hg⟩ := h.ghost hk hke
  obtain ⟨g', -, h1, -⟩ := hg.setEdge hk hke x (mem_edgeIds.mpr he)
  exact ⟨g', h1, h.setEdge he h1⟩

/-- **C140** Every vertex can be assigned through, where the container does not compare. -/
theorem mixedW_setVertex (h : MadeW key dflt ordV rep o junk dir hasOut k ke kv g H) (hkv : kv.assoc = false) {v : Int}
    (hv : (g.atVertex v).isSome = true) (x : α) :
    ∃ g', g.writeVertex v x = some g' ∧ MadeW key dflt ordV rep o junk dir hasOut k ke kv g' (H ++ [.setVertex v x]) := by
  obtain ⟨y, hy⟩ := Option.isSome_iff_exists.mp hv
  have hy' : g.vs.at v = some y := hy
  have h1 : g.writeVertex v x = some { g with vs := g.vs.modify v fun _ => x } := by
    simp only [MixedC.writeVertex, writeVertex, hy', Option.map_some]
  exact ⟨_, h1, h.setVertex hkv h1⟩

/-! ### What is there -/

theorem Ghost.sees (h : Ghost key dflt ordV rep o junk dir hasOut k ke kv g g0 H) :
    g.see = g0.see ∧ g.vertices = g0.vertices ∧ g.vertexCount = g0.vertexCount ∧
      (∀ v, g.atVertex v = (g0.atVertex v).map fun y => (lastValue H v).getD y) ∧
      ∀ v, (g.atVertex v).isSome = (g0.atVertex v).isSome := by
  have h1 := h.like.ids
  have h2 : ∀ v, g.atVertex v = (g0.atVertex v).map fun y => (lastValue H v).getD y := h.like.vals
  refine ⟨?_, h1, h.like.length, h2, fun v => by rw [h2, Option.isSome_map]⟩
  unfold MixedC.see
  rw [h1, h.adj]

/-- **C140** The vertices after any calls and assignments:
* `vertices()` are different, `vertex_count()` many, and those `graph[u]` is defined for;
* a vertex returned as new has the bundle last assigned to it, or that of the call;
* numbered vertices are `0, .., n - 1`, where the calls tell `n`, and those that no call returned have the bundle last assigned to them,
  or the value-initialized one;
* otherwise the vertices are just the new ones returned, of a list in this order;
* in containers that compare, every vertex returned has a bundle equal to that of the call. -/
theorem mixedW_vertices (h : MadeW key dflt ordV rep o junk dir hasOut k ke kv g H) (hk : hasOut = false → k.assoc = false)
    (hke : ke.assoc = false) :
    ∃ vs, g.vertices = some vs ∧ vs.Nodup ∧ vs.length = g.vertexCount ∧
      (∀ u, u ∈ vs ↔ (g.atVertex u).isSome = true) ∧
      (∀ c ∈ vertexCalls (calls H), c.2.2 = true → g.atVertex c.2.1 = some ((lastValue H c.2.1).getD c.1)) ∧
      (kv = .vec → vs = firstVertices (numbered 0 (calls H)) ∧
        ∀ u ∈ vs, (∀ c ∈ vertexCalls (calls H), c.2.1 ≠ u) → g.atVertex u = some ((lastValue H u).getD dflt)) ∧
      (kv ≠ .vec → vs.Perm (((vertexCalls (calls H)).filter fun c => c.2.2).map fun c => c.2.1)) ∧
      (kv = .list → vs = (vertexCalls (calls H)).map fun c => c.2.1) ∧
      (kv.assoc = true → ∀ c ∈ vertexCalls (calls H), ∃ y, g.atVertex c.2.1 = some y ∧ key y = key c.1) := by
  obtain ⟨g0, hg⟩ := h.ghost hk hke
  obtain ⟨-, s2, s3, s4, s5⟩ := hg.sees
  obtain ⟨i1, i2, -⟩ := insertions_calls H
  obtain ⟨vs, v1, v2, v3, v4, v5, -, -, -, v9, v10, v11, -⟩ := mixedC_vertices hg.made hk hke
  rw [i1] at v5 v9 v10 v11
  rw [i2] at v9
  refine ⟨vs, s2.trans v1, v2, v3.trans s3.symm, fun u => by rw [v4, s5], ?_, ?_, v10, v11, ?_⟩
  · intro c hc hn
    obtain ⟨y, y1, -, y3⟩ := v5 c hc
    rw [s4, y1, y3 hn]; rfl
  · intro hkv
    obtain ⟨w1, w2⟩ := v9 hkv
    refine ⟨w1, fun u hu hc => ?_⟩
    rw [s4, w2 u hu hc]; rfl
  · intro ha c hc
    obtain ⟨y, y1, y2, -⟩ := v5 c hc
    have hkind := (hg.made.vsFacts hk hke).1
    have := (hg.like.assoc (by rw [hkind]; exact ha)).1
    refine ⟨y, ?_, y2⟩
    show g.vs.at c.2.1 = some y
    rw [this]; exact y1

/-- The calls accepted are those answered with an edge. -/
theorem accept_answered {V ι η : Type} [LinearOrder V] (uq un : Bool) (cs : List ((V × V × ι) × Option η)) : ∀ st,
    (cs.map fun c => c.2.isSome) = (accept uq un st (cs.map Prod.fst)).2 →
    (accept uq un st (cs.map Prod.fst)).1 = st ++ (cs.filter fun c => c.2.isSome).map Prod.fst := by
  induction cs with
  | nil => intro st _; simp [accept]
  | cons c cs ih =>
    intro st h
    simp only [List.map_cons, accept] at h ⊢
    by_cases hd : uq = true ∧ ∃ d ∈ st, ends un d = ends un c.1
    · rw [if_pos hd] at h ⊢
      obtain ⟨h1, h2⟩ := List.cons.inj h
      rw [ih st h2, List.filter_cons_of_neg (by simp [h1])]
    · rw [if_neg hd] at h ⊢
      obtain ⟨h1, h2⟩ := List.cons.inj h
      rw [ih _ h2, List.filter_cons_of_pos (p := fun c : (V × V × ι) × Option η => c.2.isSome) h1]
      simp

theorem answered_map {σ η τ : Type} {f : η → τ} {f' : σ → τ} (cs : List (σ × Option η))
    (h : (cs.filterMap Prod.snd).map f = ((cs.filter fun c => c.2.isSome).map Prod.fst).map f') :
    ∀ c ∈ cs, ∀ e, c.2 = some e → f e = f' c.1 := by
  induction cs with
  | nil => intro c hc; cases hc
  | cons c cs ih =>
    obtain ⟨s, _ | e⟩ := c
    · have h' : (cs.filterMap Prod.snd).map f = ((cs.filter fun c => c.2.isSome).map Prod.fst).map f' := by simpa using h
      intro c hc e he
      rcases List.mem_cons.mp hc with rfl | hc
      · cases he
      · exact ih h' c hc e he
    · have h' : f e = f' s ∧ (cs.filterMap Prod.snd).map f = ((cs.filter fun c => c.2.isSome).map Prod.fst).map f' := by
        simpa using h
      intro c hc e' he
      rcases List.mem_cons.mp hc with rfl | hc
      · obtain rfl := Option.some.inj he
        exact h'.1
      · exact ih h'.2 c hc e' he

/-- Which calls are accepted does not depend on the bundles. -/
theorem accept_ends {V ι ι' : Type} [LinearOrder V] (uq un : Bool) (f : ι → ι') (cs : List (V × V × ι)) : ∀ st,
    (accept uq un (st.map fun c => (c.1, c.2.1, f c.2.2)) (cs.map fun c => (c.1, c.2.1, f c.2.2))).2 = (accept uq un st cs).2 := by
  induction cs with
  | nil => intro st; rfl
  | cons c cs ih =>
    intro st
    simp only [List.map_cons, accept]
    have hiff : (uq = true ∧ ∃ d ∈ st.map (fun c => (c.1, c.2.1, f c.2.2)), ends un d = ends un (c.1, c.2.1, f c.2.2)) ↔
        uq = true ∧ ∃ d ∈ st, ends un d = ends un c := by
      refine and_congr_right fun _ => ⟨?_, ?_⟩
      · rintro ⟨d, hd, he⟩
        obtain ⟨d', hd', rfl⟩ := List.mem_map.mp hd
        exact ⟨d', hd', he⟩
      · rintro ⟨d, hd, he⟩
        exact ⟨_, List.mem_map_of_mem hd, he⟩
    by_cases hd : uq = true ∧ ∃ d ∈ st, ends un d = ends un c
    · rw [if_pos hd, if_pos (hiff.mpr hd), ih]
    · rw [if_neg hd, if_neg (mt hiff.mp hd)]
      have := ih (st ++ [c])
      rw [List.map_append] at this
      exact congrArg (true :: ·) this

/-- **C140** The edges after any calls and assignments; `hs` are the handles returned for the edges added.
* the answers are those of the specification, which does not look at bundles, and `edge_count()` is the number of edges added;
* the handles have different ids; each has the ends of the call that returned it and, through `graph[e]`, the bundle last assigned to it,
  or that of the call;
* the out-edges of a vertex are the handles of the edges that start there, or end there if undirected (in the order of insertion for a
  sequence); so the bundles that the out-edges show are the same;
* the in-edges of a bidirectional graph are just the out-edges that lead to the vertex;
* `edges()` yields every edge added once, with the id of its handle, if there is any vertex. -/
theorem mixedW_edges (h : MadeW key dflt ordV rep o junk dir hasOut k ke kv g H) (hk : hasOut = false → k.assoc = false)
    (hke : ke.assoc = false) (hr : hasOut = false → GoodRep rep dir P) (hP : ∀ v, (kv = .vec → IsInt v) → P v) :
    ∃ (a : AdjC Int R β) (vs : List Int) (hs : List (EdgeN Int)),
      g.see = some a ∧ g.vertices = some vs ∧ a.vertices = vs ∧ hs = (edgeCalls (calls H)).filterMap Prod.snd ∧
      ((edgeCalls (calls H)).map fun c => c.2.isSome) = (accept k.unique dir.un [] ((edgeCalls (calls H)).map Prod.fst)).2 ∧
      a.edgeCount = hs.length ∧
      (∀ c ∈ edgeCalls (calls H), c.1.1 ∈ vs ∧ c.1.2.1 ∈ vs) ∧
      (hs.map fun e => e.2.2).Nodup ∧
      (∀ c ∈ edgeCalls (calls H), ∀ e, c.2 = some e →
        e.1 = c.1.1 ∧ e.2.1 = c.1.2.1 ∧ a.bundle e = some ((lastBundle H e.2.2).getD c.1.2.2)) ∧
      (∀ u ∈ vs, ∃ l, a.outEdges rep u = some l ∧ l.Perm ((outOf dir.un hs u).map fun d => (u, d.1, d.2)) ∧
        (k.assoc = false → l = (outOf dir.un hs u).map fun d => (u, d.1, d.2))) ∧
      (dir = .bidirectional → ∀ u ∈ vs, ∃ m, a.inEdges rep u = some m ∧
        m.Perm ((vs.flatMap fun w => (a.outEdges rep w).getD []).filter fun e => decide (e.2.1 = u))) ∧
      (vs ≠ [] → ∃ l, (∀ fuel, l.length < fuel → a.allEdges rep fuel = some l) ∧
        (l.map fun e => ((e.1, e.2.1), e.2.2)).Perm (hs.map fun e => (ends dir.un e, e.2.2))) := by
  obtain ⟨g0, hg⟩ := h.ghost hk hke
  obtain ⟨s1, s2, -⟩ := hg.sees
  have i3 := (insertions_calls H).2.2
  obtain ⟨a, vs, hs, b1, b2, b3, b4, b5, b6, b7, b8, b9, b10, b11, -, b13⟩ := mixedC_edges hg.made hk hke hr hP
  have hhs : hs = (edgeCalls (calls H)).filterMap Prod.snd := by
    have := congrArg (List.filterMap Prod.snd) i3
    simp only [List.filterMap_map] at this
    exact b4.trans this
  have hends : ∀ c ∈ edgeCalls (calls H), c.1.1 ∈ vs ∧ c.1.2.1 ∈ vs := by
    intro c hc
    have : ((c.1.1, c.1.2.1, ()), c.2) ∈ (edgeCalls (insertions H)).map fun c => ((c.1.1, c.1.2.1, ()), c.2) := by
      rw [i3]; exact List.mem_map_of_mem hc
    obtain ⟨d, hd, he⟩ := List.mem_map.mp this
    have := b7 d hd
    simp only [Prod.mk.injEq] at he
    rwa [he.1.1, he.1.2.1] at this
  refine ⟨a, vs, hs, s1.trans b1, s2.trans b2, b3, hhs, ?_, b6, hends, b8, ?_, b10, b11, b13⟩
  · have e1 := congrArg (List.map fun c : (Int × Int × Unit) × Option (EdgeN Int) => c.2.isSome) i3
    have e2 := congrArg (List.map fun c : (Int × Int × Unit) × Option (EdgeN Int) => c.1) i3
    rw [List.map_map, List.map_map] at e1 e2
    have a1 := accept_ends k.unique dir.un (fun _ : β => ()) ((edgeCalls (insertions H)).map Prod.fst) []
    have a2 := accept_ends k.unique dir.un (fun _ : β => ()) ((edgeCalls (calls H)).map Prod.fst) []
    rw [List.map_map] at a1 a2
    refine Eq.trans ?_ (b5.trans ?_)
    · exact e1.symm
    · rw [← a1, ← a2]
      exact congrArg (fun l => (accept k.unique dir.un ([] : List (Int × Int × Unit)) l).2) e2
  · intro c hc e he
    have hm := hg.mem c hc e he
    rw [accept_answered _ _ _ _ b5, List.nil_append, b4] at b9
    have := answered_map _ b9 _ hm e rfl
    simp only [Prod.mk.injEq] at this
    exact this

/-! ### Searches -/

theorem link_calls (un : Bool) (H : List (Event α β)) :
    Link un ((edgeCalls (insertions H)).map Prod.fst) = Link un ((edgeCalls (calls H)).map Prod.fst) := by
  have hl : ∀ (cs : List ((Int × Int × β) × Option (EdgeN Int))) (u v : Int), Link un (cs.map Prod.fst) u v ↔
      Link un ((cs.map fun c => ((c.1.1, c.1.2.1, ()), c.2)).map Prod.fst) u v := by
    intro cs u v
    constructor
    · rintro ⟨e, he, h⟩
      obtain ⟨c, hc, rfl⟩ := List.mem_map.mp he
      exact ⟨(c.1.1, c.1.2.1, ()), List.mem_map.mpr ⟨_, List.mem_map_of_mem hc, rfl⟩, h⟩
    · rintro ⟨e, he, h⟩
      obtain ⟨d, hd, rfl⟩ := List.mem_map.mp he
      obtain ⟨c, hc, rfl⟩ := List.mem_map.mp hd
      exact ⟨c.1, List.mem_map_of_mem hc, h⟩
  funext u v
  rw [eq_iff_iff, hl, hl, (insertions_calls H).2.2]

theorem steps_congr {V ι : Type} {un : Bool} {es es' : List (V × V × ι)} (h : Link un es = Link un es') :
    ∀ m u v, Steps un es m u v = Steps un es' m u v := by
  intro m
  induction m with
  | zero => intro u v; rfl
  | succ m ih =>
    intro u v
    simp only [Steps, ih, h]

/-- **C140** What a search sees after any calls and assignments: `vertices()`, and just the edges of the calls. -/
theorem mixedW_graph (h : MadeW key dflt ordV rep o junk dir hasOut k ke kv g H) (hk : hasOut = false → k.assoc = false)
    (hke : ke.assoc = false) (hr : hasOut = false → GoodRep rep dir P) (hP : ∀ v, (kv = .vec → IsInt v) → P v) :
    ∃ a vs, g.see = some a ∧ g.vertices = some vs ∧ Displays (a.graph rep) dir.un ((edgeCalls (calls H)).map Prod.fst) vs := by
  obtain ⟨a', vs', -, e1, e2, -, -, -, -, e7, -⟩ := mixedW_edges h hk hke hr hP
  obtain ⟨g0, hg⟩ := h.ghost hk hke
  obtain ⟨s1, s2, -⟩ := hg.sees
  obtain ⟨a, vs, h1, h2, h3⟩ := mixedC_graph hg.made hk hke hr hP
  obtain rfl := Option.some.inj (e2.symm.trans (s2.trans h2))
  refine ⟨a, vs', s1.trans h1, s2.trans h2, h3.vertices, ?_, h3.wf, fun u v => ?_⟩
  · intro e he
    obtain ⟨c, hc, rfl⟩ := List.mem_map.mp he
    exact e7 c hc
  · rw [← link_calls]; exact h3.adj u v

/-- **C140** Depth-first search from a vertex ends, and discovers once each just the vertices with a path from it along the edges of
the calls. -/
theorem mixedW_dfs (h : MadeW key dflt ordV rep o junk dir hasOut k ke kv g H) (hk : hasOut = false → k.assoc = false)
    (hke : ke.assoc = false) (hr : hasOut = false → GoodRep rep dir P) (hP : ∀ v, (kv = .vec → IsInt v) → P v)
    {a : AdjC Int R β} (ha : g.see = some a) {u : Int}
    (hu : (g.atVertex u).isSome = true) (flags : Int → Bool) :
    ∃ fuel flags' l, dfsFrom (a.graph rep) (discoveredFlag.fst logger) (fun _ => false) fuel u (flags, []) = some (flags', l) ∧
      (discs l).Nodup ∧ (∀ v, v ∈ discs l ↔ Path dir.un ((edgeCalls (calls H)).map Prod.fst) u v) ∧
      ∀ v, (g.atVertex v).isSome = true → (flags' v = true ↔ Path dir.un ((edgeCalls (calls H)).map Prod.fst) u v) := by
  obtain ⟨g0, hg⟩ := h.ghost hk hke
  obtain ⟨s1, -, -, -, s5⟩ := hg.sees
  obtain ⟨fuel, flags', l, d1, d2, d3, d4⟩ := mixedC_dfs hg.made hk hke hr hP (s1.symm.trans ha) (u := u) (by rw [← s5]; exact hu) flags
  unfold Path at d3 d4 ⊢
  rw [link_calls] at d3 d4
  exact ⟨fuel, flags', l, d1, d2, d3, fun v hv => d4 v (by rw [← s5]; exact hv)⟩

/-- **C140** Breadth-first search from a vertex ends, and records the number of edges of a shortest path along the edges of the calls, or
-1 if there is no path. -/
theorem mixedW_bfs (h : MadeW key dflt ordV rep o junk dir hasOut k ke kv g H) (hk : hasOut = false → k.assoc = false)
    (hke : ke.assoc = false) (hr : hasOut = false → GoodRep rep dir P) (hP : ∀ v, (kv = .vec → IsInt v) → P v)
    {a : AdjC Int R β} (ha : g.see = some a) (null : Int) {u : Int}
    (hu : (g.atVertex u).isSome = true) (d0 : Int → Int) :
    ∃ fuel d l, bfs (a.graph rep) ((distanceRecorder (a.graph rep)).fst logger) (fun _ => false) null fuel [u] (d0, []) = some (d, l) ∧
      ∀ v, (g.atVertex v).isSome = true →
        (∀ m : Nat, Steps dir.un ((edgeCalls (calls H)).map Prod.fst) m u v → 0 ≤ d v ∧ d v ≤ m) ∧
        (∀ m : Nat, d v = m → Steps dir.un ((edgeCalls (calls H)).map Prod.fst) m u v) ∧
        (d v = -1 ↔ ¬Path dir.un ((edgeCalls (calls H)).map Prod.fst) u v) := by
  obtain ⟨g0, hg⟩ := h.ghost hk hke
  obtain ⟨s1, -, -, -, s5⟩ := hg.sees
  obtain ⟨fuel, d, l, d1, d2⟩ := mixedC_bfs hg.made hk hke hr hP (s1.symm.trans ha) null (u := u) (by rw [← s5]; exact hu) d0
  refine ⟨fuel, d, l, d1, fun v hv => ?_⟩
  obtain ⟨e1, e2, e3⟩ := d2 v (by rw [← s5]; exact hv)
  have hst := fun m => steps_congr (link_calls dir.un H) m u v
  unfold Path at e3 ⊢
  rw [link_calls] at e3
  exact ⟨fun m hm => e1 m (by rw [hst]; exact hm), fun m hm => by rw [← hst]; exact e2 m hm, e3⟩

/-! ### Examples -/

/-- A step before it is answered. -/
inductive Todo (α β : Type)
  | call (c : Insert α β)
  | setEdge (e : Int × Int × Int) (x : β)
  | setVertex (v : Int) (x : α)

/-- Steps one after another, as long as they are allowed. -/
def MixedC.runW (key : α → κ) (dflt : α) (ordV : Order α) (rep : Rep Int R) (o : OrdersC Int R β) (junk : Int) (k ke kv : Kind) :
    MixedC α R β → List (Event α β) → List (Todo α β) → Option (MixedC α R β × List (Event α β))
  | g, H, [] => some (g, H)
  | g, H, .call c :: ts =>
    if LegalC k ke kv (calls H) c then
      match g.insert key dflt ordV rep o junk c with
      | none => none
      | some (g', a) => MixedC.runW key dflt ordV rep o junk k ke kv g' (H ++ [.call c a]) ts
    else none
  | g, H, .setEdge e x :: ts =>
    if e.2.2 ∈ edgeIds (calls H) then
      match g.writeEdge e x with
      | none => none
      | some g' => MixedC.runW key dflt ordV rep o junk k ke kv g' (H ++ [.setEdge e x]) ts
    else none
  | g, H, .setVertex v x :: ts =>
    if kv.assoc = false then
      match g.writeVertex v x with
      | none => none
      | some g' => MixedC.runW key dflt ordV rep o junk k ke kv g' (H ++ [.setVertex v x]) ts
    else none

/-- What such steps reach satisfies the hypothesis of the theorems. -/
theorem MixedC.runW_made {ts : List (Todo α β)} : ∀ {g : MixedC α R β} {H : List (Event α β)} {r},
    MadeW key dflt ordV rep o junk dir hasOut k ke kv g H → g.runW key dflt ordV rep o junk k ke kv H ts = some r →
    MadeW key dflt ordV rep o junk dir hasOut k ke kv r.1 r.2 := by
  induction ts with
  | nil => intro g H r h hr; rw [← Option.some.inj hr]; exact h
  | cons t ts ih =>
    intro g H r h hr
    cases t with
    | call c =>
      unfold MixedC.runW at hr
      by_cases hl : LegalC k ke kv (calls H) c
      · rw [if_pos hl] at hr
        cases hc : g.insert key dflt ordV rep o junk c with
        | none => rw [hc] at hr; cases hr
        | some p =>
          rw [hc] at hr
          exact ih (h.call hl hc) hr
      · rw [if_neg hl] at hr; cases hr
    | setEdge e x =>
      unfold MixedC.runW at hr
      by_cases hl : e.2.2 ∈ edgeIds (calls H)
      · rw [if_pos hl] at hr
        cases hc : g.writeEdge e x with
        | none => rw [hc] at hr; cases hr
        | some p =>
          rw [hc] at hr
          exact ih (h.setEdge (mem_edgeIds.mp hl) hc) hr
      · rw [if_neg hl] at hr; cases hr
    | setVertex v x =>
      unfold MixedC.runW at hr
      by_cases hl : kv.assoc = false
      · rw [if_pos hl] at hr
        cases hc : g.writeVertex v x with
        | none => rw [hc] at hr; cases hr
        | some p =>
          rw [hc] at hr
          exact ih (h.setVertex hl hc) hr
      · rw [if_neg hl] at hr; cases hr

/-- The hypothesis of the theorems holds of the empty graph, and so after all the steps of the examples. -/
example {r} {ts : List (Todo Nat String)}
    (h : (MixedC.init .undirected false .vec .list .list).runW id 0 natOrder (twoRep Int) plainC 77 .vec .list .list [] ts = some r) :
    MadeW id 0 natOrder (twoRep Int) plainC 77 .undirected false .vec .list .list r.1 r.2 := MixedC.runW_made .init h

set_option synthInstance.maxHeartbeats 400000
set_option synthInstance.maxSize 1000

/-- Vertices and edges in lists, bundles assigned between and after the insertions, one through the handle reversed. -/
example : ((MixedC.init .undirected false .vec .list .list).runW id 0 natOrder (twoRep Int) plainC 77 .vec .list .list []
      [.call (.vertex 10), .call (.vertex 20), .call (.edge 1 0 "x"), .setEdge (1, 0, 0) "y", .setVertex 0 11, .call (.edge 0 1 "z"),
        .call (.vertex 30), .setEdge (0, 1, 0) "w", .setVertex 2 31]).map
    (fun r => (r.1.vertices, [0, 1, 2].map r.1.atVertex, r.1.see.map fun a => [a.bundle (1, 0, 0), a.bundle (0, 1, 1)])) =
    some (some [0, 1, 2], [some 11, some 20, some 31], some [some "w", some "z"]) := by
  decide +kernel

/-- Numbered vertices: 1 comes to be by an edge, and keeps its bundle when the vector grows. -/
example : ((MixedC.init .directed true .set .vec .vec).runW id 0 natOrder (noRep Int) plainC 77 .set .vec .vec []
      [.call (.edge 0 1 "x"), .setVertex 1 5, .setEdge (0, 1, 0) "y", .call (.edge 3 1 "z"), .call (.edge 0 1 "v"), .call (.vertex 8)]).map
    (fun r => (r.1.vertices, [0, 1, 3, 4].map r.1.atVertex, r.1.see.map fun a => ([a.bundle (0, 1, 0), a.bundle (3, 1, 1)], a.edgeCount))) =
    some (some [0, 1, 2, 3, 4], [some 0, some 5, some 0, some 8], some ([some "y", some "z"], 2)) := by
  decide +kernel

end Actl.Storage
