import Verif.Lemmas.MixedEdges
import Verif.Props.MixedGraph
import Verif.Props.Edges

/-!
# C138: adjacency lists with an edge container under any mixture of vertex and edge insertions

* `mixedC_insert`: every allowed call succeeds; `mixedC_nextVertex`: the numbers of new vertices.
* `mixedC_vertices`: the vertices, and what the handles returned designate.
* `mixedC_edges`, `mixedC_twoEdges`: the edges, their handles and bundles.
* `mixedC_graph`, `mixedC_dfs`, `mixedC_bfs`, `mixedC_components`, `mixedC_topologicalSort`: what the searches see and answer.
* `removeVertexC_dangling_fails`, `removeVertexC_shift_fails`: `remove_vertex` removes no edges.
-/

namespace Actl.Storage

open Actl.Ids Actl.Traversal Actl.Built

variable {α R β κ : Type} [LinearOrder κ] {key : α → κ} {dflt : α} {ordV : Order α} {rep : Rep Int R} {o : OrdersC Int R β}
  {junk : Int} {dir : Dir} {hasOut : Bool} {k ke kv : Kind} {g : MixedC α R β} {log : List (Insert α β × Got)} {P : Int → Prop}

/-- **C138** Every allowed call succeeds, whatever was called before. -/
theorem mixedC_insert (h : MadeC key dflt ordV rep o junk dir hasOut k ke kv g log) (hk : hasOut = false → k.assoc = false)
    (hke : ke.assoc = false) {c : Insert α β} (hl : LegalC k ke kv log c) :
    ∃ g' a, g.insert key dflt ordV rep o junk c = some (g', a) ∧
      MadeC key dflt ordV rep o junk dir hasOut k ke kv g' (log ++ [(c, a)]) := by
  cases c with
  | vertex x => exact ⟨_, _, rfl, h.snoc hl rfl⟩
  | edge u v b =>
    obtain ⟨g', e, h1, -⟩ := (h.inv hk hke).edge o junk hl
    have h2 : g.insert key dflt ordV rep o junk (.edge u v b) = some (g', .edge e) := by
      simp only [MixedC.insert, h1, Option.map_some]
    exact ⟨_, _, h2, h.snoc hl h2⟩

/-- **C138** The vertices after any allowed calls:
* `vertices()` are different, `vertex_count()` many, and those `graph[u]` is defined for;
* every vertex ever returned is still there with its value (with an equal one, if it was there before);
* a vertex is new unless the container is unique and an equal value was added before;
* with a unique container the same vertex is returned just for equal values, otherwise always another one;
* numbered vertices are `0, .., n - 1`, where the history tells `n`, and those that no call returned have the value-initialized value;
* otherwise the vertices are just the new ones returned, of a list in this order; in a sorted container the values are in order. -/
theorem mixedC_vertices (h : MadeC key dflt ordV rep o junk dir hasOut k ke kv g log) (hk : hasOut = false → k.assoc = false)
    (hke : ke.assoc = false) :
    ∃ vs, g.vertices = some vs ∧ vs.Nodup ∧ vs.length = g.vertexCount ∧
      (∀ u, u ∈ vs ↔ (g.atVertex u).isSome = true) ∧
      (∀ c ∈ vertexCalls log, ∃ y, g.atVertex c.2.1 = some y ∧ key y = key c.1 ∧ (c.2.2 = true → y = c.1)) ∧
      (vertexCalls log).map (fun c => c.2.2) = firstOfKind kv.unique [] ((vertexCalls log).map fun c => key c.1) ∧
      (kv.unique = true → ∀ c ∈ vertexCalls log, ∀ d ∈ vertexCalls log, c.2.1 = d.2.1 ↔ key c.1 = key d.1) ∧
      (kv.unique = false → ((vertexCalls log).map fun c => c.2.1).Nodup) ∧
      (kv = .vec → vs = firstVertices (numbered 0 log) ∧
        ∀ u ∈ vs, (∀ c ∈ vertexCalls log, c.2.1 ≠ u) → g.atVertex u = some dflt) ∧
      (kv ≠ .vec → vs.Perm (((vertexCalls log).filter fun c => c.2.2).map fun c => c.2.1)) ∧
      (kv = .list → vs = (vertexCalls log).map fun c => c.2.1) ∧
      (kv.sorted = true → (vs.filterMap g.atVertex).Pairwise fun x y => key x ≤ key y) := by
  obtain ⟨m, log', s1, s2, s3, s4⟩ := (h.inv hk hke).shadow
  have hm := mixed_vertices s1
  have ha : m.atVertex = g.atVertex := by funext u; simp only [Mixed.atVertex, MixedC.atVertex, s2]
  have hv : m.vertices = g.vertices := by simp only [Mixed.vertices, MixedC.vertices, s2]
  have hc : m.vertexCount = g.vertexCount := by simp only [Mixed.vertexCount, MixedC.vertexCount, s2]
  rw [ha, hv, hc, s3, s4] at hm
  exact hm

/-- **C138** A new numbered vertex gets the next number. -/
theorem mixedC_nextVertex (h : MadeC key dflt ordV rep o junk dir hasOut k ke .vec g log) (hk : hasOut = false → k.assoc = false)
    (hke : ke.assoc = false) (hl : numbered 0 log < 2 ^ 31 - 1) (x : α) :
    ∃ g', g.insert key dflt ordV rep o junk (.vertex x) = some (g', .vertex (numbered 0 log) true) := by
  obtain ⟨m, log', s1, s2, s3, s4⟩ := (h.inv hk hke).shadow
  rw [← s4] at hl
  obtain ⟨m', hm⟩ := mixed_nextVertex s1 hl x
  refine ⟨(g.tryAddVertex key ordV x).1, ?_⟩
  simp only [Mixed.insert, Mixed.tryAddVertex, s2, Option.some.injEq, Prod.mk.injEq] at hm
  simp only [MixedC.insert, MixedC.tryAddVertex, hm.2, s4]

/-- Numbered vertices are values of `int`. -/
theorem MadeC.isInt (h : MadeC key dflt ordV rep o junk dir hasOut k ke kv g log) (hk : hasOut = false → k.assoc = false)
    (hke : ke.assoc = false) {vs : List Int} (hv : g.vs.ids = some vs) {v : Int} (hmem : v ∈ vs) (hkv : kv = .vec) : IsInt v := by
  obtain ⟨m, log', s1, s2, s3, s4⟩ := (h.inv hk hke).shadow
  have hi := s1.inv
  obtain ⟨l, b0, -, -, b3, -⟩ := ids_spec hi.wf hi.fits
  rw [s2] at b0
  obtain rfl := Option.some.inj (b0.symm.trans hv)
  have hra : m.vs.kind.ra = true := by rw [hi.kind, hkv]; rfl
  have := (isSome_at_vec hra).mp ((b3 v).mp hmem)
  have := hi.fits hra
  unfold IsInt
  omega

theorem MadeC.vsFacts (h : MadeC key dflt ordV rep o junk dir hasOut k ke kv g log) (hk : hasOut = false → k.assoc = false)
    (hke : ke.assoc = false) : g.vs.kind = kv ∧ g.vs.Fits ∧ (kv = .vec → g.vs.items.length = numbered 0 log) := by
  obtain ⟨m, log', s1, s2, s3, s4⟩ := (h.inv hk hke).shadow
  have hi := s1.inv
  rw [← s2, ← s4]
  exact ⟨hi.kind, hi.fits, hi.count⟩

theorem outOf_ids (un : Bool) (es : List (Int × Int × (β × Int))) (u : Int) :
    outOf un (es.map fun e => (e.1, e.2.1, e.2.2.2)) u = (outOf un es u).map fun d => (d.1, d.2.2) := by
  unfold outOf
  rw [List.map_filterMap, List.filterMap_map]
  refine List.filterMap_congr fun e _ => ?_
  simp only [Function.comp]
  split
  · rfl
  · split <;> rfl

/-- **C138** The edges after any allowed calls; `hs` are the handles returned for the edges added.
* the answers are those of the specification, `edge_count()` is the number of edges added, and all ends are vertices;
* the handles have different ids; each has the ends and, through `graph[e]`, the bundle of the call that returned it;
* the out-edges of a vertex are the handles of the edges that start there, or end there if undirected (in the order of insertion for a
  sequence);
* the in-edges of a bidirectional graph are just the out-edges that lead to the vertex, those of an undirected one the out-edges
  reversed;
* `edges()` yields every edge added once, with the id of its handle, if there is any vertex (see `AdjC.allEdges_empty_ub`).
What is stored of the ends in an edge is one of `good_target`, `good_xor`, `good_twoInt` for numbered vertices, `good_target`,
`good_two` for others, and anything where the out-edges have the targets. -/
theorem mixedC_edges (h : MadeC key dflt ordV rep o junk dir hasOut k ke kv g log) (hk : hasOut = false → k.assoc = false)
    (hke : ke.assoc = false) (hr : hasOut = false → GoodRep rep dir P) (hP : ∀ v, (kv = .vec → IsInt v) → P v) :
    ∃ (a : AdjC Int R β) (vs : List Int) (hs : List (EdgeN Int)),
      g.see = some a ∧ g.vertices = some vs ∧ a.vertices = vs ∧ hs = (edgeCalls log).filterMap Prod.snd ∧
      ((edgeCalls log).map fun c => c.2.isSome) = (accept k.unique dir.un [] ((edgeCalls log).map Prod.fst)).2 ∧
      a.edgeCount = hs.length ∧
      (∀ c ∈ edgeCalls log, c.1.1 ∈ vs ∧ c.1.2.1 ∈ vs) ∧
      (hs.map fun e => e.2.2).Nodup ∧
      (hs.map fun e => (e.1, e.2.1, a.bundle e)) =
        (accept k.unique dir.un [] ((edgeCalls log).map Prod.fst)).1.map (fun c => (c.1, c.2.1, some c.2.2)) ∧
      (∀ u ∈ vs, ∃ l, a.outEdges rep u = some l ∧ l.Perm ((outOf dir.un hs u).map fun d => (u, d.1, d.2)) ∧
        (k.assoc = false → l = (outOf dir.un hs u).map fun d => (u, d.1, d.2))) ∧
      (dir = .bidirectional → ∀ u ∈ vs, ∃ m, a.inEdges rep u = some m ∧
        m.Perm ((vs.flatMap fun w => (a.outEdges rep w).getD []).filter fun e => decide (e.2.1 = u))) ∧
      (dir = .undirected → ∀ u ∈ vs, ∃ l, a.outEdges rep u = some l ∧
        a.inEdges rep u = some (l.map fun e => (e.2.1, e.1, e.2.2))) ∧
      (vs ≠ [] → ∃ l, (∀ fuel, l.length < fuel → a.allEdges rep fuel = some l) ∧
        (l.map fun e => ((e.1, e.2.1), e.2.2)).Perm (hs.map fun e => (ends dir.un e, e.2.2))) := by
  have hi := h.inv hk hke
  obtain ⟨es, vs, a1, a2, a3, a4, a5, a6, a7⟩ := hi.edges
  have hPv : ∀ v ∈ vs, P v := fun v hv => hP v fun hkv => h.isInt hk hke a1 hv hkv
  have hdir := hi.dirEq
  have hout := hi.outEq
  subst hdir hout
  have hbun : ∀ e ∈ es, ({ g.adj with vertices := vs } : AdjC Int R β).bundle (e.1, e.2.1, e.2.2.2) = some e.2.2.1 := by
    intro e he
    have := a2.ids e he
    simp only [AdjC.bundle]
    rw [this]; rfl
  refine ⟨{ g.adj with vertices := vs }, vs, es.map (fun e => (e.1, e.2.1, e.2.2.2)), ?_, a1, rfl, a5.symm, a4, ?_, a7, ?_, ?_, ?_, ?_,
    ?_, ?_⟩
  · simp only [MixedC.see, a1, Option.map_some]
  · have := a2.edg.length
    rw [List.length_map] at this ⊢
    exact this
  · rw [List.map_map]
    exact a2.idn
  · rw [← a3, List.map_map, List.map_map]
    refine List.map_congr_left fun e he => ?_
    simp only [Function.comp]
    rw [hbun e he]; rfl
  · intro u hu
    obtain ⟨l, h1, h2, h3⟩ := a2.outEdges hr hPv hu
    refine ⟨l, h1, ?_, fun ha => ?_⟩
    · rw [outOf_ids, List.map_map]; exact h2
    · rw [outOf_ids, List.map_map]; exact h3 ha
  · intro hb u hu
    exact a2.inEdges hr hPv hb hu
  · intro hd u hu
    obtain ⟨l, h1, -⟩ := a2.outEdges hr hPv hu
    refine ⟨l, h1, ?_⟩
    have hun : ({ g.adj with vertices := vs } : AdjC Int R β).dir.un = true := by
      show g.adj.dir.un = true
      rw [hd]; rfl
    unfold AdjC.inEdges
    rw [if_pos hun, h1]; rfl
  · intro hne
    obtain ⟨l, h1, h2⟩ := a2.allEdges hr hPv hne
    refine ⟨l, h1, ?_⟩
    rw [List.map_map]
    exact h2

/-- **C138** `edges()` where both ends are stored in the edges: every edge added, in the order of insertion. -/
theorem mixedC_twoEdges {rep : Rep Int (Int × Int)} {o : OrdersC Int (Int × Int) β} {g : MixedC α (Int × Int) β}
    (h : MadeC key dflt ordV rep o junk dir hasOut k ke kv g log) (hk : hasOut = false → k.assoc = false)
    (hke : ke.assoc = false) (hrep : ∀ u v, rep.store u v = (u, v)) :
    ∃ a l, g.see = some a ∧ a.edges.edges = some l ∧ (l.map fun e => e.2.2).Nodup ∧ l.length = a.edgeCount ∧
      (l.map fun e => (e.1, e.2.1)) =
        (accept k.unique dir.un [] ((edgeCalls log).map Prod.fst)).1.map (ends dir.un) := by
  have hi := h.inv hk hke
  obtain ⟨es, vs, a1, a2, a3, a4, a5, a6, a7⟩ := hi.edges
  have hdir := hi.dirEq
  subst hdir
  obtain ⟨l, l1, l2, l3, -⟩ := a2.twoEdges hrep fun hl => lt_of_le_of_lt a6 (hi.len hl)
  refine ⟨{ g.adj with vertices := vs }, l, by simp only [MixedC.see, a1, Option.map_some], l1, l2, ?_, ?_⟩
  · have h1 := congrArg List.length l3
    have h2 := a2.edg.length
    simp only [List.length_map] at h1 h2
    exact h1.trans h2.symm
  · rw [l3, ← a3, List.map_map]
    rfl

/-! ### Searches -/

/-- **C138** What a search sees after any allowed calls: `vertices()`, and just the edges of the calls. -/
theorem mixedC_graph (h : MadeC key dflt ordV rep o junk dir hasOut k ke kv g log) (hk : hasOut = false → k.assoc = false)
    (hke : ke.assoc = false) (hr : hasOut = false → GoodRep rep dir P) (hP : ∀ v, (kv = .vec → IsInt v) → P v) :
    ∃ a vs, g.see = some a ∧ g.vertices = some vs ∧ Displays (a.graph rep) dir.un ((edgeCalls log).map Prod.fst) vs := by
  obtain ⟨a, vs, hs, b1, b2, b3, -, -, -, b6, -, b8, b7, -⟩ := mixedC_edges h hk hke hr hP
  obtain ⟨vs', c1, c2, -⟩ := mixedC_vertices h hk hke
  obtain rfl := Option.some.inj (b2.symm.trans c1)
  have hends : ∀ e ∈ (edgeCalls log).map Prod.fst, e.1 ∈ vs ∧ e.2.1 ∈ vs := by
    intro e he
    obtain ⟨c, hc, rfl⟩ := List.mem_map.mp he
    exact b6 c hc
  have hmem : ∀ u v, Link dir.un ((edgeCalls log).map Prod.fst) u v → u ∈ vs ∧ v ∈ vs := by
    rintro u v ⟨e, he, ⟨rfl, rfl⟩ | ⟨-, rfl, rfl⟩⟩
    · exact hends e he
    · exact (hends e he).symm
  have hlink : ∀ u v, Link dir.un hs u v ↔ Link dir.un (accept k.unique dir.un [] ((edgeCalls log).map Prod.fst)).1 u v := by
    intro u v
    have h1 : ∀ x y : Int, (∃ e ∈ hs, e.1 = x ∧ e.2.1 = y) ↔
        ∃ e ∈ (accept k.unique dir.un [] ((edgeCalls log).map Prod.fst)).1, e.1 = x ∧ e.2.1 = y := by
      intro x y
      have h2 := congrArg (List.map fun e : Int × Int × Option β => (e.1, e.2.1)) b8
      rw [List.map_map, List.map_map] at h2
      have h3 : (x, y) ∈ hs.map (fun e => (e.1, e.2.1)) ↔
          (x, y) ∈ (accept k.unique dir.un [] ((edgeCalls log).map Prod.fst)).1.map (fun e => (e.1, e.2.1)) := by
        rw [show (hs.map fun e => (e.1, e.2.1)) = _ from h2]; rfl
      simpa only [List.mem_map, Prod.mk.injEq] using h3
    constructor
    · rintro ⟨e, he, ⟨rfl, rfl⟩ | ⟨hu, rfl, rfl⟩⟩
      · obtain ⟨f, hf, f1, f2⟩ := (h1 _ _).mp ⟨e, he, rfl, rfl⟩
        exact ⟨f, hf, Or.inl ⟨f1, f2⟩⟩
      · obtain ⟨f, hf, f1, f2⟩ := (h1 _ _).mp ⟨e, he, rfl, rfl⟩
        exact ⟨f, hf, Or.inr ⟨hu, f1, f2⟩⟩
    · rintro ⟨e, he, ⟨rfl, rfl⟩ | ⟨hu, rfl, rfl⟩⟩
      · obtain ⟨f, hf, f1, f2⟩ := (h1 _ _).mpr ⟨e, he, rfl, rfl⟩
        exact ⟨f, hf, Or.inl ⟨f1, f2⟩⟩
      · obtain ⟨f, hf, f1, f2⟩ := (h1 _ _).mpr ⟨e, he, rfl, rfl⟩
        exact ⟨f, hf, Or.inr ⟨hu, f1, f2⟩⟩
  have hadj : ∀ u v, (a.graph rep).Adj u v ↔ Link dir.un ((edgeCalls log).map Prod.fst) u v := by
    intro u v
    by_cases hu : u ∈ vs
    · obtain ⟨l, p1, p2, -⟩ := b7 u hu
      have hg : (a.graph rep).out u = l := by simp [AdjC.graph, p1]
      have h1 : (a.graph rep).Adj u v ↔ v ∈ l.map fun e => e.2.1 := by
        unfold Graph.Adj
        rw [hg, List.mem_map]; rfl
      have h2 : (l.map fun e => e.2.1).Perm ((outOf dir.un hs u).map Prod.fst) := by
        have := p2.map fun e : EdgeN Int => e.2.1
        rwa [List.map_map] at this
      rw [h1, h2.mem_iff, mem_outOf_link, hlink, accept_link]
      simp
    · constructor
      · rintro ⟨e, he, -⟩
        have hu' : u ∉ a.vertices := by rw [b3]; exact hu
        simp [AdjC.graph, AdjC.outEdges, hu'] at he
      · intro hl
        exact absurd (hmem u v hl).1 hu
  refine ⟨a, vs, b1, b2, b3, hends, ⟨by rw [show (a.graph rep).vertices = vs from b3]; exact c2, ?_, ?_⟩, hadj⟩
  · intro u hu e he
    obtain ⟨l, p1, p2, -⟩ := b7 u (by rw [← b3]; exact hu)
    have hg : (a.graph rep).out u = l := by simp [AdjC.graph, p1]
    rw [hg] at he
    obtain ⟨d, -, rfl⟩ := List.mem_map.mp (p2.mem_iff.mp he)
    rfl
  · intro u hu e he
    show _ ∈ a.vertices
    rw [b3]
    exact (hmem u _ ((hadj u _).mp ⟨e, he, rfl⟩)).2

/-- **C138** Depth-first search from a vertex ends, and discovers once each just the vertices with a path from it along the edges of
the calls. -/
theorem mixedC_dfs (h : MadeC key dflt ordV rep o junk dir hasOut k ke kv g log) (hk : hasOut = false → k.assoc = false)
    (hke : ke.assoc = false) (hr : hasOut = false → GoodRep rep dir P) (hP : ∀ v, (kv = .vec → IsInt v) → P v)
    {a : AdjC Int R β} (ha : g.see = some a) {u : Int}
    (hu : (g.atVertex u).isSome = true) (flags : Int → Bool) :
    ∃ fuel flags' l, dfsFrom (a.graph rep) (discoveredFlag.fst logger) (fun _ => false) fuel u (flags, []) = some (flags', l) ∧
      (discs l).Nodup ∧ (∀ v, v ∈ discs l ↔ Path dir.un ((edgeCalls log).map Prod.fst) u v) ∧
      ∀ v, (g.atVertex v).isSome = true → (flags' v = true ↔ Path dir.un ((edgeCalls log).map Prod.fst) u v) := by
  obtain ⟨a', vs, h1, h2, h3⟩ := mixedC_graph h hk hke hr hP
  obtain rfl := Option.some.inj (ha.symm.trans h1)
  obtain ⟨vs', c1, -, -, c4, -⟩ := mixedC_vertices h hk hke
  obtain rfl := Option.some.inj (h2.symm.trans c1)
  have hmem : ∀ v, v ∈ (a.graph rep).vertices ↔ (g.atVertex v).isSome = true := fun v => by rw [h3.vertices, c4]
  obtain ⟨⟨fuel, ⟨flags', l⟩, hrun⟩, h5⟩ := dfsFrom_explores h3.wf u ((hmem u).mpr hu) flags
  obtain ⟨h6, h7⟩ := h5 fuel flags' l hrun
  exact ⟨fuel, flags', l, hrun, h6.once, fun v => by rw [h6.exactly, h3.reach],
    fun v hv => by rw [h7 v ((hmem v).mpr hv), h3.reach]⟩

/-- **C138** Breadth-first search from a vertex ends, and records the number of edges of a shortest path along the edges of the calls, or
-1 if there is no path. -/
theorem mixedC_bfs (h : MadeC key dflt ordV rep o junk dir hasOut k ke kv g log) (hk : hasOut = false → k.assoc = false)
    (hke : ke.assoc = false) (hr : hasOut = false → GoodRep rep dir P) (hP : ∀ v, (kv = .vec → IsInt v) → P v)
    {a : AdjC Int R β} (ha : g.see = some a) (null : Int) {u : Int}
    (hu : (g.atVertex u).isSome = true) (d0 : Int → Int) :
    ∃ fuel d l, bfs (a.graph rep) ((distanceRecorder (a.graph rep)).fst logger) (fun _ => false) null fuel [u] (d0, []) = some (d, l) ∧
      ∀ v, (g.atVertex v).isSome = true →
        (∀ m : Nat, Steps dir.un ((edgeCalls log).map Prod.fst) m u v → 0 ≤ d v ∧ d v ≤ m) ∧
        (∀ m : Nat, d v = m → Steps dir.un ((edgeCalls log).map Prod.fst) m u v) ∧
        (d v = -1 ↔ ¬Path dir.un ((edgeCalls log).map Prod.fst) u v) := by
  obtain ⟨a', vs, h1, h2, h3⟩ := mixedC_graph h hk hke hr hP
  obtain rfl := Option.some.inj (ha.symm.trans h1)
  obtain ⟨vs', c1, -, -, c4, -⟩ := mixedC_vertices h hk hke
  obtain rfl := Option.some.inj (h2.symm.trans c1)
  have hmem : ∀ v, v ∈ (a.graph rep).vertices ↔ (g.atVertex v).isSome = true := fun v => by rw [h3.vertices, c4]
  obtain ⟨⟨fuel, ⟨d, l⟩, hrun⟩, h5⟩ := bfs_distances h3.wf null [u] (by simpa using (hmem u).mpr hu) (by simp) d0
  obtain ⟨-, -, h6, h7⟩ := h5 fuel d l hrun
  refine ⟨fuel, d, l, hrun, fun v hv => ?_⟩
  have hsp : ∀ (m : Nat) (w : Int), Steps dir.un ((edgeCalls log).map Prod.fst) m u w →
      Path dir.un ((edgeCalls log).map Prod.fst) u w := by
    intro m
    induction m with
    | zero => intro w hw; rw [show u = w from hw]; exact .refl
    | succ m ih => rintro w ⟨x, h1, h2⟩; exact (ih x h1).tail h2
  by_cases hp : Path dir.un ((edgeCalls log).map Prod.fst) u v
  · obtain ⟨m, hm, ⟨s, hs, hw⟩, hmin⟩ := h6 v ⟨u, by simp, (h3.reach u v).mpr hp⟩
    obtain rfl := List.mem_singleton.mp hs
    refine ⟨fun m' hm' => ?_, fun m' hm' => ?_, by constructor <;> intro hx <;> first | omega | exact absurd hp hx⟩
    · have := hmin m' s (by simp) ((h3.walk m' s v).mpr hm')
      omega
    · have : m' = m := by omega
      rw [this]
      exact (h3.walk m s v).mp hw
  · have hd := h7 v ((hmem v).mpr hv) (by
      rintro ⟨s, hs, hreach⟩
      rw [List.mem_singleton.mp hs] at hreach
      exact hp ((h3.reach u v).mp hreach))
    exact ⟨fun m hm => absurd (hsp m v hm) hp, fun m hm => by omega, by simp [hd, hp]⟩

/-- **C138** In an undirected graph two vertices get the same component number just if there is a path between them along the edges of the
calls. -/
theorem mixedC_components (h : MadeC key dflt ordV rep o junk .undirected hasOut k ke kv g log) (hk : hasOut = false → k.assoc = false)
    (hke : ke.assoc = false) (hr : hasOut = false → GoodRep rep .undirected P) (hP : ∀ v, (kv = .vec → IsInt v) → P v)
    {a : AdjC Int R β} (ha : g.see = some a)
    (m : Int → Int) :
    ∃ fuel comp count, dfsAll (a.graph rep) (componentRecorder : Comp _ Int (EdgeN Int)) (fun _ => false) fuel (m, 0) = some (comp, count) ∧
      (∀ u v, (g.atVertex u).isSome = true → (g.atVertex v).isSome = true →
        (comp u = comp v ↔ Path true ((edgeCalls log).map Prod.fst) u v)) ∧
      ∀ i, (∃ v, (g.atVertex v).isSome = true ∧ comp v = i) ↔ 0 ≤ i ∧ i < count := by
  obtain ⟨a', vs, h1, h2, h3⟩ := mixedC_graph h hk hke hr hP
  obtain rfl := Option.some.inj (ha.symm.trans h1)
  obtain ⟨vs', c1, -, -, c4, -⟩ := mixedC_vertices h hk hke
  obtain rfl := Option.some.inj (h2.symm.trans c1)
  have hmem : ∀ v, v ∈ (a.graph rep).vertices ↔ (g.atVertex v).isSome = true := fun v => by rw [h3.vertices, c4]
  have hsym : (a.graph rep).Symmetric := by
    intro u _ v hv
    rw [h3.adj] at hv ⊢
    obtain ⟨e, he, h1⟩ := hv
    refine ⟨e, he, ?_⟩
    rcases h1 with ⟨h1, h2⟩ | ⟨-, h1, h2⟩
    · exact Or.inr ⟨rfl, h1, h2⟩
    · exact Or.inl ⟨h1, h2⟩
  obtain ⟨⟨fuel, ⟨comp, count⟩, hrun⟩, h5⟩ := components_spec h3.wf hsym m
  obtain ⟨h6, h7⟩ := h5 fuel comp count hrun
  refine ⟨fuel, comp, count, hrun, fun u v hu hv => ?_, fun i => ?_⟩
  · rw [h6 u ((hmem u).mpr hu) v ((hmem v).mpr hv), h3.reach]; rfl
  · rw [← h7 i]
    simp only [hmem]

/-- **C138** If the edges of the calls have no cycle, the topological sort outputs every vertex once, in an order in which every edge leads
to a vertex output earlier. -/
theorem mixedC_topologicalSort (h : MadeC key dflt ordV rep o junk dir hasOut k ke kv g log) (hk : hasOut = false → k.assoc = false)
    (hke : ke.assoc = false) (hr : hasOut = false → GoodRep rep dir P) (hP : ∀ v, (kv = .vec → IsInt v) → P v)
    {a : AdjC Int R β} (ha : g.see = some a)
    (hac : ∀ u, ¬Relation.TransGen (Link dir.un ((edgeCalls log).map Prod.fst)) u u) (flags : Int → Bool) :
    ∃ fuel output, topologicalSort (a.graph rep) fuel flags = some output ∧ output.Nodup ∧
      (∀ u, u ∈ output ↔ (g.atVertex u).isSome = true) ∧
      ∀ e ∈ (edgeCalls log).map Prod.fst, output.idxOf e.2.1 < output.idxOf e.1 := by
  obtain ⟨a', vs, h1, h2, h3⟩ := mixedC_graph h hk hke hr hP
  obtain rfl := Option.some.inj (ha.symm.trans h1)
  obtain ⟨vs', c1, c2, -, c4, -⟩ := mixedC_vertices h hk hke
  obtain rfl := Option.some.inj (h2.symm.trans c1)
  obtain ⟨output, ⟨fuel, hrun⟩, h5, h6⟩ := topologicalSort_spec h3.wf (fun u _ => by rw [h3.adj_eq]; exact hac u) flags
  rw [h3.vertices] at h5
  refine ⟨fuel, output, hrun, h5.nodup_iff.mpr c2, fun u => by rw [h5.mem_iff, c4], fun e he => ?_⟩
  obtain ⟨f, hf, ht⟩ := (h3.adj e.1 e.2.1).mpr ⟨e, he, Or.inl ⟨rfl, rfl⟩⟩
  have := h6 e.1 (by rw [h3.vertices]; exact (h3.ends e he).1) f hf
  rwa [ht] at this

/-! ### Removal of vertices -/

private theorem outEdges_congrC {a a' : AdjC Int R β} {u : Int} (hu : u ∈ a.vertices) (hu' : u ∈ a'.vertices)
    (ho : a'.outs u = a.outs u) (he : a'.edges = a.edges) : a'.outEdges rep u = a.outEdges rep u := by
  have hg : a'.getEdge rep u = a.getEdge rep u := by
    funext i
    simp only [AdjC.getEdge, he]
  unfold AdjC.outEdges
  rw [if_neg (not_not.mpr hu), if_neg (not_not.mpr hu'), ho, hg]

/-- `remove_vertex` leaves the edges that lead to the vertex: afterwards the other end of each such edge still has an out-edge to what is
no vertex any more, and the edges are still counted. -/
theorem removeVertexC_dangling_fails (h : MadeC key dflt ordV rep o junk dir hasOut k ke kv g log) (hk : hasOut = false → k.assoc = false)
    (hke : ke.assoc = false) (hr : hasOut = false → GoodRep rep dir P) (hP : ∀ v, (kv = .vec → IsInt v) → P v)
    (hkv : kv ≠ .vec) {u v : Int} (huv : u ≠ v)
    (he : ∃ c ∈ edgeCalls log, c.1.1 = u ∧ c.1.2.1 = v) :
    ∃ g' a a', g.removeVertex v = some g' ∧ g.see = some a ∧ g'.see = some a' ∧
      v ∉ a'.vertices ∧ (∃ l, a'.outEdges rep u = some l ∧ ∃ e ∈ l, e.2.1 = v) ∧ a'.edgeCount = a.edgeCount := by
  obtain ⟨hkind, -, -⟩ := h.vsFacts hk hke
  obtain ⟨a, vs, h1, h2, h3⟩ := mixedC_graph h hk hke hr hP
  obtain ⟨c, hc, rfl, rfl⟩ := he
  have hmem := h3.ends c.1 (List.mem_map_of_mem hc)
  obtain ⟨e, hev, het⟩ := (h3.adj c.1.1 c.1.2.1).mpr ⟨c.1, List.mem_map_of_mem hc, Or.inl ⟨rfl, rfl⟩⟩
  have hra : g.vs.kind.ra = false := by
    rw [hkind]
    cases kv <;> first | rfl | exact absurd rfl hkv
  have hids : vs = g.vs.items.map fun p => (p.1 : Int) := by
    have : g.vs.ids = some vs := h2
    simp only [Cont.ids, hra, Bool.false_eq_true, if_false, Option.some.injEq] at this
    exact this.symm
  obtain ⟨vs', v1, v2, -⟩ := mixedC_vertices h hk hke
  obtain rfl := Option.some.inj (h2.symm.trans v1)
  obtain ⟨p, hp, hpv⟩ := List.mem_map.mp (by rw [hids] at hmem; exact hmem.2)
  obtain ⟨q, hq, hqu⟩ := List.mem_map.mp (by rw [hids] at hmem; exact hmem.1)
  have hne : c.1.2.1 ≠ -1 := by
    have : (p.1 : Int) = c.1.2.1 := hpv
    omega
  -- the position of the vertex
  rcases hf : g.vs.items.findIdx? (fun p => (p.1 : Int) == c.1.2.1) with _ | i
  · rw [List.findIdx?_eq_none_iff] at hf
    have := hf p hp
    simp [hpv] at this
  · obtain ⟨hi1, hi2, -⟩ := List.findIdx?_eq_some_iff_getElem.mp hf
    have hi2 : ((g.vs.items[i]).1 : Int) = c.1.2.1 := by simpa using hi2
    have hrem : g.removeVertex c.1.2.1 = some ⟨{ g.vs with items := g.vs.items.eraseIdx i }, g.adj⟩ := by
      simp only [MixedC.removeVertex, Cont.idErase, Cont.idToIterator, hra, Bool.false_eq_true, if_false, hne, hf, if_pos hi1,
        Option.map_some]
    have hsee' : (⟨{ g.vs with items := g.vs.items.eraseIdx i }, g.adj⟩ : MixedC α R β).see =
        some { g.adj with vertices := (g.vs.items.eraseIdx i).map fun p => (p.1 : Int) } := by
      simp only [MixedC.see, Cont.ids, hra, Bool.false_eq_true, if_false, Option.map_some]
    have hsee : g.see = some { g.adj with vertices := vs } := by
      have : g.vs.ids = some vs := h2
      simp only [MixedC.see, this, Option.map_some]
    obtain rfl := Option.some.inj (h1.symm.trans hsee)
    refine ⟨_, _, _, hrem, hsee, hsee', ?_, ?_, rfl⟩
    · show c.1.2.1 ∉ (g.vs.items.eraseIdx i).map fun p => (p.1 : Int)
      rw [← List.eraseIdx_map, ← hids]
      intro hm
      have hlen : i < vs.length := by rw [hids, List.length_map]; exact hi1
      have hget : vs[i] = c.1.2.1 := by simp only [hids, List.getElem_map]; exact hi2
      rw [List.mem_eraseIdx_iff_getElem] at hm
      obtain ⟨j, hj, hji, hjv⟩ := hm
      exact hji ((List.Nodup.getElem_inj_iff v2).mp (hjv.trans hget.symm))
    · have hu' : c.1.1 ∈ (g.vs.items.eraseIdx i).map fun p => (p.1 : Int) := by
        refine List.mem_map.mpr ⟨q, ?_, hqu⟩
        rw [List.mem_eraseIdx_iff_getElem]
        obtain ⟨j, hj, hjq⟩ := List.mem_iff_getElem.mp hq
        refine ⟨j, hj, ?_, hjq⟩
        rintro rfl
        rw [hjq] at hi2
        exact huv (hqu.symm.trans hi2)
      have hu : c.1.1 ∈ vs := hmem.1
      have hout : ({ g.adj with vertices := (g.vs.items.eraseIdx i).map fun p => (p.1 : Int) } : AdjC Int R β).outEdges rep c.1.1 =
          ({ g.adj with vertices := vs } : AdjC Int R β).outEdges rep c.1.1 := outEdges_congrC hu hu' rfl rfl
      rw [hout]
      rcases ho : ({ g.adj with vertices := vs } : AdjC Int R β).outEdges rep c.1.1 with _ | l
      · simp [AdjC.graph, ho] at hev
      · refine ⟨l, rfl, e, ?_, het⟩
        simpa [AdjC.graph, ho] using hev

/-- With numbered vertices `remove_vertex` renumbers those behind, but not the ends of edges: the vertex `v + 1` becomes `v`, while the
out-edges of a vertex before the one removed still lead to the old numbers. -/
theorem removeVertexC_shift_fails (h : MadeC key dflt ordV rep o junk dir hasOut k ke .vec g log) (hk : hasOut = false → k.assoc = false)
    (hke : ke.assoc = false) (hr : hasOut = false → GoodRep rep dir IsInt) {u w : Int} (huw : 0 ≤ u ∧ u < w)
    (hw : w < numbered 0 log) :
    ∃ g' a a', g.removeVertex w = some g' ∧ g.see = some a ∧ g'.see = some a' ∧
      (∀ v, w ≤ v → g'.atVertex v = g.atVertex (v + 1)) ∧ a'.outEdges rep u = a.outEdges rep u ∧ (a.outEdges rep u).isSome = true ∧
      a'.edgeCount = a.edgeCount := by
  obtain ⟨hkind, hfits, hcount⟩ := h.vsFacts hk hke
  obtain ⟨a, vs, h1, h2, h3⟩ := mixedC_graph h hk hke hr fun _ h => h rfl
  obtain ⟨vs', v1, v2, -, -, -, -, -, -, v3, -⟩ := mixedC_vertices h hk hke
  obtain rfl := Option.some.inj (h2.symm.trans v1)
  have hra : g.vs.kind.ra = true := by rw [hkind]; rfl
  have hlen := hcount rfl
  have hfit := hfits hra
  have hrem : g.removeVertex w = some ⟨{ g.vs with items := g.vs.items.eraseIdx w.toNat },
      { g.adj with
        outs := fun i => if i < w then g.adj.outs i else g.adj.outs (i + 1)
        ins := fun i => if i < w then g.adj.ins i else g.adj.ins (i + 1) }⟩ := by
    have h4 : 0 ≤ w ∧ w ≤ g.vs.items.length := by omega
    have h5 : w.toNat < g.vs.items.length := by omega
    simp only [MixedC.removeVertex, Cont.idErase, Cont.idToIterator, hra, if_true, if_pos h4, if_pos h5, Option.map_some]
  have hlen' : (g.vs.items.eraseIdx w.toNat).length = g.vs.items.length - 1 := by
    rw [List.length_eraseIdx, if_pos (by omega)]
  have hids : ({ g.vs with items := g.vs.items.eraseIdx w.toNat } : Cont α).ids =
      some (firstVertices (g.vs.items.length - 1)) := by
    simp only [Cont.ids, hra, if_true, Cont.idEnd, hlen']
    rw [toInt_of_lt (by omega), if_pos (by omega)]
    rfl
  have hsee : g.see = some { g.adj with vertices := vs } := by
    have : g.vs.ids = some vs := h2
    simp only [MixedC.see, this, Option.map_some]
  obtain rfl := Option.some.inj (h1.symm.trans hsee)
  have hu : u ∈ vs := by
    rw [(v3 rfl).1, mem_firstVertices]
    omega
  refine ⟨_, _, (⟨g.adj.dir, g.adj.hasOut, firstVertices (g.vs.items.length - 1), fun i => if i < w then g.adj.outs i else g.adj.outs (i + 1),
    fun i => if i < w then g.adj.ins i else g.adj.ins (i + 1), g.adj.edges⟩ : AdjC Int R β), hrem, hsee,
    by simp only [MixedC.see, hids, Option.map_some], ?_, ?_, ?_, rfl⟩
  · intro v hv
    have h0 : 0 ≤ v := by omega
    have h0' : 0 ≤ v + 1 := by omega
    simp only [MixedC.atVertex, Cont.at, hra, if_true, if_pos h0, if_pos h0', Cont.values, List.getElem?_map]
    rw [List.getElem?_eraseIdx, if_neg (by omega)]
    congr 2
    omega
  · refine outEdges_congrC hu ?_ (if_pos huw.2) rfl
    show u ∈ firstVertices _
    rw [mem_firstVertices]; omega
  · obtain ⟨a, vs', hs, b1, b2, -, -, -, -, -, -, -, b7, -⟩ := mixedC_edges h hk hke hr fun _ h => h rfl
    obtain rfl := Option.some.inj (b1.symm.trans hsee)
    obtain rfl := Option.some.inj (b2.symm.trans h2)
    obtain ⟨l, h5, -⟩ := b7 u hu
    rw [h5]; rfl

/-! ### Examples -/

instance (log : List (Insert α β × Got)) (c : Insert α β) : Decidable (LegalC k ke kv log c) := by
  cases c <;> unfold LegalC <;> infer_instance

/-- Calls one after another, as long as they are allowed. -/
def MixedC.run (key : α → κ) (dflt : α) (ordV : Order α) (rep : Rep Int R) (o : OrdersC Int R β) (junk : Int) (k ke kv : Kind) :
    MixedC α R β → List (Insert α β × Got) → List (Insert α β) → Option (MixedC α R β × List (Insert α β × Got))
  | g, log, [] => some (g, log)
  | g, log, c :: cs =>
    if LegalC k ke kv log c then
      match g.insert key dflt ordV rep o junk c with
      | none => none
      | some (g', a) => MixedC.run key dflt ordV rep o junk k ke kv g' (log ++ [(c, a)]) cs
    else none

/-- What such calls reach satisfies the hypothesis of the theorems. -/
theorem MixedC.run_made {cs : List (Insert α β)} : ∀ {g : MixedC α R β} {log : List (Insert α β × Got)} {r},
    MadeC key dflt ordV rep o junk dir hasOut k ke kv g log → g.run key dflt ordV rep o junk k ke kv log cs = some r →
    MadeC key dflt ordV rep o junk dir hasOut k ke kv r.1 r.2 := by
  induction cs with
  | nil => intro g log r h hr; rw [← Option.some.inj hr]; exact h
  | cons c cs ih =>
    intro g log r h hr
    unfold MixedC.run at hr
    by_cases hl : LegalC k ke kv log c
    · rw [if_pos hl] at hr
      cases hc : g.insert key dflt ordV rep o junk c with
      | none => rw [hc] at hr; cases hr
      | some p =>
        rw [hc] at hr
        exact ih (h.snoc hl hc) hr
    · rw [if_neg hl] at hr; cases hr

set_option synthInstance.maxHeartbeats 400000
set_option synthInstance.maxSize 1000

/-- Vertices in a set, by their names; edges in a list, both ends stored. -/
example : ((MixedC.init .undirected false .vec .list .set).run id 0 natOrder (twoRep Int) plainC 77 .vec .list .set [] namedCalls).map
    (fun r => (r.1.vertices, r.1.atVertex 0, r.1.vertexCount, r.2.map Prod.snd, r.1.see.map fun a => a.edgeCount)) =
    some (some [1, 0, 2], some 20, 3, [.vertex 0 true, .vertex 1 true, .edge (some (0, 1, 0)), .vertex 0 false, .vertex 2 true,
      .edge (some (2, 0, 1)), .edge (some (1, 0, 2))], some 3) := by
  decide +kernel
example : ((MixedC.init .undirected false .vec .list .set).run id 0 natOrder (twoRep Int) plainC 77 .vec .list .set [] namedCalls).map
    (fun r => (r.1.see.bind fun a => a.outEdges (twoRep Int) 0, r.1.see.bind fun a => a.edges.edges,
      r.1.see.bind fun a => a.bundle (2, 0, 1))) =
    some (some [(0, 1, 0), (0, 2, 1), (0, 1, 2)], some [(0, 1, 0), (0, 2, 1), (0, 1, 2)], some "y") := by
  decide +kernel

/-- Numbered vertices and edges that store the exclusive or of their ends. -/
example : ((MixedC.init .bidirectional false .list .vec .vec).run id 0 natOrder xorRep plainC 77 .list .vec .vec []
      [.vertex 7, .edge 3 0 "x", .vertex 8, .edge 4 3 "y", .edge 3 0 "z"]).map
    (fun r => (r.1.vertices, r.2.map Prod.snd, r.1.see.bind fun a => a.outEdges xorRep 3, r.1.see.bind fun a => a.inEdges xorRep 0)) =
    some (some [0, 1, 2, 3, 4], [.vertex 0 true, .edge (some (3, 0, 0)), .vertex 4 true, .edge (some (4, 3, 1)),
      .edge (some (3, 0, 2))], some [(3, 0, 0), (3, 0, 2)], some [(3, 0, 0), (3, 0, 2)]) := by
  decide +kernel

/-- Out-edges in a set and no ends in the edges (`edge_property`): no parallel edges. -/
example : ((MixedC.init .undirected true .set .list .list).run id 0 natOrder (noRep Int) plainC 77 .set .list .list [] namedCalls).map
    (fun r => (r.1.vertices, r.2.map Prod.snd, r.1.see.bind fun a => a.allEdges (noRep Int) 10)) =
    some (some [0, 1, 2, 3], [.vertex 0 true, .vertex 1 true, .edge (some (0, 1, 0)), .vertex 2 true, .vertex 3 true,
      .edge (some (2, 0, 1)), .edge none], some [(0, 1, 0), (0, 2, 1)]) := by
  decide +kernel

/-- The hypotheses on what is stored of the ends. -/
example : ∀ v, (Kind.vec = .vec → IsInt v) → IsInt v := fun _ h => h rfl
example : GoodRep xorRep .bidirectional IsInt := good_xor _
example : GoodRep (twoRep Int) .undirected fun _ => True := good_two _

/-- After the removal of 10 the vertex 20 still has an edge to it, which is still in the edge container. -/
example : (((MixedC.init .undirected false .vec .list .set).run id 0 natOrder (twoRep Int) plainC 77 .vec .list .set []
      namedCalls).bind fun r => (r.1.removeVertex 1).bind fun g => some (g.vertices, g.see.bind fun a => a.outEdges (twoRep Int) 0,
        g.see.bind fun a => a.edges.edges)) =
    some (some [0, 2], some [(0, 1, 0), (0, 2, 1), (0, 1, 2)], some [(0, 1, 0), (0, 2, 1), (0, 1, 2)]) := by
  decide +kernel

end Actl.Storage
