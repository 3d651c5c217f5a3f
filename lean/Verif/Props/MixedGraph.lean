import Verif.Lemmas.MixedGraph
import Verif.Props.Built

/-!
# C111: adjacency lists under any mixture of vertex and edge insertions, with any kind of vertex container

* `mixed_insert`: every allowed call succeeds; `mixed_nextVertex`: the numbers of new vertices.
* `mixed_vertices`: the vertices, and what the handles returned designate.
* `mixed_edges`: the edges.
* `mixed_graph`, `mixed_dfs`, `mixed_bfs`, `mixed_components`, `mixed_topologicalSort`: what the searches see and answer.
* `removeVertex_dangling_fails`, `removeVertex_shift_fails`: `remove_vertex` does not remove edges.
-/

namespace Actl.Storage

open Actl.Ids Actl.Traversal Actl.Built

variable {α β κ : Type} [LinearOrder κ] {key : α → κ} {dflt : α} {ordV : Order α} {o : OrdersN Int β} {moved : β → β}
  {dir : Dir} {k kv : Kind} {g : Mixed α β} {log : List (Insert α β × Got)}

/-- **C111** Every allowed call succeeds, whatever was called before. -/
theorem mixed_insert (h : Made key dflt ordV o moved dir k kv g log) {c : Insert α β} (hl : Legal k kv log c) :
    ∃ g' a, g.insert key dflt ordV o moved c = some (g', a) ∧
      Made key dflt ordV o moved dir k kv g' (log ++ [(c, a)]) := by
  cases c with
  | vertex x => exact ⟨_, _, rfl, h.snoc hl rfl⟩
  | edge u v b =>
    obtain ⟨g', e, h1, -⟩ := h.inv.edge o hl
    have h2 : g.insert key dflt ordV o moved (.edge u v b) = some (g', .edge e) := by
      simp only [Mixed.insert, h1, Option.map_some]
    exact ⟨_, _, h2, h.snoc hl h2⟩

/-- **C111** The vertices after any allowed calls:
* `vertices()` are different, `vertex_count()` many, and those `graph[u]` is defined for;
* every vertex ever returned is still there with its value (with an equal one, if it was there before);
* a vertex is new unless the container is unique and an equal value was added before;
* with a unique container the same vertex is returned just for equal values, otherwise always another one;
* numbered vertices are `0, .., n - 1`, where the history tells `n`, and those that no call returned have the value-initialized value;
* otherwise the vertices are just the new ones returned, of a list in this order; in a sorted container the values are in order. -/
theorem mixed_vertices (h : Made key dflt ordV o moved dir k kv g log) :
    ∃ vs, g.vertices = some vs ∧ vs.Nodup ∧ vs.length = g.vertexCount ∧
      (∀ u, u ∈ vs ↔ (g.atVertex u).isSome = true) ∧
      (∀ c ∈ vertexCalls log, ∃ y, g.atVertex c.2.1 = some y ∧ key y = key c.1 ∧ (c.2.2 = true → y = c.1)) ∧
      (vertexCalls log).map (fun c => c.2.2) = firstOfKind kv.unique [] ((vertexCalls log).map fun c => key c.1) ∧
      (kv.unique = true → ∀ c ∈ vertexCalls log, ∀ d ∈ vertexCalls log, c.2.1 = d.2.1 ↔ key c.1 = key d.1) ∧
      (kv.unique = false → ((vertexCalls log).map fun c => c.2.1).Nodup) ∧
      (kv = .vec → vs = firstVertices (numbered 0 log) ∧
        ∀ u ∈ vs, (∀ c ∈ vertexCalls log, c.2.1 ≠ u) → g.atVertex u = some dflt) ∧
      (kv ≠ .vec → vs.Perm (((vertexCalls log).filter fun c => c.2.2).map fun c => c.2.1)) ∧
      (kv = .list → vs = (vertexCalls log).map fun c => c.2.1) ∧
      (kv.sorted = true → (vs.filterMap g.atVertex).Pairwise fun x y => key x ≤ key y) := by
  have hi := h.inv
  obtain ⟨vs, a1, a2, a3, a4, -⟩ := ids_spec hi.wf hi.fits
  have hlen := congrArg List.length a3
  simp only [List.length_map, Cont.values] at hlen
  have hall : kv.unique = false → ∀ c ∈ vertexCalls log, c.2.2 = true := by
    intro hk c hc
    have hn := hi.new
    rw [hk] at hn
    have hf : ∀ (xs seen : List κ), ∀ b ∈ firstOfKind false seen xs, b = true := by
      intro xs
      induction xs with
      | nil => intro seen b hb; cases hb
      | cons x xs ih =>
        intro seen b hb
        rcases List.mem_cons.mp hb with rfl | hb
        · rfl
        · exact ih _ b hb
    refine hf ((vertexCalls log).map fun c => key c.1) [] _ ?_
    rw [← hn]
    exact List.mem_map_of_mem hc
  have hfil : kv.unique = false → (vertexCalls log).filter (fun c => c.2.2) = vertexCalls log :=
    fun hk => List.filter_eq_self.mpr (hall hk)
  refine ⟨vs, a1, a2, hlen, a4, hi.logged, hi.new, ?_, ?_, ?_, ?_, ?_, ?_⟩
  · intro hk c hc d hd
    obtain ⟨x, hx, e1, -⟩ := hi.logged c hc
    obtain ⟨y, hy, e2, -⟩ := hi.logged d hd
    rw [at_unique hi.wf (by rw [hi.kind]; exact hk) hx hy, e1, e2]
  · intro hk
    have := hi.nodup
    rwa [hfil hk] at this
  · intro hk
    have hra : g.vs.kind.ra = true := by rw [hi.kind, hk]; rfl
    refine ⟨?_, ?_⟩
    · simp only [Cont.ids, hra, if_true, Cont.idEnd] at a1
      rw [toInt_of_lt (hi.fits hra), if_pos (by omega), hi.count hk] at a1
      exact (Option.some.inj a1).symm
    · intro u hu hn
      obtain ⟨y, hy⟩ := Option.isSome_iff_exists.mp ((a4 u).mp hu)
      rcases hi.from_ u y hy with ⟨c, hc, e, -⟩ | ⟨-, rfl, -⟩
      · exact absurd e (hn c hc)
      · exact hy
  · intro hk
    refine (List.perm_ext_iff_of_nodup a2 hi.nodup).mpr fun u => ?_
    rw [a4, List.mem_map]
    constructor
    · intro hs
      obtain ⟨y, hy⟩ := Option.isSome_iff_exists.mp hs
      rcases hi.from_ u y hy with ⟨c, hc, e1, e2, -⟩ | ⟨hc, -⟩
      · exact ⟨c, List.mem_filter.mpr ⟨hc, e2⟩, e1⟩
      · exact absurd hc hk
    · rintro ⟨c, hc, rfl⟩
      obtain ⟨y, hy, -⟩ := hi.logged c (List.mem_filter.mp hc).1
      rw [hy]; rfl
  · intro hk
    have := hi.inOrder hk
    rw [hfil (by rw [hk]; rfl)] at this
    exact Option.some.inj (a1.symm.trans this)
  · intro hk
    have : vs.filterMap g.atVertex = g.vs.values := by
      have hm := congrArg (List.filterMap id) a3
      rw [List.filterMap_map, List.filterMap_map] at hm
      have hm' : vs.filterMap (fun x => g.vs.at x) = g.vs.values := by simpa using hm
      exact hm'
    rw [this]
    exact hi.wf.sorted (by rw [hi.kind]; exact hk)

/-- **C111** A new numbered vertex gets the next number. -/
theorem mixed_nextVertex (h : Made key dflt ordV o moved dir k .vec g log) (hl : numbered 0 log < 2 ^ 31 - 1) (x : α) :
    ∃ g', g.insert key dflt ordV o moved (.vertex x) = some (g', .vertex (numbered 0 log) true) := by
  have hi := h.inv
  have hl' : Legal k .vec log (.vertex x : Insert α β) := fun _ => hl
  have h2 := (h.snoc (c := .vertex x) hl' rfl).inv
  obtain ⟨h3, h4, h5, -⟩ := idEmplace_spec ordV hi.wf hi.fits x
  have hra : g.vs.kind.ra = true := by rw [hi.kind]; rfl
  have hnew : (g.vs.idEmplace key ordV x).2.2 = true := by
    cases hb : (g.vs.idEmplace key ordV x).2.2
    · have := (h3.mp hb).1
      rw [hi.kind] at this
      cases this
    · rfl
  obtain ⟨h6, h7, h8, h9⟩ := h5 hnew
  have hra' : (g.tryAddVertex key ordV x).1.vs.kind.ra = true := by rw [h2.kind]; rfl
  have b1 : 0 ≤ (g.vs.idEmplace key ordV x).2.1 ∧
      (g.vs.idEmplace key ordV x).2.1 < (g.vs.idEmplace key ordV x).1.items.length :=
    (isSome_at_vec hra').mp (by show (Cont.at (g.vs.idEmplace key ordV x).1 _).isSome = true; rw [h6]; rfl)
  have b2 : ¬(0 ≤ (g.vs.idEmplace key ordV x).2.1 ∧ (g.vs.idEmplace key ordV x).2.1 < g.vs.items.length) := by
    rw [← isSome_at_vec hra, h7]; simp
  have hlen := h8.length_eq
  simp only [Cont.values, List.length_map, List.length_cons] at hlen
  have hc := hi.count rfl
  have hid : (g.vs.idEmplace key ordV x).2.1 = (numbered 0 log : Int) := by omega
  refine ⟨(g.tryAddVertex key ordV x).1, ?_⟩
  show some (_, Got.vertex (g.vs.idEmplace key ordV x).2.1 (g.vs.idEmplace key ordV x).2.2) = _
  rw [hid, hnew]

private theorem Made.vertices_ne (h : Made key dflt ordV o moved dir k kv g log) (hne : log ≠ []) {vs : List Int}
    (hv : g.vs.ids = some vs) : vs ≠ [] := by
  have hi := h.inv
  obtain ⟨es, vs', a1, -, -, -, -, -, a7⟩ := hi.edges
  obtain rfl := Option.some.inj (a1.symm.trans hv)
  obtain ⟨l, b1, -, -, b4, -⟩ := ids_spec hi.wf hi.fits
  obtain rfl := Option.some.inj (a1.symm.trans b1)
  cases h with
  | init => exact absurd rfl hne
  | @snoc g0 log0 c g' a hm hlg hs =>
    cases c with
    | vertex x =>
      simp only [Mixed.insert, Option.some.injEq, Prod.mk.injEq] at hs
      obtain ⟨rfl, rfl⟩ := hs
      obtain ⟨y, hy, -⟩ := hi.logged (x, (g0.tryAddVertex key ordV x).2.1, (g0.tryAddVertex key ordV x).2.2)
        (by rw [vertexCalls_append]; simp [vertexCalls])
      exact List.ne_nil_of_mem ((b4 _).mpr (by rw [hy]; rfl))
    | edge u v b =>
      cases ht : g0.tryAddEdge dflt o moved u v b with
      | none => simp [Mixed.insert, ht] at hs
      | some r =>
        simp only [Mixed.insert, ht, Option.map_some, Option.some.injEq, Prod.mk.injEq] at hs
        obtain ⟨rfl, rfl⟩ := hs
        exact List.ne_nil_of_mem (a7 ((u, v, b), r.2) (by rw [edgeCalls_append]; simp [edgeCalls])).1

private theorem Made.of_nil (h : Made key dflt ordV o moved dir k kv g []) : g = Mixed.init dir k kv := by
  generalize hl : ([] : List (Insert α β × Got)) = log at h
  cases h with
  | init => rfl
  | snoc => simp at hl

/-- **C111** The edges after any allowed calls, at least one:
* the answers are those of the specification, `edge_count()` is the number of edges added, and all ends are vertices;
* the out-edges of a vertex lead where the specification says (in the order of insertion for a sequence), with different ids and the
  bundles given (those at the second end of an undirected edge with what was left of them);
* the in-edges of a bidirectional graph are just the out-edges that lead to the vertex, those of an undirected one the out-edges
  reversed;
* `edges()` yields every edge added once;
* every edge returned is still an out-edge of its source. -/
theorem mixed_edges (h : Made key dflt ordV o moved dir k kv g log) (hne : log ≠ []) :
    ∃ a vs, g.see = some a ∧ g.vertices = some vs ∧ a.vertices = vs ∧
      ((edgeCalls log).map fun c => c.2.isSome) = (accept k.unique dir.un [] ((edgeCalls log).map Prod.fst)).2 ∧
      a.edgeCount = ((edgeCalls log).filterMap Prod.snd).length ∧
      (∀ c ∈ edgeCalls log, c.1.1 ∈ vs ∧ c.1.2.1 ∈ vs) ∧
      (∀ u ∈ vs, ∃ l, a.outEdges u = some l ∧ (∀ e ∈ l, e.1 = u) ∧ (l.map fun e => e.2.2).Nodup ∧
        (l.map fun e => e.2.1).Perm
          ((outOf dir.un (accept k.unique dir.un [] ((edgeCalls log).map Prod.fst)).1 u).map Prod.fst) ∧
        (k.assoc = false → (l.map fun e => e.2.1) =
          (outOf dir.un (accept k.unique dir.un [] ((edgeCalls log).map Prod.fst)).1 u).map Prod.fst) ∧
        (l.map fun e => (e.2.1, a.bundle e)).Perm
          ((outWith moved dir.un (accept k.unique dir.un [] ((edgeCalls log).map Prod.fst)).1 u).map
            fun d => (d.1, some d.2))) ∧
      (dir = .bidirectional → ∀ u ∈ vs, ∃ m, a.inEdges u = some m ∧
        m.Perm ((vs.flatMap fun w => (a.outEdges w).getD []).filter fun e => decide (e.2.1 = u))) ∧
      (dir = .undirected → ∀ u ∈ vs, ∃ l, a.outEdges u = some l ∧
        a.inEdges u = some (l.map fun e => (e.2.1, e.1, e.2.2))) ∧
      (∃ l, (∀ fuel, l.length < fuel → a.allEdges fuel = some l) ∧
        (l.map fun e => (e.1, e.2.1)).Perm
          ((accept k.unique dir.un [] ((edgeCalls log).map Prod.fst)).1.map (ends dir.un)) ∧
        (l.map fun e => (e.1, e.2.2)).Nodup) ∧
      (∀ e ∈ (edgeCalls log).filterMap Prod.snd, ∃ l, a.outEdges e.1 = some l ∧ e ∈ l) := by
  have hi := h.inv
  obtain ⟨es, vs, a1, a2, a3, a4, a5, a6, a7⟩ := hi.edges
  have hdir := hi.dirEq
  subst hdir
  have hl : k = .vec → es.length < 2 ^ 31 := fun hk => lt_of_le_of_lt a6 (hi.len hk)
  have hvne : vs ≠ [] := by
    exact h.vertices_ne hne a1
  refine ⟨{ g.adj with vertices := vs }, vs, ?_, a1, rfl, a4, ?_, a7, ?_, ?_, ?_, ?_, ?_⟩
  · simp only [Mixed.see, a1, Option.map_some]
  · rw [a5, List.length_map]
    exact a2.cnt
  · intro u hu
    obtain ⟨l, h1, h2, h3, h4, -⟩ := a2.outEdges hl hu
    obtain ⟨t1, t2⟩ := a2.outEdges_targets u
    have htgt : ((outOf g.adj.dir.un es u).map Prod.fst) =
        (outOf g.adj.dir.un (accept k.unique g.adj.dir.un [] ((edgeCalls log).map Prod.fst)).1 u).map Prod.fst := by
      rw [← a3, outOf_strip, List.map_map]; rfl
    refine ⟨l, h1, h2, h3, ?_, fun ha => ?_, ?_⟩
    · rw [h4, ← htgt]; exact t1
    · rw [h4, ← htgt]; exact t2 ha
    · rw [outEdges_bundles h1 (a2.out u).wf (a2.fits hl u), ← a3]
      refine ((a2.out u).perm.map _).trans (List.Perm.of_eq ?_)
      rw [outN_strip]; rfl
  · intro hb u hu
    exact a2.inEdges hl hb hu
  · intro hd u hu
    obtain ⟨l, h1, -⟩ := a2.outEdges hl hu
    exact ⟨l, h1, by rw [inEdges_undirected (g := { g.adj with vertices := vs }) hd, h1]; rfl⟩
  · obtain ⟨l, h1, h2, h3, -⟩ := a2.allEdges hl hvne
    refine ⟨l, h1, ?_, h3⟩
    have hends : es.map (ends g.adj.dir.un) =
        (accept k.unique g.adj.dir.un [] ((edgeCalls log).map Prod.fst)).1.map (ends g.adj.dir.un) := by
      rw [← a3, List.map_map]; rfl
    rw [← hends]
    exact h2
  · intro e he
    rw [a5] at he
    obtain ⟨f, hf, rfl⟩ := List.mem_map.mp he
    obtain ⟨l, h1, -, -, -, h5⟩ := a2.outEdges hl (a2.closed f hf).1
    exact ⟨l, h1, (h5 _ _).mpr ⟨_, a2.ids f hf⟩⟩

/-! ### Searches -/

/-- A graph has these vertices, and its edges link the vertices that the list of edges links. -/
structure Displays (G : Graph Int (EdgeN Int)) (un : Bool) (es : List (Int × Int × β)) (vs : List Int) : Prop where
  vertices : G.vertices = vs
  ends : ∀ e ∈ es, e.1 ∈ vs ∧ e.2.1 ∈ vs
  wf : G.WF
  adj : ∀ u v, G.Adj u v ↔ Link un es u v

/-- **C111** What a search sees after any allowed calls: `vertices()`, and just the edges of the calls. -/
theorem mixed_graph (h : Made key dflt ordV o moved dir k kv g log) :
    ∃ a vs, g.see = some a ∧ g.vertices = some vs ∧ Displays a.graph dir.un ((edgeCalls log).map Prod.fst) vs := by
  cases hne : log with
  | nil =>
    subst hne
    obtain rfl := h.of_nil
    obtain ⟨es, vs, a1, a2, -⟩ := (MInv.init (key := key) (dflt := dflt) (moved := moved) (dir := dir) (k := k) (kv := kv)
      (α := α) (β := β)).edges
    have hvs : vs = [] := by
      have h0 : toInt 0 = 0 := toInt_of_lt (Nat.two_pow_pos 31)
      revert a1
      cases kv <;> simp [Cont.ids, Mixed.init, Cont.empty, Kind.ra, Cont.idEnd, h0] <;> exact fun h => h.symm
    subst hvs
    refine ⟨{ (Mixed.init dir k kv : Mixed α β).adj with vertices := [] }, [], by simp only [Mixed.see, a1, Option.map_some],
      a1, rfl, by simp [edgeCalls], ⟨List.nodup_nil, fun u hu => absurd hu List.not_mem_nil,
        fun u hu => absurd hu List.not_mem_nil⟩, fun u v => ?_⟩
    constructor
    · rintro ⟨e, he, -⟩
      simp [AdjN.graph, AdjN.outEdges] at he
    · rintro ⟨e, he, -⟩
      simp [edgeCalls] at he
  | cons c rest =>
    rw [← hne]
    have hne' : log ≠ [] := by rw [hne]; simp
    obtain ⟨a, vs, b1, b2, b3, -, -, b6, b7, -⟩ := mixed_edges h hne'
    obtain ⟨vs', c1, c2, -⟩ := mixed_vertices h
    obtain rfl := Option.some.inj (b2.symm.trans c1)
    have hends : ∀ e ∈ (edgeCalls log).map Prod.fst, e.1 ∈ vs ∧ e.2.1 ∈ vs := by
      intro e he
      obtain ⟨c, hc, rfl⟩ := List.mem_map.mp he
      exact b6 c hc
    have hmem : ∀ u v, Link dir.un ((edgeCalls log).map Prod.fst) u v → u ∈ vs ∧ v ∈ vs := by
      rintro u v ⟨e, he, ⟨rfl, rfl⟩ | ⟨-, rfl, rfl⟩⟩
      · exact hends e he
      · exact (hends e he).symm
    have hadj : ∀ u v, a.graph.Adj u v ↔ Link dir.un ((edgeCalls log).map Prod.fst) u v := by
      intro u v
      by_cases hu : u ∈ vs
      · obtain ⟨l, p1, p2, -, p4, -⟩ := b7 u hu
        have hg : a.graph.out u = l := by simp [AdjN.graph, p1]
        have : a.graph.Adj u v ↔ v ∈ l.map fun e => e.2.1 := by
          unfold Graph.Adj
          rw [hg, List.mem_map]; rfl
        rw [this, p4.mem_iff, mem_outOf_link, accept_link]
        simp
      · constructor
        · rintro ⟨e, he, -⟩
          have hu' : u ∉ a.vertices := by rw [b3]; exact hu
          simp [AdjN.graph, AdjN.outEdges, hu'] at he
        · intro hl
          exact absurd (hmem u v hl).1 hu
    refine ⟨a, vs, b1, b2, b3, hends, ⟨by rw [show a.graph.vertices = vs from b3]; exact c2, ?_, ?_⟩, hadj⟩
    · intro u hu e he
      obtain ⟨l, p1, p2, -⟩ := b7 u (by rw [← b3]; exact hu)
      have hg : a.graph.out u = l := by simp [AdjN.graph, p1]
      rw [hg] at he
      exact p2 e he
    · intro u hu e he
      show _ ∈ a.vertices
      rw [b3]
      exact (hmem u _ ((hadj u _).mp ⟨e, he, rfl⟩)).2

section

variable {G : Graph Int (EdgeN Int)} {un : Bool} {es : List (Int × Int × β)} {vs : List Int}

theorem Displays.adj_eq (h : Displays G un es vs) : G.Adj = Link un es := by
  funext u v; exact propext (h.adj u v)

theorem Displays.reach (h : Displays G un es vs) (u v : Int) : G.Reach u v ↔ Path un es u v := by
  unfold Graph.Reach Path
  rw [h.adj_eq]

theorem Displays.walk (h : Displays G un es vs) (m : Nat) (u v : Int) : G.Walk m u v ↔ Steps un es m u v := by
  induction m generalizing v with
  | zero =>
    constructor
    · intro hw
      cases hw
      rfl
    · rintro rfl
      exact .nil u
  | succ m ih =>
    constructor
    · intro hw
      cases hw with
      | snoc hw hadj => exact ⟨_, (ih _).mp hw, (h.adj _ _).mp hadj⟩
    · rintro ⟨w, h1, h2⟩
      exact .snoc ((ih w).mpr h1) ((h.adj _ _).mpr h2)

end

/-- **C111** Depth-first search from a vertex ends, and discovers once each just the vertices with a path from it along the edges of
the calls. -/
theorem mixed_dfs (h : Made key dflt ordV o moved dir k kv g log) {a : AdjN Int β} (ha : g.see = some a) {u : Int}
    (hu : (g.atVertex u).isSome = true) (flags : Int → Bool) :
    ∃ fuel flags' l, dfsFrom a.graph (discoveredFlag.fst logger) (fun _ => false) fuel u (flags, []) = some (flags', l) ∧
      (discs l).Nodup ∧ (∀ v, v ∈ discs l ↔ Path dir.un ((edgeCalls log).map Prod.fst) u v) ∧
      ∀ v, (g.atVertex v).isSome = true → (flags' v = true ↔ Path dir.un ((edgeCalls log).map Prod.fst) u v) := by
  obtain ⟨a', vs, h1, h2, h3⟩ := mixed_graph h
  obtain rfl := Option.some.inj (ha.symm.trans h1)
  obtain ⟨vs', c1, -, -, c4, -⟩ := mixed_vertices h
  obtain rfl := Option.some.inj (h2.symm.trans c1)
  have hmem : ∀ v, v ∈ a.graph.vertices ↔ (g.atVertex v).isSome = true := fun v => by rw [h3.vertices, c4]
  obtain ⟨⟨fuel, ⟨flags', l⟩, hr⟩, h5⟩ := dfsFrom_explores h3.wf u ((hmem u).mpr hu) flags
  obtain ⟨h6, h7⟩ := h5 fuel flags' l hr
  exact ⟨fuel, flags', l, hr, h6.once, fun v => by rw [h6.exactly, h3.reach],
    fun v hv => by rw [h7 v ((hmem v).mpr hv), h3.reach]⟩

/-- **C111** Breadth-first search from a vertex ends, and records the number of edges of a shortest path along the edges of the calls, or
-1 if there is no path. -/
theorem mixed_bfs (h : Made key dflt ordV o moved dir k kv g log) {a : AdjN Int β} (ha : g.see = some a) (null : Int) {u : Int}
    (hu : (g.atVertex u).isSome = true) (d0 : Int → Int) :
    ∃ fuel d l, bfs a.graph ((distanceRecorder a.graph).fst logger) (fun _ => false) null fuel [u] (d0, []) = some (d, l) ∧
      ∀ v, (g.atVertex v).isSome = true →
        (∀ m : Nat, Steps dir.un ((edgeCalls log).map Prod.fst) m u v → 0 ≤ d v ∧ d v ≤ m) ∧
        (∀ m : Nat, d v = m → Steps dir.un ((edgeCalls log).map Prod.fst) m u v) ∧
        (d v = -1 ↔ ¬Path dir.un ((edgeCalls log).map Prod.fst) u v) := by
  obtain ⟨a', vs, h1, h2, h3⟩ := mixed_graph h
  obtain rfl := Option.some.inj (ha.symm.trans h1)
  obtain ⟨vs', c1, -, -, c4, -⟩ := mixed_vertices h
  obtain rfl := Option.some.inj (h2.symm.trans c1)
  have hmem : ∀ v, v ∈ a.graph.vertices ↔ (g.atVertex v).isSome = true := fun v => by rw [h3.vertices, c4]
  obtain ⟨⟨fuel, ⟨d, l⟩, hr⟩, h5⟩ := bfs_distances h3.wf null [u] (by simpa using (hmem u).mpr hu) (by simp) d0
  obtain ⟨-, -, h6, h7⟩ := h5 fuel d l hr
  refine ⟨fuel, d, l, hr, fun v hv => ?_⟩
  have hsp : ∀ (m : Nat) (w : Int), Steps dir.un ((edgeCalls log).map Prod.fst) m u w →
      Path dir.un ((edgeCalls log).map Prod.fst) u w := by
    intro m
    induction m with
    | zero => intro w hw; rw [show u = w from hw]; exact .refl
    | succ m ih => rintro w ⟨x, h1, h2⟩; exact (ih x h1).tail h2
  by_cases hp : Path dir.un ((edgeCalls log).map Prod.fst) u v
  · obtain ⟨m, hm, ⟨s, hs, hw⟩, hmin⟩ := h6 v ⟨u, by simp, (h3.reach u v).mpr hp⟩
    obtain rfl := List.mem_singleton.mp hs
    refine ⟨fun m' hm' => ?_, fun m' hm' => ?_, by constructor <;> intro hx <;> first | omega | exact absurd hp hx⟩
    · have := hmin m' s (by simp) ((h3.walk m' s v).mpr hm')
      omega
    · have : m' = m := by omega
      rw [this]
      exact (h3.walk m s v).mp hw
  · have hd := h7 v ((hmem v).mpr hv) (by
      rintro ⟨s, hs, hr⟩
      rw [List.mem_singleton.mp hs] at hr
      exact hp ((h3.reach u v).mp hr))
    exact ⟨fun m hm => absurd (hsp m v hm) hp, fun m hm => by omega, by simp [hd, hp]⟩

/-- **C111** In an undirected graph two vertices get the same component number just if there is a path between them along the edges of the
calls. -/
theorem mixed_components (h : Made key dflt ordV o moved .undirected k kv g log) {a : AdjN Int β} (ha : g.see = some a)
    (m : Int → Int) :
    ∃ fuel comp count, dfsAll a.graph (componentRecorder : Comp _ Int (EdgeN Int)) (fun _ => false) fuel (m, 0) = some (comp, count) ∧
      (∀ u v, (g.atVertex u).isSome = true → (g.atVertex v).isSome = true →
        (comp u = comp v ↔ Path true ((edgeCalls log).map Prod.fst) u v)) ∧
      ∀ i, (∃ v, (g.atVertex v).isSome = true ∧ comp v = i) ↔ 0 ≤ i ∧ i < count := by
  obtain ⟨a', vs, h1, h2, h3⟩ := mixed_graph h
  obtain rfl := Option.some.inj (ha.symm.trans h1)
  obtain ⟨vs', c1, -, -, c4, -⟩ := mixed_vertices h
  obtain rfl := Option.some.inj (h2.symm.trans c1)
  have hmem : ∀ v, v ∈ a.graph.vertices ↔ (g.atVertex v).isSome = true := fun v => by rw [h3.vertices, c4]
  have hsym : a.graph.Symmetric := by
    intro u _ v hv
    rw [h3.adj] at hv ⊢
    obtain ⟨e, he, h1⟩ := hv
    refine ⟨e, he, ?_⟩
    rcases h1 with ⟨h1, h2⟩ | ⟨-, h1, h2⟩
    · exact Or.inr ⟨rfl, h1, h2⟩
    · exact Or.inl ⟨h1, h2⟩
  obtain ⟨⟨fuel, ⟨comp, count⟩, hr⟩, h5⟩ := components_spec h3.wf hsym m
  obtain ⟨h6, h7⟩ := h5 fuel comp count hr
  refine ⟨fuel, comp, count, hr, fun u v hu hv => ?_, fun i => ?_⟩
  · rw [h6 u ((hmem u).mpr hu) v ((hmem v).mpr hv), h3.reach]; rfl
  · rw [← h7 i]
    simp only [hmem]

/-- **C111** If the edges of the calls have no cycle, the topological sort outputs every vertex once, in an order in which every edge leads
to a vertex output earlier. -/
theorem mixed_topologicalSort (h : Made key dflt ordV o moved dir k kv g log) {a : AdjN Int β} (ha : g.see = some a)
    (hac : ∀ u, ¬Relation.TransGen (Link dir.un ((edgeCalls log).map Prod.fst)) u u) (flags : Int → Bool) :
    ∃ fuel output, topologicalSort a.graph fuel flags = some output ∧ output.Nodup ∧
      (∀ u, u ∈ output ↔ (g.atVertex u).isSome = true) ∧
      ∀ e ∈ (edgeCalls log).map Prod.fst, output.idxOf e.2.1 < output.idxOf e.1 := by
  obtain ⟨a', vs, h1, h2, h3⟩ := mixed_graph h
  obtain rfl := Option.some.inj (ha.symm.trans h1)
  obtain ⟨vs', c1, c2, -, c4, -⟩ := mixed_vertices h
  obtain rfl := Option.some.inj (h2.symm.trans c1)
  obtain ⟨output, ⟨fuel, hr⟩, h5, h6⟩ := topologicalSort_spec h3.wf (fun u _ => by rw [h3.adj_eq]; exact hac u) flags
  rw [h3.vertices] at h5
  refine ⟨fuel, output, hr, h5.nodup_iff.mpr c2, fun u => by rw [h5.mem_iff, c4], fun e he => ?_⟩
  obtain ⟨f, hf, ht⟩ := (h3.adj e.1 e.2.1).mpr ⟨e, he, Or.inl ⟨rfl, rfl⟩⟩
  have := h6 e.1 (by rw [h3.vertices]; exact (h3.ends e he).1) f hf
  rwa [ht] at this

/-! ### Removal of vertices -/

private theorem outEdges_congr {a a' : AdjN Int β} {u : Int} (hu : u ∈ a.vertices) (hu' : u ∈ a'.vertices)
    (ho : a'.outs u = a.outs u) : a'.outEdges u = a.outEdges u := by
  have hg : a'.getEdge u = a.getEdge u := by
    funext i
    simp only [AdjN.getEdge, ho]
  unfold AdjN.outEdges
  rw [if_neg (not_not.mpr hu), if_neg (not_not.mpr hu'), ho, hg]

/-- `remove_vertex` leaves the edges that lead to the vertex: afterwards the other end of each such edge still has an out-edge to what is
no vertex any more, and the edges are still counted. -/
theorem removeVertex_dangling_fails (h : Made key dflt ordV o moved dir k kv g log) (hk : kv ≠ .vec) {u v : Int} (huv : u ≠ v)
    (he : ∃ c ∈ edgeCalls log, c.1.1 = u ∧ c.1.2.1 = v) :
    ∃ g' a a', g.removeVertex v = some g' ∧ g.see = some a ∧ g'.see = some a' ∧
      v ∉ a'.vertices ∧ (∃ l, a'.outEdges u = some l ∧ ∃ e ∈ l, e.2.1 = v) ∧ a'.edgeCount = a.edgeCount := by
  have hi := h.inv
  obtain ⟨a, vs, h1, h2, h3⟩ := mixed_graph h
  obtain ⟨c, hc, rfl, rfl⟩ := he
  have hmem := h3.ends c.1 (List.mem_map_of_mem hc)
  obtain ⟨e, hev, het⟩ := (h3.adj c.1.1 c.1.2.1).mpr ⟨c.1, List.mem_map_of_mem hc, Or.inl ⟨rfl, rfl⟩⟩
  have hra : g.vs.kind.ra = false := by
    rw [hi.kind]
    cases kv <;> first | rfl | exact absurd rfl hk
  have hids : vs = g.vs.items.map fun p => (p.1 : Int) := by
    have : g.vs.ids = some vs := h2
    simp only [Cont.ids, hra, Bool.false_eq_true, if_false, Option.some.injEq] at this
    exact this.symm
  obtain ⟨vs', v1, v2, -⟩ := mixed_vertices h
  obtain rfl := Option.some.inj (h2.symm.trans v1)
  obtain ⟨p, hp, hpv⟩ := List.mem_map.mp (by rw [hids] at hmem; exact hmem.2)
  obtain ⟨q, hq, hqu⟩ := List.mem_map.mp (by rw [hids] at hmem; exact hmem.1)
  have hne : c.1.2.1 ≠ -1 := by
    have : (p.1 : Int) = c.1.2.1 := hpv
    omega
  -- the position of the vertex
  rcases hf : g.vs.items.findIdx? (fun p => (p.1 : Int) == c.1.2.1) with _ | i
  · rw [List.findIdx?_eq_none_iff] at hf
    have := hf p hp
    simp [hpv] at this
  · obtain ⟨hi1, hi2, -⟩ := List.findIdx?_eq_some_iff_getElem.mp hf
    have hi2 : ((g.vs.items[i]).1 : Int) = c.1.2.1 := by simpa using hi2
    have hrem : g.removeVertex c.1.2.1 = some ⟨{ g.vs with items := g.vs.items.eraseIdx i }, g.adj⟩ := by
      simp only [Mixed.removeVertex, Cont.idErase, Cont.idToIterator, hra, Bool.false_eq_true, if_false, hne, hf, if_pos hi1,
        Option.map_some]
    have hsee' : (⟨{ g.vs with items := g.vs.items.eraseIdx i }, g.adj⟩ : Mixed α β).see =
        some { g.adj with vertices := (g.vs.items.eraseIdx i).map fun p => (p.1 : Int) } := by
      simp only [Mixed.see, Cont.ids, hra, Bool.false_eq_true, if_false, Option.map_some]
    have hsee : g.see = some { g.adj with vertices := vs } := by
      have : g.vs.ids = some vs := h2
      simp only [Mixed.see, this, Option.map_some]
    obtain rfl := Option.some.inj (h1.symm.trans hsee)
    refine ⟨_, _, _, hrem, hsee, hsee', ?_, ?_, rfl⟩
    · show c.1.2.1 ∉ (g.vs.items.eraseIdx i).map fun p => (p.1 : Int)
      rw [← List.eraseIdx_map, ← hids]
      intro hm
      have hlen : i < vs.length := by rw [hids, List.length_map]; exact hi1
      have hget : vs[i] = c.1.2.1 := by simp only [hids, List.getElem_map]; exact hi2
      rw [List.mem_eraseIdx_iff_getElem] at hm
      obtain ⟨j, hj, hji, hjv⟩ := hm
      exact hji ((List.Nodup.getElem_inj_iff v2).mp (hjv.trans hget.symm))
    · have hu' : c.1.1 ∈ (g.vs.items.eraseIdx i).map fun p => (p.1 : Int) := by
        refine List.mem_map.mpr ⟨q, ?_, hqu⟩
        rw [List.mem_eraseIdx_iff_getElem]
        obtain ⟨j, hj, hjq⟩ := List.mem_iff_getElem.mp hq
        refine ⟨j, hj, ?_, hjq⟩
        rintro rfl
        rw [hjq] at hi2
        exact huv (hqu.symm.trans hi2)
      have hu : c.1.1 ∈ vs := hmem.1
      have hout : ({ g.adj with vertices := (g.vs.items.eraseIdx i).map fun p => (p.1 : Int) } : AdjN Int β).outEdges c.1.1 =
          ({ g.adj with vertices := vs } : AdjN Int β).outEdges c.1.1 := outEdges_congr hu hu' rfl
      rw [hout]
      rcases ho : ({ g.adj with vertices := vs } : AdjN Int β).outEdges c.1.1 with _ | l
      · simp [AdjN.graph, ho] at hev
      · refine ⟨l, rfl, e, ?_, het⟩
        simpa [AdjN.graph, ho] using hev

/-- With numbered vertices `remove_vertex` renumbers those behind, but not the ends of edges: the vertex `v + 1` becomes `v`, while the
out-edges of a vertex before the one removed still lead to the old numbers. -/
theorem removeVertex_shift_fails (h : Made key dflt ordV o moved dir k .vec g log) {u w : Int} (huw : 0 ≤ u ∧ u < w)
    (hw : w < numbered 0 log) :
    ∃ g' a a', g.removeVertex w = some g' ∧ g.see = some a ∧ g'.see = some a' ∧
      (∀ v, w ≤ v → g'.atVertex v = g.atVertex (v + 1)) ∧ a'.outEdges u = a.outEdges u ∧ (a.outEdges u).isSome = true ∧
      a'.edgeCount = a.edgeCount := by
  have hi := h.inv
  obtain ⟨a, vs, h1, h2, h3⟩ := mixed_graph h
  obtain ⟨vs', v1, v2, -, -, -, -, -, -, v3, -⟩ := mixed_vertices h
  obtain rfl := Option.some.inj (h2.symm.trans v1)
  have hra : g.vs.kind.ra = true := by rw [hi.kind]; rfl
  have hlen := hi.count rfl
  have hfit := hi.fits hra
  have hrem : g.removeVertex w = some ⟨{ g.vs with items := g.vs.items.eraseIdx w.toNat },
      { g.adj with
        outs := fun i => if i < w then g.adj.outs i else g.adj.outs (i + 1)
        ins := fun i => if i < w then g.adj.ins i else g.adj.ins (i + 1) }⟩ := by
    have h4 : 0 ≤ w ∧ w ≤ g.vs.items.length := by omega
    have h5 : w.toNat < g.vs.items.length := by omega
    simp only [Mixed.removeVertex, Cont.idErase, Cont.idToIterator, hra, if_true, if_pos h4, if_pos h5, Option.map_some]
  have hlen' : (g.vs.items.eraseIdx w.toNat).length = g.vs.items.length - 1 := by
    rw [List.length_eraseIdx, if_pos (by omega)]
  have hids : ({ g.vs with items := g.vs.items.eraseIdx w.toNat } : Cont α).ids =
      some (firstVertices (g.vs.items.length - 1)) := by
    simp only [Cont.ids, hra, if_true, Cont.idEnd, hlen']
    rw [toInt_of_lt (by omega), if_pos (by omega)]
    rfl
  have hsee : g.see = some { g.adj with vertices := vs } := by
    have : g.vs.ids = some vs := h2
    simp only [Mixed.see, this, Option.map_some]
  obtain rfl := Option.some.inj (h1.symm.trans hsee)
  have hu : u ∈ vs := by
    rw [(v3 rfl).1, mem_firstVertices]
    omega
  refine ⟨_, _, (⟨g.adj.dir, firstVertices (g.vs.items.length - 1), fun i => if i < w then g.adj.outs i else g.adj.outs (i + 1),
    fun i => if i < w then g.adj.ins i else g.adj.ins (i + 1), g.adj.edges⟩ : AdjN Int β), hrem, hsee,
    by simp only [Mixed.see, hids, Option.map_some], ?_, ?_, ?_, rfl⟩
  · intro v hv
    have h0 : 0 ≤ v := by omega
    have h0' : 0 ≤ v + 1 := by omega
    simp only [Mixed.atVertex, Cont.at, hra, if_true, if_pos h0, if_pos h0', Cont.values, List.getElem?_map]
    rw [List.getElem?_eraseIdx, if_neg (by omega)]
    congr 2
    omega
  · refine outEdges_congr hu ?_ (if_pos huw.2)
    show u ∈ firstVertices _
    rw [mem_firstVertices]; omega
  · obtain ⟨es, l, a1, a2, -, -, -, a6, -⟩ := hi.edges
    obtain rfl := Option.some.inj (a1.symm.trans h2)
    obtain ⟨l, h5, -⟩ := a2.outEdges (fun hk => lt_of_le_of_lt a6 (hi.len hk)) hu
    rw [h5]; rfl

/-! ### Examples -/

instance (log : List (Insert α β × Got)) (c : Insert α β) : Decidable (Legal k kv log c) := by
  cases c <;> unfold Legal <;> infer_instance

/-- Calls one after another, as long as they are allowed. -/
def Mixed.run (key : α → κ) (dflt : α) (ordV : Order α) (o : OrdersN Int β) (moved : β → β) (k kv : Kind) :
    Mixed α β → List (Insert α β × Got) → List (Insert α β) → Option (Mixed α β × List (Insert α β × Got))
  | g, log, [] => some (g, log)
  | g, log, c :: cs =>
    if Legal k kv log c then
      match g.insert key dflt ordV o moved c with
      | none => none
      | some (g', a) => Mixed.run key dflt ordV o moved k kv g' (log ++ [(c, a)]) cs
    else none

/-- What such calls reach satisfies the hypothesis of the theorems. -/
theorem Mixed.run_made {cs : List (Insert α β)} : ∀ {g : Mixed α β} {log : List (Insert α β × Got)} {r},
    Made key dflt ordV o moved dir k kv g log → g.run key dflt ordV o moved k kv log cs = some r →
    Made key dflt ordV o moved dir k kv r.1 r.2 := by
  induction cs with
  | nil => intro g log r h hr; rw [← Option.some.inj hr]; exact h
  | cons c cs ih =>
    intro g log r h hr
    unfold Mixed.run at hr
    by_cases hl : Legal k kv log c
    · rw [if_pos hl] at hr
      cases hc : g.insert key dflt ordV o moved c with
      | none => rw [hc] at hr; cases hr
      | some p =>
        rw [hc] at hr
        exact ih (h.snoc hl hc) hr
    · rw [if_neg hl] at hr; cases hr

/-- Vertices in a set, by their names: 20 is added twice and is the same vertex. -/
def namedCalls : List (Insert Nat String) :=
  [.vertex 20, .vertex 10, .edge 0 1 "x", .vertex 20, .vertex 30, .edge 2 0 "y", .edge 1 0 "z"]

example : ((Mixed.init .undirected .set .set).run id 0 natOrder plainN id .set .set [] namedCalls).map
    (fun r => (r.1.vertices, r.1.atVertex 0, r.1.vertexCount, r.2.map Prod.snd, r.1.see.map fun a => a.edgeCount)) =
    some (some [1, 0, 2], some 20, 3, [.vertex 0 true, .vertex 1 true, .edge (some (0, 1, 0)), .vertex 0 false, .vertex 2 true,
      .edge (some (2, 0, 0)), .edge none], some 2) := by
  decide +kernel
example : ((Mixed.init .undirected .set .set).run id 0 natOrder plainN id .set .set [] namedCalls).map
    (fun r => (r.1.see.bind fun a => a.outEdges 0, r.1.see.bind fun a => a.allEdges 10)) =
    some (some [(0, 1, 0), (0, 2, 1)], some [(0, 1, 0), (0, 2, 1)]) := by
  decide +kernel

/-- Numbered vertices: the edge adds the vertices up to 3, the next vertex is 4. -/
example : ((Mixed.init .directed .vec .vec).run id 0 natOrder plainN id .vec .vec [] [.vertex 7, .edge 3 0 "x", .vertex 8]).map
    (fun r => (r.1.vertices, (r.1.vertices.getD []).map r.1.atVertex, r.2.map Prod.snd)) =
    some (some [0, 1, 2, 3, 4], [some 7, some 0, some 0, some 0, some 8],
      [.vertex 0 true, .edge (some (3, 0, 0)), .vertex 4 true]) := by
  decide +kernel

/-- After the removal of 10 the vertex 20 still has an edge to it. -/
example : (((Mixed.init .undirected .set .set).run id 0 natOrder plainN id .set .set [] namedCalls).bind
    fun r => (r.1.removeVertex 1).bind fun g => some (g.vertices, g.see.bind fun a => a.outEdges 0)) =
    some (some [0, 2], some [(0, 1, 0), (0, 2, 1)]) := by
  decide +kernel

/-- After the removal of the vertex 1 the edge from 0 leads to the number 2, which is now the vertex with 9. -/
example : (((Mixed.init .directed .vec .vec).run id 0 natOrder plainN id .vec .vec []
      [.vertex 6, .vertex 7, .vertex 8, .vertex 9, .edge 0 2 "x"]).bind
    fun r => (r.1.removeVertex 1).bind fun g => some (g.see.bind fun a => a.outEdges 0, g.atVertex 2)) =
    some (some [(0, 2, 0)], some 9) := by
  decide +kernel

end Actl.Storage
