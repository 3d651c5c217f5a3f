import Verif.Model.Built
import Verif.Spec.Built
import Verif.Props.Adjacency
import Verif.Props.Bfs
import Verif.Props.Scc
import Verif.Props.Bridges
import Verif.Props.Articulation

/-! C96: searches of a graph built by insertions tell the truth about the inserted edges. -/

namespace Actl.Built

open Actl.Storage Actl.Traversal Actl.Ids

variable {V β R ι : Type}

/-! ### Accepted edges link the same vertices as all edges -/

private theorem link_of_ends [LinearOrder V] {un : Bool} {d e : V × V × ι} (h : ends un d = ends un e) {u v : V}
    (hd : (e.1 = u ∧ e.2.1 = v) ∨ (un = true ∧ e.1 = v ∧ e.2.1 = u)) :
    (d.1 = u ∧ d.2.1 = v) ∨ (un = true ∧ d.1 = v ∧ d.2.1 = u) := by
  have := ends_eq_iff.mp h
  rcases this with ⟨h1, h2⟩ | ⟨h1, h2, h3⟩
  · rw [h1, h2]; exact hd
  · rw [h2, h3]
    rcases hd with ⟨a, b⟩ | ⟨a, b, c⟩
    · exact Or.inr ⟨h1, b, a⟩
    · exact Or.inl ⟨c, b⟩

theorem accept_link [LinearOrder V] (uq un : Bool) (calls : List (V × V × ι)) :
    ∀ (st : List (V × V × ι)) (u v : V), Link un (accept uq un st calls).1 u v ↔ Link un (st ++ calls) u v := by
  induction calls with
  | nil => intro st u v; simp [accept]
  | cons e calls ih =>
    intro st u v
    simp only [accept]
    split
    · rename_i h
      obtain ⟨-, d, hd, hde⟩ := h
      simp only
      rw [ih]
      constructor
      · rintro ⟨x, hx, h⟩
        refine ⟨x, ?_, h⟩
        simp only [List.mem_append, List.mem_cons] at hx ⊢
        tauto
      · rintro ⟨x, hx, h⟩
        simp only [List.mem_append, List.mem_cons] at hx
        rcases hx with hx | rfl | hx
        · exact ⟨x, by simp [hx], h⟩
        · exact ⟨d, by simp [hd], link_of_ends hde h⟩
        · exact ⟨x, by simp [hx], h⟩
    · simp only
      rw [ih]
      simp [Link]

/-! ### The graph of an adjacency list -/

/-- A graph with the vertices `0, .., n - 1` whose edges link the vertices the list of edges links. -/
structure Shows (G : Graph Int (EdgeN Int)) (un : Bool) (es : List (Int × Int × ι)) (n : Nat) : Prop where
  vertices : G.vertices = firstVertices n
  ends : ∀ e ∈ es, (0 ≤ e.1 ∧ e.1 < n) ∧ 0 ≤ e.2.1 ∧ e.2.1 < n
  wf : G.WF
  adj : ∀ u v, G.Adj u v ↔ Link un es u v

theorem mem_outOf_link [LinearOrder V] {un : Bool} {es : List (V × V × ι)} {u v : V} :
    v ∈ (outOf un es u).map Prod.fst ↔ Link un es u v := by
  rw [List.mem_map]
  constructor
  · rintro ⟨d, hd, rfl⟩
    obtain ⟨e, he, ⟨h1, rfl⟩ | ⟨h1, h2, h3, rfl⟩⟩ := mem_outOf.mp hd
    · exact ⟨e, he, Or.inl ⟨h1, rfl⟩⟩
    · exact ⟨e, he, Or.inr ⟨h2, rfl, h3⟩⟩
  · rintro ⟨e, he, ⟨h1, h2⟩ | ⟨h1, h2, h3⟩⟩
    · exact ⟨(e.2.1, e.2.2), mem_outOf.mpr ⟨e, he, Or.inl ⟨h1, rfl⟩⟩, h2⟩
    · by_cases h : e.1 = u
      · exact ⟨(e.2.1, e.2.2), mem_outOf.mpr ⟨e, he, Or.inl ⟨h, rfl⟩⟩, by
          show e.2.1 = v
          rw [h3, ← h, h2]⟩
      · exact ⟨(e.1, e.2.2), mem_outOf.mpr ⟨e, he, Or.inr ⟨h, h1, h3, rfl⟩⟩, h2⟩

private theorem link_ends {un : Bool} {es : List (V × V × ι)} {u v : V} (h : Link un es u v) :
    ∃ e ∈ es, (u = e.1 ∨ u = e.2.1) ∧ (v = e.1 ∨ v = e.2.1) := by
  obtain ⟨e, he, ⟨h1, h2⟩ | ⟨-, h1, h2⟩⟩ := h
  · exact ⟨e, he, Or.inl h1.symm, Or.inr h2.symm⟩
  · exact ⟨e, he, Or.inr h2.symm, Or.inl h1.symm⟩

private theorem shows_of {G : Graph Int (EdgeN Int)} {un : Bool} {es : List (Int × Int × ι)} {n : Nat}
    (hv : G.vertices = firstVertices n) (hsrc : ∀ e, G.src e = e.1)
    (hin : ∀ e ∈ es, (0 ≤ e.1 ∧ e.1 < n) ∧ 0 ≤ e.2.1 ∧ e.2.1 < n)
    (hout : ∀ u ∈ G.vertices, (∀ e ∈ G.out u, e.1 = u) ∧ ∀ v, (∃ e ∈ G.out u, G.tgt e = v) ↔ Link un es u v)
    (hno : ∀ u, u ∉ G.vertices → G.out u = []) : Shows G un es n := by
  have hmem : ∀ u v, Link un es u v → u ∈ G.vertices ∧ v ∈ G.vertices := by
    intro u v h
    obtain ⟨e, he, h1, h2⟩ := link_ends h
    have := hin e he
    rw [hv, mem_firstVertices, mem_firstVertices]
    rcases h1 with rfl | rfl <;> rcases h2 with rfl | rfl <;> tauto
  have hadj : ∀ u v, G.Adj u v ↔ Link un es u v := by
    intro u v
    by_cases hu : u ∈ G.vertices
    · exact (hout u hu).2 v
    · constructor
      · rintro ⟨e, he, -⟩
        rw [hno u hu] at he
        cases he
      · intro h
        exact absurd (hmem u v h).1 hu
  refine ⟨hv, hin, ⟨by rw [hv]; exact firstVertices_nodup n, ?_, ?_⟩, hadj⟩
  · intro u hu e he
    rw [hsrc]
    exact (hout u hu).1 e he
  · intro u hu e he
    exact (hmem u _ ((hadj u _).mp ⟨e, he, rfl⟩)).2

/-- **C96** A graph without an edge container, numbered vertices, built by any sequence of calls of `try_add_edge`
with ends that are indices less than the greatest `int`: a search sees the vertices `0, .., n - 1` and just the
edges of the calls. -/
theorem graphN_shows (o : OrdersN Int β) (moved : β → β) (dir : Dir) (k : Kind) (n : Nat)
    {calls : List (Int × Int × β)} (hne : n ≠ 0 ∨ calls ≠ [])
    (hok : ∀ e ∈ calls, (0 ≤ e.1 ∧ e.1 < 2 ^ 31 - 1) ∧ 0 ≤ e.2.1 ∧ e.2.1 < 2 ^ 31 - 1)
    (hl : k = .vec → calls.length < 2 ^ 31) :
    ∃ g as, (AdjN.init dir k (firstVertices n) : AdjN Int β).tryAddAll o moved calls = some (g, as) ∧
      Shows g.graph dir.un calls (vertexCount n calls) := by
  obtain ⟨g, as, h1, -, -, h4, h5, h6, -⟩ := adjacency_history_partial o moved dir k n hne hok hl
  refine ⟨g, as, h1, shows_of h4 (fun _ => rfl) ?_ ?_ ?_⟩
  · intro e he
    have a := h5 e he
    have b := hok e he
    exact ⟨⟨b.1.1, a.1⟩, b.2.1, a.2⟩
  · intro u hu
    obtain ⟨l, p1, p2, -, p4, -⟩ := h6 u hu
    have hg : g.graph.out u = l := by simp [AdjN.graph, p1]
    rw [hg]
    refine ⟨p2, fun v => ?_⟩
    have : (∃ e ∈ l, g.graph.tgt e = v) ↔ v ∈ l.map fun e => e.2.1 := by
      rw [List.mem_map]; rfl
    rw [this, p4.mem_iff, mem_outOf_link, accept_link]
    simp
  · intro u hu
    have hu' : u ∉ g.vertices := hu
    simp [AdjN.graph, AdjN.outEdges, hu']

/-- The same with an edge container. -/
theorem graphC_shows {rep : Rep Int R} (o : OrdersC Int R β) (junk : Int) (dir : Dir)
    {hasOut : Bool} (hr : hasOut = false → GoodRep rep dir IsInt) {k ke : Kind} (hk : hasOut = false → k.assoc = false)
    (hke : ke.assoc = false) {n : Nat} (hn : n < 2 ^ 31)
    {calls : List (Int × Int × β)} (hne : n ≠ 0 ∨ calls ≠ [])
    (hok : ∀ e ∈ calls, (0 ≤ e.1 ∧ e.1 < 2 ^ 31 - 1) ∧ 0 ≤ e.2.1 ∧ e.2.1 < 2 ^ 31 - 1)
    (hl : k = .vec ∨ ke = .vec → calls.length < 2 ^ 31) :
    ∃ g as, (AdjC.init dir hasOut k ke (firstVertices n) : AdjC Int R β).tryAddAll rep o junk calls =
        some (g, as) ∧ Shows (g.graph rep) dir.un calls (vertexCount n calls) := by
  obtain ⟨g, as, es, h1, -, -, h4, h5, h6, h7, -⟩ :=
    adjacency_history_edges_partial o junk dir hr hk hke hn hne hok hl
  refine ⟨g, as, h1, shows_of h4 (fun _ => rfl) ?_ ?_ ?_⟩
  · intro e he
    have a := h5 e he
    have b := hok e he
    exact ⟨⟨b.1.1, a.1⟩, b.2.1, a.2⟩
  · intro u hu
    obtain ⟨l, p1, p2, -⟩ := h7 u hu
    have hg : (g.graph rep).out u = l := by simp [AdjC.graph, p1]
    rw [hg]
    refine ⟨fun e he => ?_, fun v => ?_⟩
    · obtain ⟨d, -, rfl⟩ := List.mem_map.mp (p2.mem_iff.mp he)
      rfl
    · have h1 : (∃ e ∈ l, (g.graph rep).tgt e = v) ↔ v ∈ (outOf dir.un es u).map Prod.fst := by
        constructor
        · rintro ⟨e, he, rfl⟩
          obtain ⟨d, hd, rfl⟩ := List.mem_map.mp (p2.mem_iff.mp he)
          exact List.mem_map_of_mem hd
        · intro h
          obtain ⟨d, hd, rfl⟩ := List.mem_map.mp h
          exact ⟨(u, d.1, d.2.2), p2.mem_iff.mpr (List.mem_map_of_mem hd), rfl⟩
      have h2 : Link dir.un es u v ↔ Link dir.un (es.map strip) u v := by
        simp [Link, strip]
      rw [h1, mem_outOf_link, h2, h6.1, accept_link]
      simp
  · intro u hu
    have hu' : u ∉ g.vertices := hu
    simp [AdjC.graph, AdjC.outEdges, hu']

/-! ### Searches -/

section

variable {G : Graph Int (EdgeN Int)} {un : Bool} {es : List (Int × Int × ι)} {n : Nat}

theorem Shows.reach (h : Shows G un es n) (u v : Int) : G.Reach u v ↔ Path un es u v := by
  have : G.Adj = Link un es := by funext u v; exact propext (h.adj u v)
  unfold Graph.Reach Path
  rw [this]

private theorem Shows.walk (h : Shows G un es n) (m : Nat) (u v : Int) : G.Walk m u v ↔ Steps un es m u v := by
  induction m generalizing v with
  | zero =>
    constructor
    · intro hw
      cases hw
      rfl
    · rintro rfl
      exact .nil u
  | succ m ih =>
    constructor
    · intro hw
      cases hw with
      | snoc hw hadj => exact ⟨_, (ih _).mp hw, (h.adj _ _).mp hadj⟩
    · rintro ⟨w, h1, h2⟩
      exact .snoc ((ih w).mpr h1) ((h.adj _ _).mpr h2)

theorem Shows.mem (h : Shows G un es n) (u : Int) : u ∈ G.vertices ↔ 0 ≤ u ∧ u < n := by
  rw [h.vertices, mem_firstVertices]

private theorem Shows.symmetric (h : Shows G true es n) : G.Symmetric := by
  intro u _ v hv
  rw [h.adj] at hv ⊢
  obtain ⟨e, he, h1⟩ := hv
  refine ⟨e, he, ?_⟩
  rcases h1 with ⟨h1, h2⟩ | ⟨-, h1, h2⟩
  · exact Or.inr ⟨rfl, h1, h2⟩
  · exact Or.inl ⟨h1, h2⟩

private theorem steps_path {m : Nat} {u v : V} {es : List (V × V × ι)} (hs : Steps un es m u v) : Path un es u v := by
  induction m generalizing v with
  | zero => rw [show u = v from hs]; exact .refl
  | succ m ih =>
    obtain ⟨w, a, b⟩ := hs
    exact (ih a).tail b

/-- **C96** Breadth-first search from different vertices ends and records the number of edges of a shortest path
along the inserted edges, or -1 if there is no path. -/
theorem bfs_shows (h : Shows G un es n) (null : Int) (us : List Int) (hus : ∀ u ∈ us, 0 ≤ u ∧ u < n)
    (hn : us.Nodup) (d0 : Int → Int) :
    (∃ fuel r, bfs G ((distanceRecorder G).fst logger) (fun _ => false) null fuel us (d0, []) = some r) ∧
    ∀ fuel d l, bfs G ((distanceRecorder G).fst logger) (fun _ => false) null fuel us (d0, []) = some (d, l) →
      ∀ v : Int, 0 ≤ v ∧ v < n →
        (∀ m : Nat, d v = m ↔ (∃ u ∈ us, Steps un es m u v) ∧ ∀ m' < m, ∀ u ∈ us, ¬Steps un es m' u v) ∧
        (d v = -1 ↔ ∀ u ∈ us, ¬Path un es u v) := by
  obtain ⟨h1, h2⟩ := bfs_distances h.wf null us (fun u hu => (h.mem u).mpr (hus u hu)) hn d0
  refine ⟨h1, fun fuel d l hb v hv => ?_⟩
  obtain ⟨-, -, h3, h4⟩ := h2 fuel d l hb
  have key : ∀ m : Nat, G.IsDist us v m ↔
      (∃ u ∈ us, Steps un es m u v) ∧ ∀ m' < m, ∀ u ∈ us, ¬Steps un es m' u v := by
    intro m
    unfold Graph.IsDist
    simp only [h.walk]
    constructor
    · rintro ⟨a, b⟩
      exact ⟨a, fun m' hm u hu hs => absurd (b m' u hu hs) (by omega)⟩
    · rintro ⟨a, b⟩
      refine ⟨a, fun m' u hu hs => ?_⟩
      by_contra hlt
      exact b m' (by omega) u hu hs
  have hwr : ∀ (m : Nat) (u : Int), Steps un es m u v → Path un es u v := fun m u hs => steps_path hs
  have huniq : ∀ m m' : Nat, G.IsDist us v m → G.IsDist us v m' → m = m' := by
    rintro m m' ⟨⟨s, hs, a⟩, b⟩ ⟨⟨s', hs', a'⟩, b'⟩
    have := b m' s' hs' a'
    have := b' m s hs a
    omega
  by_cases hr : ∃ u ∈ us, G.Reach u v
  · obtain ⟨m, hm, hd⟩ := h3 v hr
    constructor
    · intro m'
      rw [← key, hm]
      constructor
      · intro e
        rw [← Int.ofNat.inj e]
        exact hd
      · intro h'
        rw [huniq m m' hd h']
    · constructor
      · intro e
        omega
      · intro hno
        obtain ⟨u, hu, hru⟩ := hr
        exact absurd ((h.reach u v).mp hru) (hno u hu)
  · have hd := h4 v ((h.mem v).mpr hv) hr
    constructor
    · intro m
      constructor
      · intro e
        omega
      · rintro ⟨⟨u, hu, hs⟩, -⟩
        exact absurd ⟨u, hu, (h.reach u v).mpr (hwr m u hs)⟩ hr
    · refine ⟨fun _ u hu hp => hr ⟨u, hu, (h.reach u v).mpr hp⟩, fun _ => hd⟩

/-- **C96** Depth-first search from a vertex ends and discovers just the vertices with a path from it along the
inserted edges. -/
theorem dfs_shows (h : Shows G un es n) (u : Int) (hu : 0 ≤ u ∧ u < n) (flags : Int → Bool) :
    (∃ fuel r, dfsFrom G (discoveredFlag.fst logger) (fun _ => false) fuel u (flags, []) = some r) ∧
    ∀ fuel flags' l, dfsFrom G (discoveredFlag.fst logger) (fun _ => false) fuel u (flags, []) = some (flags', l) →
      (∀ v, v ∈ discs l ↔ Path un es u v) ∧ (discs l).Nodup ∧
      ∀ v : Int, 0 ≤ v ∧ v < n → (flags' v = true ↔ Path un es u v) := by
  obtain ⟨h1, h2⟩ := dfsFrom_explores h.wf u ((h.mem u).mpr hu) flags
  refine ⟨h1, fun fuel flags' l hd => ?_⟩
  obtain ⟨h3, h4⟩ := h2 fuel flags' l hd
  refine ⟨fun v => by rw [h3.exactly, h.reach], h3.once, fun v hv => by rw [h4 v ((h.mem v).mpr hv), h.reach]⟩

/-- **C96** For inserted edges without a cycle the topological sort outputs `0, .., n - 1` in an order in which
every inserted edge leads to a vertex output earlier. -/
theorem topologicalSort_shows (h : Shows G un es n) (hac : ∀ u, ¬Relation.TransGen (Link un es) u u)
    (flags : Int → Bool) :
    ∃ output, (∃ fuel, topologicalSort G fuel flags = some output) ∧ output.Perm (firstVertices n) ∧
      ∀ e ∈ es, output.idxOf e.2.1 < output.idxOf e.1 := by
  have hA : G.Adj = Link un es := by funext u v; exact propext (h.adj u v)
  obtain ⟨output, h1, h2, h3⟩ := topologicalSort_spec h.wf (fun u _ => by rw [hA]; exact hac u) flags
  refine ⟨output, h1, by rw [← h.vertices]; exact h2, fun e he => ?_⟩
  have hl : Link un es e.1 e.2.1 := ⟨e, he, Or.inl ⟨rfl, rfl⟩⟩
  obtain ⟨f, hf, ht⟩ := (h.adj _ _).mpr hl
  have := h3 e.1 ((h.mem _).mpr (h.ends e he).1) f hf
  rwa [ht] at this

/-- **C96** In an undirected graph two vertices get the same component number just if there is a path along the
inserted edges; the numbers are `0, .., count - 1`. -/
theorem components_shows (h : Shows G true es n) (m : Int → Int) :
    (∃ fuel r, dfsAll G (componentRecorder : Comp _ Int (EdgeN Int)) (fun _ => false) fuel (m, 0) = some r) ∧
    ∀ fuel comp count,
      dfsAll G (componentRecorder : Comp _ Int (EdgeN Int)) (fun _ => false) fuel (m, 0) = some (comp, count) →
      (∀ u v : Int, 0 ≤ u ∧ u < n → 0 ≤ v ∧ v < n → (comp u = comp v ↔ Path true es u v)) ∧
      ∀ k, (∃ v : Int, (0 ≤ v ∧ v < n) ∧ comp v = k) ↔ 0 ≤ k ∧ k < count := by
  obtain ⟨h1, h2⟩ := components_spec h.wf h.symmetric m
  refine ⟨h1, fun fuel comp count hc => ?_⟩
  obtain ⟨h3, h4⟩ := h2 fuel comp count hc
  refine ⟨fun u v hu hv => ?_, fun k => ?_⟩
  · rw [h3 u ((h.mem u).mpr hu) v ((h.mem v).mpr hv), h.reach]
  · rw [← h4 k]
    simp only [h.mem]

/-- **C96** Vertices with the same strong component number are on a common cycle of inserted edges (the converse
is false of the code, `findStrongComponents_splits`); without cycles all numbers are different. -/
theorem strong_shows_partial (h : Shows G un es n) (h0 : 0 < n) (hn : (n : Int) ≤ 2147483647) (map : Int → Int) :
    (∃ fuel r, findStrongComponents G 2147483647 fuel map = some r) ∧
    ∀ fuel comp, findStrongComponents G 2147483647 fuel map = some comp →
      (∀ u v : Int, 0 ≤ u ∧ u < n → 0 ≤ v ∧ v < n → comp u = comp v → Path un es u v ∧ Path un es v u) ∧
      ((∀ u, ¬Relation.TransGen (Link un es) u u) →
        ∀ u v : Int, 0 ≤ u ∧ u < n → 0 ≤ v ∧ v < n → comp u = comp v → u = v) := by
  have hlen : (G.vertices.length : Int) ≤ 2147483647 := by rw [h.vertices, firstVertices_length]; exact hn
  obtain ⟨h1, h2⟩ := findStrongComponents_sound_partial h.wf 2147483647 (by decide) hlen map
  refine ⟨h1, fun fuel comp hc => ⟨fun u v hu hv he => ?_, fun hac u v hu hv he => ?_⟩⟩
  · have := (h2 fuel comp hc).1 u ((h.mem u).mpr hu) v ((h.mem v).mpr hv) he
    rwa [h.reach, h.reach] at this
  · have hA : G.Adj = Link un es := by funext u v; exact propext (h.adj u v)
    exact (findStrongComponents_acyclic h.wf 2147483647 (by decide) hlen
      (fun u _ => by rw [hA]; exact hac u) map fuel comp hc u ((h.mem u).mpr hu) v ((h.mem v).mpr hv)).mp he

/-- **C96** In an undirected graph every vertex whose removal disconnects two of its neighbours along the inserted
edges is marked (the converse is false of the code, `findArticulationPoints_cycle`). -/
theorem articulation_shows_partial (h : Shows G true es n) (marks : Int → Bool) :
    (∃ fuel r, findArticulationPoints G fuel marks = some r) ∧
    ∀ fuel res, findArticulationPoints G fuel marks = some res →
      ∀ u x y : Int, Link true es u x → Link true es u y → x ≠ u → y ≠ u →
        ¬Path true (es.filter fun e => e.1 ≠ u ∧ e.2.1 ≠ u) x y → res u = true := by
  obtain ⟨h1, h2⟩ := findArticulationPoints_partial h.wf h.symmetric marks
  refine ⟨h1, fun fuel res hr u x y hx hy hxu hyu hp => (h2 fuel res hr).2.1 u ?_ ?_⟩
  · obtain ⟨e, he, a, -⟩ := link_ends hx
    have := h.ends e he
    rw [h.mem]
    rcases a with rfl | rfl <;> tauto
  · refine ⟨x, y, (h.adj u x).mpr hx, (h.adj u y).mpr hy, hxu, hyu, fun hr => hp ?_⟩
    unfold Graph.ReachAvoid at hr
    refine Relation.ReflTransGen.mono (r := G.AdjAvoid u) (p := Link true (es.filter fun e => e.1 ≠ u ∧ e.2.1 ≠ u))
      ?_ _ _ hr
    rintro a b ⟨hadj, ha, hb⟩
    obtain ⟨e, he, hc⟩ := (h.adj a b).mp hadj
    refine ⟨e, List.mem_filter.mpr ⟨he, ?_⟩, hc⟩
    rcases hc with ⟨rfl, rfl⟩ | ⟨-, rfl, rfl⟩ <;> simp [ha, hb]

end

/-! ### Bridges -/

/-- The same edge seen from its other end. -/
def flip (e : EdgeN Int) : EdgeN Int := (e.2.1, e.1, e.2.2)

private theorem outOf_ids [LinearOrder V] {es : List (V × V × (β × Int))} (h : (es.map fun e => e.2.2.2).Nodup)
    (un : Bool) (u : V) : ((outOf un es u).map fun d => d.2.2).Nodup := by
  refine List.Nodup.sublist ?_ h
  unfold outOf
  induction es with
  | nil => simp
  | cons e es ih =>
    have := ih (by simp only [List.map_cons, List.nodup_cons] at h; exact h.2)
    rw [List.filterMap_cons, List.map_cons]
    split
    · exact this.cons _
    · rename_i b hb
      rw [List.map_cons]
      have : b.2.2 = e.2.2.2 := by
        split at hb
        · rw [← Option.some.inj hb]
        · split at hb
          · rw [← Option.some.inj hb]
          · cases hb
      rw [this]
      exact List.Sublist.cons_cons _ (by assumption)

theorem accept_unique [LinearOrder V] (un : Bool) (calls : List (V × V × ι)) :
    ∀ st : List (V × V × ι), (st.map (ends un)).Nodup → ((accept true un st calls).1.map (ends un)).Nodup := by
  induction calls with
  | nil => intro st h; exact h
  | cons e calls ih =>
    intro st h
    simp only [accept]
    split
    · exact ih st h
    · rename_i hn
      refine ih _ ?_
      rw [List.map_append, List.nodup_append]
      refine ⟨h, by simp, ?_⟩
      intro a ha b hb hab
      simp only [List.map_cons, List.map_nil, List.mem_singleton] at hb
      obtain ⟨d, hd, rfl⟩ := List.mem_map.mp ha
      exact hn ⟨trivial, d, hd, by rw [hab, hb]⟩

/-- **C96** An undirected graph with an edge container, built by any sequence of calls; `as` are the handles the
calls returned.  `find_bridges` ends and outputs, in one direction and once, just the edges without which there is
no path between their ends; its component map equates two vertices just if there is a path along the edges, whichever
one of them is left out. -/
theorem bridges_built {rep : Rep Int R} (o : OrdersC Int R β) (junk : Int)
    {hasOut : Bool} (hr : hasOut = false → GoodRep rep .undirected IsInt) {k ke : Kind} (hk : hasOut = false → k.assoc = false)
    (hke : ke.assoc = false) {n : Nat} (hn : n < 2 ^ 31)
    {calls : List (Int × Int × β)} (hne : n ≠ 0 ∨ calls ≠ [])
    (hok : ∀ e ∈ calls, (0 ≤ e.1 ∧ e.1 < 2 ^ 31 - 1) ∧ 0 ≤ e.2.1 ∧ e.2.1 < 2 ^ 31 - 1)
    (hl : k = .vec ∨ ke = .vec → calls.length < 2 ^ 31) (map : Int → Int) :
    ∃ g as, (AdjC.init .undirected hasOut k ke (firstVertices n) : AdjC Int R β).tryAddAll rep o junk calls =
        some (g, as) ∧
      ((as.filterMap id).map fun e => (e.1, e.2.1)) =
        ((accept k.unique true [] calls).1.map fun e => (e.1, e.2.1)) ∧
      (∃ fuel r, findBridges (g.graph rep) (!k.unique) fuel map = some r) ∧
      ∀ fuel bridges comp, findBridges (g.graph rep) (!k.unique) fuel map = some (bridges, comp) →
        (∀ e ∈ as.filterMap id, (e ∈ bridges ∨ flip e ∈ bridges ↔
          ¬Path true ((as.filterMap id).filter (· ≠ e)) e.1 e.2.1)) ∧
        (∀ e ∈ bridges, e ∈ as.filterMap id ∨ flip e ∈ as.filterMap id) ∧
        bridges.Nodup ∧ (∀ e ∈ bridges, flip e ∉ bridges) ∧
        ∀ u v : Int, 0 ≤ u ∧ u < vertexCount n calls → 0 ≤ v ∧ v < vertexCount n calls →
          (comp u = comp v ↔ Path true (as.filterMap id) u v ∧
            ∀ e ∈ as.filterMap id, Path true ((as.filterMap id).filter (· ≠ e)) u v) := by
  obtain ⟨g, as, es, h1, -, -, h4, h5, h6, h7, -⟩ :=
    adjacency_history_edges_partial o junk .undirected hr hk hke hn hne hok hl
  obtain ⟨g', as', h1', hs⟩ := graphC_shows o junk .undirected hr hk hke hn hne hok hl
  obtain ⟨rfl, rfl⟩ : g' = g ∧ as' = as := by
    have := h1'.symm.trans h1
    simp only [Option.some.injEq, Prod.mk.injEq] at this
    exact this
  have hun : Dir.un .undirected = true := rfl
  rw [hun] at h6 h7 hs
  refine ⟨g', as', h1, ?_, ?_⟩
  · rw [h6.2.2, ← h6.1]
    simp [strip, Function.comp_def]
  generalize hH : as'.filterMap id = H at *
  set G := g'.graph rep with hG
  -- the out-edges
  have hflip : ∀ e, flip (flip e) = e := fun e => rfl
  have hids : (H.map fun e => e.2.2).Nodup := by
    have := h6.2.1
    rw [h6.2.2, List.map_map]
    exact this
  have hsame : ∀ e ∈ H, ∀ f ∈ H, e.2.2 = f.2.2 → e = f := fun e he f hf h => List.inj_on_of_nodup_map hids he hf h
  have hmem : ∀ x ∈ G.vertices, ∀ f, f ∈ G.out x ↔ f.1 = x ∧ (f ∈ H ∨ flip f ∈ H) := by
    intro x hx f
    obtain ⟨l, p1, p2, -⟩ := h7 x hx
    have hgl : G.out x = l := by simp [hG, AdjC.graph, p1]
    rw [hgl, p2.mem_iff, List.mem_map, h6.2.2]
    constructor
    · rintro ⟨d, hd, rfl⟩
      refine ⟨rfl, ?_⟩
      obtain ⟨e, he, ⟨a, rfl⟩ | ⟨a, -, b, rfl⟩⟩ := mem_outOf.mp hd
      · exact Or.inl (List.mem_map.mpr ⟨e, he, by rw [a]⟩)
      · exact Or.inr (List.mem_map.mpr ⟨e, he, by simp [flip, b]⟩)
    · rintro ⟨rfl, h | h⟩
      · obtain ⟨e, he, rfl⟩ := List.mem_map.mp h
        exact ⟨(e.2.1, e.2.2), mem_outOf.mpr ⟨e, he, Or.inl ⟨rfl, rfl⟩⟩, rfl⟩
      · obtain ⟨e, he, hf⟩ := List.mem_map.mp h
        simp only [flip, Prod.mk.injEq] at hf
        obtain ⟨a, b, c⟩ := hf
        by_cases hloop : e.1 = f.1
        · refine ⟨(e.2.1, e.2.2), mem_outOf.mpr ⟨e, he, Or.inl ⟨hloop, rfl⟩⟩, ?_⟩
          refine Prod.ext rfl (Prod.ext ?_ c)
          show e.2.1 = f.2.1
          rw [b, ← hloop, a]
        · refine ⟨(e.1, e.2.2), mem_outOf.mpr ⟨e, he, Or.inr ⟨hloop, rfl, b, rfl⟩⟩, ?_⟩
          exact Prod.ext rfl (Prod.ext a c)
  have hnod : ∀ x ∈ G.vertices, (G.out x).Nodup := by
    intro x hx
    obtain ⟨l, p1, p2, -⟩ := h7 x hx
    have hgl : G.out x = l := by simp [hG, AdjC.graph, p1]
    rw [hgl, p2.nodup_iff]
    have := outOf_ids h6.2.1 true x
    refine List.Nodup.of_map (fun e : EdgeN Int => e.2.2) ?_
    rw [List.map_map]
    exact this
  have hHv : ∀ e ∈ H, e.1 ∈ G.vertices ∧ e.2.1 ∈ G.vertices := by
    intro e he
    rw [h6.2.2] at he
    obtain ⟨d, hd, rfl⟩ := List.mem_map.mp he
    have hacc : Link true (accept k.unique true [] calls).1 d.1 d.2.1 :=
      ⟨strip d, by rw [← h6.1]; exact List.mem_map_of_mem hd, Or.inl ⟨rfl, rfl⟩⟩
    rw [accept_link, List.nil_append] at hacc
    have := link_ends hacc
    obtain ⟨c, hc, a, b⟩ := this
    have := hs.ends c hc
    rw [hs.vertices, mem_firstVertices, mem_firstVertices]
    rcases a with a | a <;> rcases b with b | b <;> rw [a, b] <;> tauto
  have hU : G.Undirected flip := by
    refine ⟨hflip, ?_, ?_, hnod⟩
    · intro u hu e he
      exact ((hmem u hu e).mp he).1
    · intro u hu e he
      obtain ⟨a, b⟩ := (hmem u hu e).mp he
      exact (hmem _ (hs.wf.tgt u hu e he) _).mpr ⟨rfl, by rw [hflip]; exact b.symm⟩
  have hS : (!k.unique) = false → G.Simple := by
    intro hq u hu e he f hf heq hne'
    have hq : k.unique = true := by simpa using hq
    obtain ⟨a1, a2⟩ := (hmem u hu e).mp he
    obtain ⟨b1, b2⟩ := (hmem u hu f).mp hf
    have hacc := accept_unique true calls [] (by simp)
    rw [hq] at h6
    rw [← h6.1, List.map_map] at hacc
    have hHe : (H.map (ends true)).Nodup := by
      rw [h6.2.2, List.map_map]
      exact hacc
    have key : ∀ a ∈ H, ∀ b ∈ H, ends true a = ends true b → a = b :=
      fun a ha b hb h => List.inj_on_of_nodup_map hHe ha hb h
    have ht : e.2.1 = f.2.1 := heq
    have hne2 : e.2.1 ≠ u := hne'
    rcases a2 with a2 | a2 <;> rcases b2 with b2 | b2
    · exact key e a2 f b2 (ends_eq_iff.mpr (Or.inl ⟨a1.trans b1.symm, ht⟩))
    · have := key e a2 _ b2 (ends_eq_iff.mpr (Or.inr ⟨rfl, a1.trans b1.symm, ht⟩))
      have h0 := congrArg (fun x => x.1) this
      simp only [flip] at h0
      exact absurd (by rw [ht, ← h0, a1]) hne2
    · have := key _ a2 f b2 (ends_eq_iff.mpr (Or.inr ⟨rfl, ht, a1.trans b1.symm⟩))
      have h0 := congrArg (fun x => x.1) this
      simp only [flip] at h0
      exact absurd (by rw [h0, b1]) hne2
    · have := key _ a2 _ b2 (ends_eq_iff.mpr (Or.inl ⟨ht, a1.trans b1.symm⟩))
      have := congrArg flip this
      simpa [hflip] using this
  have hwithout : ∀ e ∈ H, ∀ x y, G.AdjWithout flip e x y ↔ Link true (H.filter (· ≠ e)) x y := by
    intro e he x y
    constructor
    · rintro ⟨f, hf, rfl, n1, n2⟩
      by_cases hx : x ∈ G.vertices
      · obtain ⟨rfl, a | a⟩ := (hmem x hx f).mp hf
        · exact ⟨f, List.mem_filter.mpr ⟨a, by simpa using n1⟩, Or.inl ⟨rfl, rfl⟩⟩
        · refine ⟨flip f, List.mem_filter.mpr ⟨a, ?_⟩, Or.inr ⟨rfl, rfl, rfl⟩⟩
          simp only [ne_eq, decide_eq_true_eq]
          intro h
          exact n2 (by rw [← h, hflip])
      · have hx' : x ∉ g'.vertices := hx
        simp [hG, AdjC.graph, AdjC.outEdges, hx'] at hf
    · rintro ⟨f, hf, hc⟩
      obtain ⟨a, b⟩ := List.mem_filter.mp hf
      simp only [ne_eq, decide_eq_true_eq] at b
      have hfe : f ≠ flip e := fun h => b (hsame f a e he (by rw [h]; rfl))
      rcases hc with ⟨rfl, rfl⟩ | ⟨-, rfl, rfl⟩
      · exact ⟨f, (hmem _ (hHv f a).1 f).mpr ⟨rfl, Or.inl a⟩, rfl, b, hfe⟩
      · refine ⟨flip f, (hmem _ (hHv f a).2 _).mpr ⟨rfl, Or.inr a⟩, rfl, ?_, ?_⟩
        · intro h
          exact hfe (by rw [← h, hflip])
        · intro h
          have := congrArg flip h
          rw [hflip, hflip] at this
          exact b this
  have hpath : ∀ e ∈ H, G.ReachWithout flip e = Path true (H.filter (· ≠ e)) := by
    intro e he
    unfold Graph.ReachWithout Path
    congr 1
    funext x y
    exact propext (hwithout e he x y)
  have hreach : ∀ u v, G.Reach u v ↔ Path true H u v := by
    intro u v
    rw [hs.reach]
    have : Link true calls = Link true H := by
      funext x y
      have := accept_link k.unique true calls [] x y
      rw [List.nil_append] at this
      rw [← this, ← h6.1, h6.2.2]
      unfold Link
      refine propext ⟨?_, ?_⟩
      · rintro ⟨e, he, hc⟩
        obtain ⟨d, hd, rfl⟩ := List.mem_map.mp he
        exact ⟨_, List.mem_map_of_mem hd, hc⟩
      · rintro ⟨e, he, hc⟩
        obtain ⟨d, hd, rfl⟩ := List.mem_map.mp he
        exact ⟨_, List.mem_map_of_mem hd, hc⟩
    unfold Path
    rw [this]
  obtain ⟨b1, b2⟩ := findBridges_spec (par := !k.unique) hs.wf hU hS map
  refine ⟨b1, fun fuel bridges comp hb => ?_⟩
  obtain ⟨c1, c2, c3, c4, c5, -⟩ := b2 fuel bridges comp hb
  refine ⟨fun e he => ?_, fun e he => ?_, c3, c4, fun u v hu hv => ?_⟩
  · rw [c1 e.1 (hHv e he).1 e ((hmem _ (hHv e he).1 e).mpr ⟨rfl, Or.inl he⟩)]
    unfold Graph.Bridge
    rw [hpath e he]
    rfl
  · obtain ⟨u, hu, h⟩ := c2 e he
    exact ((hmem u hu e).mp h).2
  · rw [c5 u ((hs.mem u).mpr hu) v ((hs.mem v).mpr hv)]
    unfold Graph.TwoEdgeConnected
    rw [hreach]
    refine and_congr_right fun _ => ⟨fun h e he => ?_, fun h w hw e he => ?_⟩
    · rw [← hpath e he]
      exact h e.1 (hHv e he).1 e ((hmem _ (hHv e he).1 e).mpr ⟨rfl, Or.inl he⟩)
    · rcases ((hmem w hw e).mp he).2 with h' | h'
      · rw [hpath e h']
        exact h e h'
      · have : G.ReachWithout flip e = G.ReachWithout flip (flip e) := by
          unfold Graph.ReachWithout
          rw [hU.without_rev]
        rw [this, hpath _ h']
        exact h _ h'

/-! Examples: a path 0 - 1 - 2 - 0, with 3 hanging on 2 and 5 on its own. -/

def fewCalls : List (Int × Int × String) := [(0, 1, "a"), (1, 2, "b"), (2, 0, "c"), (2, 3, "d"), (3, 3, "e")]

example : ∃ g as, (AdjN.init .undirected .vec (firstVertices 6) : AdjN Int String).tryAddAll plainN (fun _ => "")
    fewCalls = some (g, as) ∧ Shows g.graph true fewCalls 6 :=
  graphN_shows plainN _ .undirected .vec 6 (by simp) (by decide +kernel) (by intro _; decide)

set_option synthInstance.maxHeartbeats 400000
set_option synthInstance.maxSize 1000

example : (((AdjN.init .undirected .vec (firstVertices 6)).tryAddAll plainN (fun _ => "") fewCalls).bind fun r =>
    (bfs r.1.graph ((distanceRecorder r.1.graph).fst logger) (fun _ => false) 9 20 [0] (fun _ => 7, [])).map
      fun q => [0, 1, 2, 3, 4, 5].map q.1) = some [0, 1, 1, 2, -1, -1] := by decide +kernel
example : (((AdjC.init .undirected false .vec .vec (firstVertices 6)).tryAddAll xorRep plainC 77 fewCalls).bind fun r =>
    (findBridges (r.1.graph xorRep) true 30 (fun _ => 7)).map fun q => (q.1, [0, 1, 2, 3, 4, 5].map q.2)) =
    some ([(2, 3, 3)], [1, 1, 1, 0, 2, 3]) := by decide +kernel
example : (((AdjN.init .directed .list (firstVertices 0)).tryAddAll plainN (fun _ => "")
    [(0, 1, "a"), (3, 1, "b"), (0, 3, "c")]).bind fun r => topologicalSort r.1.graph 30 (fun _ => true)) =
    some [1, 3, 0, 2] := by decide +kernel

end Actl.Built
