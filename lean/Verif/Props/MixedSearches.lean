import Verif.Props.FindMixed

/-!
# C142: components, topological order, bridges and cut vertices after insertions mixed with assignments

* `mixedW_components`, `mixedW_topologicalSort`, `mixedW_bridges`: what the algorithms answer is true of the edges of the calls.
* `mixedW_strong_partial`, `mixedW_articulation_partial`: the half of C49 and of C51 that is true of the code.
-/

namespace Actl.Storage

open Actl.Ids Actl.Traversal Actl.Built

variable {α R β κ : Type} [LinearOrder κ] {key : α → κ} {dflt : α} {ordV : Order α} {rep : Rep Int R} {o : OrdersC Int R β}
  {junk : Int} {dir : Dir} {hasOut : Bool} {k ke kv : Kind} {g g0 : MixedC α R β} {H : List (Event α β)} {P : Int → Prop}

/-! ### Bridges of a graph whose out-edges are handles of a list -/

/-- The out-edges of a vertex are the handles that start there, or end there. -/
theorem mem_handles {hs : List (EdgeN Int)} {x : Int} {f : EdgeN Int} :
    f ∈ (outOf true hs x).map (fun d => (x, d.1, d.2)) ↔ f.1 = x ∧ (f ∈ hs ∨ Built.flip f ∈ hs) := by
  rw [List.mem_map]
  constructor
  · rintro ⟨d, hd, rfl⟩
    refine ⟨rfl, ?_⟩
    obtain ⟨e, he, ⟨a, rfl⟩ | ⟨a, -, b, rfl⟩⟩ := mem_outOf.mp hd
    · exact Or.inl (by rw [← a]; exact he)
    · exact Or.inr (by rw [← b]; exact he)
  · rintro ⟨rfl, h | h⟩
    · exact ⟨(f.2.1, f.2.2), mem_outOf.mpr ⟨f, h, Or.inl ⟨rfl, rfl⟩⟩, rfl⟩
    · by_cases hloop : f.2.1 = f.1
      · refine ⟨(f.2.1, f.2.2), mem_outOf.mpr ⟨_, h, Or.inl ⟨hloop, ?_⟩⟩, rfl⟩
        show (f.2.1, f.2.2) = (f.1, f.2.2)
        rw [hloop]
      · exact ⟨(f.2.1, f.2.2), mem_outOf.mpr ⟨_, h, Or.inr ⟨hloop, rfl, rfl, rfl⟩⟩, rfl⟩

theorem handles_nodup {hs : List (EdgeN Int)} (hids : (hs.map fun e => e.2.2).Nodup) (x : Int) :
    ((outOf true hs x).map fun d => (x, d.1, d.2)).Nodup := by
  refine List.Nodup.of_map (fun e : EdgeN Int => e.2.2) ?_
  rw [List.map_map]
  refine List.Nodup.sublist ?_ hids
  unfold outOf
  clear hids
  induction hs with
  | nil => simp
  | cons e es ih =>
    rw [List.filterMap_cons, List.map_cons]
    split
    · exact ih.cons _
    · rename_i b hb
      rw [List.map_cons]
      have : b.2 = e.2.2 := by
        split at hb
        · rw [← Option.some.inj hb]
        · split at hb
          · rw [← Option.some.inj hb]
          · cases hb
      show List.Sublist (b.2 :: _) _
      rw [this]
      exact List.Sublist.cons_cons _ ih

theorem handles_bridges {G : Graph Int (EdgeN Int)} (wf : G.WF) {hs : List (EdgeN Int)} (hids : (hs.map fun e => e.2.2).Nodup)
    (hHv : ∀ e ∈ hs, e.1 ∈ G.vertices ∧ e.2.1 ∈ G.vertices)
    (hout : ∀ x ∈ G.vertices, (G.out x).Perm ((outOf true hs x).map fun d => (x, d.1, d.2)))
    (hno : ∀ x, x ∉ G.vertices → G.out x = []) (htgt : ∀ e, G.tgt e = e.2.1) (hsrc : ∀ e, G.src e = e.1) {par : Bool}
    (hsimple : par = false → (hs.map (ends true)).Nodup) (map : Int → Int) :
    (∃ fuel r, findBridges G par fuel map = some r) ∧
      ∀ fuel bridges comp, findBridges G par fuel map = some (bridges, comp) →
        (∀ e ∈ hs, (e ∈ bridges ∨ Built.flip e ∈ bridges ↔ ¬Path true (hs.filter (· ≠ e)) e.1 e.2.1)) ∧
        (∀ e ∈ bridges, e ∈ hs ∨ Built.flip e ∈ hs) ∧
        bridges.Nodup ∧ (∀ e ∈ bridges, Built.flip e ∉ bridges) ∧
        ∀ u ∈ G.vertices, ∀ v ∈ G.vertices,
          (comp u = comp v ↔ Path true hs u v ∧ ∀ e ∈ hs, Path true (hs.filter (· ≠ e)) u v) := by
  have hflip : ∀ e, Built.flip (Built.flip e) = e := fun e => rfl
  have hsame : ∀ e ∈ hs, ∀ f ∈ hs, e.2.2 = f.2.2 → e = f := fun e he f hf h => List.inj_on_of_nodup_map hids he hf h
  have hmem : ∀ x ∈ G.vertices, ∀ f, f ∈ G.out x ↔ f.1 = x ∧ (f ∈ hs ∨ Built.flip f ∈ hs) := fun x hx f =>
    (hout x hx).mem_iff.trans mem_handles
  have hnod : ∀ x ∈ G.vertices, (G.out x).Nodup := fun x hx => (hout x hx).nodup_iff.mpr (handles_nodup hids x)
  have hU : G.Undirected Built.flip := by
    refine ⟨hflip, ?_, ?_, hnod⟩
    · intro u hu e he
      rw [htgt]
      exact ((hmem u hu e).mp he).1
    · intro u hu e he
      obtain ⟨a, b⟩ := (hmem u hu e).mp he
      refine (hmem _ (wf.tgt u hu e he) _).mpr ⟨(htgt e).symm, ?_⟩
      rw [hflip]; exact b.symm
  have hS : par = false → G.Simple := by
    intro hq u hu e he f hf heq hne'
    obtain ⟨a1, a2⟩ := (hmem u hu e).mp he
    obtain ⟨b1, b2⟩ := (hmem u hu f).mp hf
    have key : ∀ a ∈ hs, ∀ b ∈ hs, ends true a = ends true b → a = b :=
      fun a ha b hb h => List.inj_on_of_nodup_map (hsimple hq) ha hb h
    rw [htgt, htgt] at heq
    rw [htgt] at hne'
    rcases a2 with a2 | a2 <;> rcases b2 with b2 | b2
    · exact key e a2 f b2 (ends_eq_iff.mpr (Or.inl ⟨a1.trans b1.symm, heq⟩))
    · have := key e a2 _ b2 (ends_eq_iff.mpr (Or.inr ⟨rfl, a1.trans b1.symm, heq⟩))
      have h0 := congrArg (fun x => x.1) this
      simp only [Built.flip] at h0
      exact absurd (by rw [heq, ← h0, a1]) hne'
    · have := key _ a2 f b2 (ends_eq_iff.mpr (Or.inr ⟨rfl, heq, a1.trans b1.symm⟩))
      have h0 := congrArg (fun x => x.1) this
      simp only [Built.flip] at h0
      exact absurd (by rw [h0, b1]) hne'
    · have := key _ a2 _ b2 (ends_eq_iff.mpr (Or.inl ⟨heq, a1.trans b1.symm⟩))
      have := congrArg Built.flip this
      simpa [hflip] using this
  have hwithout : ∀ e ∈ hs, ∀ x y, G.AdjWithout Built.flip e x y ↔ Link true (hs.filter (· ≠ e)) x y := by
    intro e he x y
    constructor
    · rintro ⟨f, hf, rfl, n1, n2⟩
      rw [htgt]
      by_cases hx : x ∈ G.vertices
      · obtain ⟨rfl, a | a⟩ := (hmem x hx f).mp hf
        · exact ⟨f, List.mem_filter.mpr ⟨a, by simpa using n1⟩, Or.inl ⟨rfl, rfl⟩⟩
        · refine ⟨Built.flip f, List.mem_filter.mpr ⟨a, ?_⟩, Or.inr ⟨rfl, rfl, rfl⟩⟩
          simp only [ne_eq, decide_eq_true_eq]
          intro h
          exact n2 (by rw [← h, hflip])
      · rw [hno x hx] at hf
        cases hf
    · rintro ⟨f, hf, hc⟩
      obtain ⟨a, b⟩ := List.mem_filter.mp hf
      simp only [ne_eq, decide_eq_true_eq] at b
      have hfe : f ≠ Built.flip e := fun h => b (hsame f a e he (by rw [h]; rfl))
      rcases hc with ⟨rfl, rfl⟩ | ⟨-, rfl, rfl⟩
      · exact ⟨f, (hmem _ (hHv f a).1 f).mpr ⟨rfl, Or.inl a⟩, htgt f, b, hfe⟩
      · refine ⟨Built.flip f, (hmem _ (hHv f a).2 _).mpr ⟨rfl, Or.inr a⟩, htgt _, ?_, ?_⟩
        · intro h
          exact hfe (by rw [← h, hflip])
        · intro h
          have := congrArg Built.flip h
          rw [hflip, hflip] at this
          exact b this
  have hpath : ∀ e ∈ hs, G.ReachWithout Built.flip e = Path true (hs.filter (· ≠ e)) := by
    intro e he
    unfold Graph.ReachWithout Path
    congr 1
    funext x y
    exact propext (hwithout e he x y)
  have hadj : ∀ x y, G.Adj x y ↔ Link true hs x y := by
    intro x y
    constructor
    · rintro ⟨f, hf, rfl⟩
      rw [htgt]
      by_cases hx : x ∈ G.vertices
      · obtain ⟨rfl, a | a⟩ := (hmem x hx f).mp hf
        · exact ⟨f, a, Or.inl ⟨rfl, rfl⟩⟩
        · exact ⟨Built.flip f, a, Or.inr ⟨rfl, rfl, rfl⟩⟩
      · rw [hno x hx] at hf
        cases hf
    · rintro ⟨f, a, ⟨rfl, rfl⟩ | ⟨-, rfl, rfl⟩⟩
      · exact ⟨f, (hmem _ (hHv f a).1 f).mpr ⟨rfl, Or.inl a⟩, htgt f⟩
      · exact ⟨Built.flip f, (hmem _ (hHv f a).2 _).mpr ⟨rfl, Or.inr a⟩, htgt _⟩
  have hreach : ∀ u v, G.Reach u v ↔ Path true hs u v := by
    intro u v
    unfold Graph.Reach Path
    rw [show G.Adj = Link true hs from by funext x y; exact propext (hadj x y)]
  obtain ⟨b1, b2⟩ := findBridges_spec (par := par) wf hU hS map
  refine ⟨b1, fun fuel bridges comp hb => ?_⟩
  obtain ⟨c1, c2, c3, c4, c5, -⟩ := b2 fuel bridges comp hb
  refine ⟨fun e he => ?_, fun e he => ?_, c3, c4, fun u hu v hv => ?_⟩
  · rw [c1 e.1 (hHv e he).1 e ((hmem _ (hHv e he).1 e).mpr ⟨rfl, Or.inl he⟩)]
    unfold Graph.Bridge
    rw [hpath e he, htgt, hsrc]
  · obtain ⟨u, hu, h⟩ := c2 e he
    exact ((hmem u hu e).mp h).2
  · rw [c5 u hu v hv]
    unfold Graph.TwoEdgeConnected
    rw [hreach]
    refine and_congr_right fun _ => ⟨fun h e he => ?_, fun h w hw e he => ?_⟩
    · rw [← hpath e he]
      exact h e.1 (hHv e he).1 e ((hmem _ (hHv e he).1 e).mpr ⟨rfl, Or.inl he⟩)
    · rcases ((hmem w hw e).mp he).2 with h' | h'
      · rw [hpath e h']
        exact h e h'
      · have : G.ReachWithout Built.flip e = G.ReachWithout Built.flip (Built.flip e) := by
          unfold Graph.ReachWithout
          rw [hU.without_rev]
        rw [this, hpath _ h']
        exact h _ h'

/-! ### The graphs of programs -/

theorem answered_ends {V ι η : Type} [LinearOrder V] {un : Bool} (cs : List ((V × V × ι) × Option (V × V × η)))
    (h : ∀ c ∈ cs, ∀ e, c.2 = some e → e.1 = c.1.1 ∧ e.2.1 = c.1.2.1) :
    (cs.filterMap Prod.snd).map (ends un) = ((cs.filter fun c => c.2.isSome).map Prod.fst).map (ends un) := by
  induction cs with
  | nil => rfl
  | cons c cs ih =>
    have ih := ih fun d hd => h d (List.mem_cons_of_mem _ hd)
    obtain ⟨s, _ | e⟩ := c
    · simpa using ih
    · obtain ⟨h1, h2⟩ := h _ List.mem_cons_self e rfl
      have h3 : ends un e = ends un s := by unfold ends; rw [h1, h2]
      simpa [h3] using ih

/-- **C142** `find_bridges` of an undirected graph after any calls and assignments; `hs` are the handles returned for the edges added.  It
ends and outputs, in one direction and once, just the edges without which there is no path between their ends; its component map equates
two vertices just if there is a path along the edges, whichever one of them is left out. -/
theorem mixedW_bridges (h : MadeW key dflt ordV rep o junk .undirected hasOut k ke kv g H) (hk : hasOut = false → k.assoc = false)
    (hke : ke.assoc = false) (hr : hasOut = false → GoodRep rep .undirected P) (hP : ∀ v, (kv = .vec → IsInt v) → P v)
    {a : AdjC Int R β} (ha : g.see = some a) {hs : List (EdgeN Int)} (hhs : hs = (edgeCalls (calls H)).filterMap Prod.snd)
    (map : Int → Int) :
    (∃ fuel r, findBridges (a.graph rep) (!k.unique) fuel map = some r) ∧
      ∀ fuel bridges comp, findBridges (a.graph rep) (!k.unique) fuel map = some (bridges, comp) →
        (∀ e ∈ hs, (e ∈ bridges ∨ Built.flip e ∈ bridges ↔ ¬Path true (hs.filter (· ≠ e)) e.1 e.2.1)) ∧
        (∀ e ∈ bridges, e ∈ hs ∨ Built.flip e ∈ hs) ∧
        bridges.Nodup ∧ (∀ e ∈ bridges, Built.flip e ∉ bridges) ∧
        ∀ u v, (g.atVertex u).isSome = true → (g.atVertex v).isSome = true →
          (comp u = comp v ↔ Path true hs u v ∧ ∀ e ∈ hs, Path true (hs.filter (· ≠ e)) u v) := by
  obtain ⟨a', vs, hs', b1, b2, b3, b4, b5, -, b7, b8, b9, b10, -⟩ := mixedW_edges h hk hke hr hP
  obtain rfl := Option.some.inj (ha.symm.trans b1)
  obtain rfl : hs = hs' := hhs.trans b4.symm
  obtain ⟨a'', vs', d1, d2, d3⟩ := mixedW_graph h hk hke hr hP
  obtain rfl := Option.some.inj (ha.symm.trans d1)
  obtain ⟨vs'', c1, -, -, c4, -⟩ := mixedW_vertices h hk hke
  obtain rfl := Option.some.inj (b2.symm.trans c1)
  have hcall : ∀ e ∈ hs, ∃ c ∈ edgeCalls (calls H), c.2 = some e := by
    intro e he
    rw [b4] at he
    exact List.mem_filterMap.mp he
  have hvs : (a.graph rep).vertices = vs := b3
  have hends : ∀ e ∈ hs, e.1 ∈ (a.graph rep).vertices ∧ e.2.1 ∈ (a.graph rep).vertices := by
    intro e he
    obtain ⟨c, hc, hce⟩ := hcall e he
    obtain ⟨e1, e2, -⟩ := b9 c hc e hce
    rw [hvs, e1, e2]
    exact b7 c hc
  have hout : ∀ x ∈ (a.graph rep).vertices, ((a.graph rep).out x).Perm ((outOf true hs x).map fun d => (x, d.1, d.2)) := by
    intro x hx
    rw [hvs] at hx
    obtain ⟨l, p1, p2, -⟩ := b10 x hx
    have hg : (a.graph rep).out x = l := by simp [AdjC.graph, p1]
    rw [hg]; exact p2
  have hno : ∀ x, x ∉ (a.graph rep).vertices → (a.graph rep).out x = [] := by
    intro x hx
    have hx' : x ∉ a.vertices := hx
    simp [AdjC.graph, AdjC.outEdges, hx']
  have hsimple : (!k.unique) = false → (hs.map (ends true)).Nodup := by
    intro hp
    have hu : k.unique = true := by simpa using hp
    rw [b4, answered_ends _ fun c hc e he => ⟨(b9 c hc e he).1, (b9 c hc e he).2.1⟩]
    have h1 := accept_answered _ _ _ _ b5
    rw [List.nil_append] at h1
    rw [← h1, hu]
    exact accept_unique true _ [] (by simp)
  obtain ⟨r1, r2⟩ := handles_bridges (G := a.graph rep) d3.wf b8 hends hout hno (fun _ => rfl) (fun _ => rfl) hsimple map
  refine ⟨r1, fun fuel bridges comp hb => ?_⟩
  obtain ⟨q1, q2, q3, q4, q5⟩ := r2 fuel bridges comp hb
  refine ⟨q1, q2, q3, q4, fun u v hu hv => q5 u ?_ v ?_⟩
  · rw [hvs, c4]; exact hu
  · rw [hvs, c4]; exact hv

/-- **C142** In an undirected graph two vertices get the same component number just if there is a path between them along the edges of the
calls; the numbers are `0, .., count - 1`. -/
theorem mixedW_components (h : MadeW key dflt ordV rep o junk .undirected hasOut k ke kv g H) (hk : hasOut = false → k.assoc = false)
    (hke : ke.assoc = false) (hr : hasOut = false → GoodRep rep .undirected P) (hP : ∀ v, (kv = .vec → IsInt v) → P v)
    {a : AdjC Int R β} (ha : g.see = some a) (m : Int → Int) :
    ∃ fuel comp count, dfsAll (a.graph rep) (componentRecorder : Comp _ Int (EdgeN Int)) (fun _ => false) fuel (m, 0) = some (comp, count) ∧
      (∀ u v, (g.atVertex u).isSome = true → (g.atVertex v).isSome = true →
        (comp u = comp v ↔ Path true ((edgeCalls (calls H)).map Prod.fst) u v)) ∧
      ∀ i, (∃ v, (g.atVertex v).isSome = true ∧ comp v = i) ↔ 0 ≤ i ∧ i < count := by
  obtain ⟨g0, hg⟩ := h.ghost hk hke
  obtain ⟨s1, -, -, -, s5⟩ := hg.sees
  obtain ⟨fuel, comp, count, d1, d2, d3⟩ := mixedC_components hg.made hk hke hr hP (s1.symm.trans ha) m
  unfold Path at d2 ⊢
  rw [link_calls] at d2
  refine ⟨fuel, comp, count, d1, fun u v hu hv => d2 u v (by rw [← s5]; exact hu) (by rw [← s5]; exact hv), fun i => ?_⟩
  rw [← d3 i]
  simp only [s5]

/-- **C142** If the edges of the calls have no cycle, the topological sort outputs every vertex once, in an order in which every edge leads
to a vertex output earlier. -/
theorem mixedW_topologicalSort (h : MadeW key dflt ordV rep o junk dir hasOut k ke kv g H) (hk : hasOut = false → k.assoc = false)
    (hke : ke.assoc = false) (hr : hasOut = false → GoodRep rep dir P) (hP : ∀ v, (kv = .vec → IsInt v) → P v)
    {a : AdjC Int R β} (ha : g.see = some a)
    (hac : ∀ u, ¬Relation.TransGen (Link dir.un ((edgeCalls (calls H)).map Prod.fst)) u u) (flags : Int → Bool) :
    ∃ fuel output, topologicalSort (a.graph rep) fuel flags = some output ∧ output.Nodup ∧
      (∀ u, u ∈ output ↔ (g.atVertex u).isSome = true) ∧
      ∀ e ∈ (edgeCalls (calls H)).map Prod.fst, output.idxOf e.2.1 < output.idxOf e.1 := by
  obtain ⟨a', vs, h1, h2, h3⟩ := mixedW_graph h hk hke hr hP
  obtain rfl := Option.some.inj (ha.symm.trans h1)
  obtain ⟨vs', c1, c2, -, c4, -⟩ := mixedW_vertices h hk hke
  obtain rfl := Option.some.inj (h2.symm.trans c1)
  obtain ⟨output, ⟨fuel, hrun⟩, h5, h6⟩ := topologicalSort_spec h3.wf (fun u _ => by rw [h3.adj_eq]; exact hac u) flags
  rw [h3.vertices] at h5
  refine ⟨fuel, output, hrun, h5.nodup_iff.mpr c2, fun u => by rw [h5.mem_iff, c4], fun e he => ?_⟩
  obtain ⟨f, hf, ht⟩ := (h3.adj e.1 e.2.1).mpr ⟨e, he, Or.inl ⟨rfl, rfl⟩⟩
  have := h6 e.1 (by rw [h3.vertices]; exact (h3.ends e he).1) f hf
  rwa [ht] at this

/-- **C49** for the graph of a program. Vertices with the same strong component number have paths to each other along the edges of the
calls (the converse is false of the code, `findStrongComponents_splits`); without cycles all numbers are different. -/
theorem mixedW_strong_partial (h : MadeW key dflt ordV rep o junk dir hasOut k ke kv g H) (hk : hasOut = false → k.assoc = false)
    (hke : ke.assoc = false) (hr : hasOut = false → GoodRep rep dir P) (hP : ∀ v, (kv = .vec → IsInt v) → P v)
    {a : AdjC Int R β} (ha : g.see = some a) (hn : g.vertexCount ≤ 2147483647) (map : Int → Int) :
    (∃ fuel r, findStrongComponents (a.graph rep) 2147483647 fuel map = some r) ∧
    ∀ fuel comp, findStrongComponents (a.graph rep) 2147483647 fuel map = some comp →
      (∀ u v, (g.atVertex u).isSome = true → (g.atVertex v).isSome = true → comp u = comp v →
        Path dir.un ((edgeCalls (calls H)).map Prod.fst) u v ∧ Path dir.un ((edgeCalls (calls H)).map Prod.fst) v u) ∧
      ((∀ u, ¬Relation.TransGen (Link dir.un ((edgeCalls (calls H)).map Prod.fst)) u u) →
        ∀ u v, (g.atVertex u).isSome = true → (g.atVertex v).isSome = true → comp u = comp v → u = v) := by
  obtain ⟨a', vs, h1, h2, h3⟩ := mixedW_graph h hk hke hr hP
  obtain rfl := Option.some.inj (ha.symm.trans h1)
  obtain ⟨vs', c1, c2, c3, c4, -⟩ := mixedW_vertices h hk hke
  obtain rfl := Option.some.inj (h2.symm.trans c1)
  have hlen : ((a.graph rep).vertices.length : Int) ≤ 2147483647 := by rw [h3.vertices, c3]; exact_mod_cast hn
  have hmem : ∀ v, (g.atVertex v).isSome = true → v ∈ (a.graph rep).vertices := fun v hv => by rw [h3.vertices, c4]; exact hv
  obtain ⟨r1, r2⟩ := findStrongComponents_sound_partial h3.wf 2147483647 (by decide) hlen map
  refine ⟨r1, fun fuel comp hc => ⟨fun u v hu hv he => ?_, fun hac u v hu hv he => ?_⟩⟩
  · have := (r2 fuel comp hc).1 u (hmem u hu) v (hmem v hv) he
    rwa [h3.reach, h3.reach] at this
  · exact (findStrongComponents_acyclic h3.wf 2147483647 (by decide) hlen
      (fun u _ => by rw [h3.adj_eq]; exact hac u) map fuel comp hc u (hmem u hu) v (hmem v hv)).mp he

/-- **C51** for the graph of a program. In an undirected graph every vertex whose removal disconnects two of its neighbours along the
edges of the calls is marked as an articulation point (the converse is false of the code, `findArticulationPoints_cycle`). -/
theorem mixedW_articulation_partial (h : MadeW key dflt ordV rep o junk .undirected hasOut k ke kv g H)
    (hk : hasOut = false → k.assoc = false) (hke : ke.assoc = false) (hr : hasOut = false → GoodRep rep .undirected P)
    (hP : ∀ v, (kv = .vec → IsInt v) → P v) {a : AdjC Int R β} (ha : g.see = some a) {es : List (Int × Int × β)}
    (hes : es = (edgeCalls (calls H)).map Prod.fst) (marks : Int → Bool) :
    (∃ fuel r, findArticulationPoints (a.graph rep) fuel marks = some r) ∧
    ∀ fuel res, findArticulationPoints (a.graph rep) fuel marks = some res →
      ∀ u x y : Int, Link true es u x → Link true es u y → x ≠ u → y ≠ u →
        ¬Path true (es.filter fun e => e.1 ≠ u ∧ e.2.1 ≠ u) x y → res u = true := by
  obtain ⟨a', vs, h1, h2, h3⟩ := mixedW_graph h hk hke hr hP
  obtain rfl := Option.some.inj (ha.symm.trans h1)
  rw [← hes] at h3
  have hun : Dir.un .undirected = true := rfl
  rw [hun] at h3
  have hsym : (a.graph rep).Symmetric := by
    intro u _ v hv
    rw [h3.adj] at hv ⊢
    obtain ⟨e, he, h1⟩ := hv
    refine ⟨e, he, ?_⟩
    rcases h1 with ⟨h1, h2⟩ | ⟨-, h1, h2⟩
    · exact Or.inr ⟨rfl, h1, h2⟩
    · exact Or.inl ⟨h1, h2⟩
  obtain ⟨r1, r2⟩ := findArticulationPoints_partial h3.wf hsym marks
  refine ⟨r1, fun fuel res hr u x y hx hy hxu hyu hp => (r2 fuel res hr).2.1 u ?_ ?_⟩
  · rw [h3.vertices]
    obtain ⟨e, he, ⟨h4, -⟩ | ⟨-, -, h4⟩⟩ := hx
    · exact h4 ▸ (h3.ends e he).1
    · exact h4 ▸ (h3.ends e he).2
  · refine ⟨x, y, (h3.adj u x).mpr hx, (h3.adj u y).mpr hy, hxu, hyu, fun hr => hp ?_⟩
    unfold Graph.ReachAvoid at hr
    refine Relation.ReflTransGen.mono (r := (a.graph rep).AdjAvoid u)
      (p := Link true (es.filter fun e => e.1 ≠ u ∧ e.2.1 ≠ u)) ?_ _ _ hr
    rintro p q ⟨hadj, hp, hq⟩
    obtain ⟨e, he, hc⟩ := (h3.adj p q).mp hadj
    refine ⟨e, List.mem_filter.mpr ⟨he, ?_⟩, hc⟩
    rcases hc with ⟨rfl, rfl⟩ | ⟨-, rfl, rfl⟩ <;> simp [hp, hq]

/-! ### Examples -/

set_option synthInstance.maxHeartbeats 400000
set_option synthInstance.maxSize 1000

/-- Two parallel edges and one that hangs on them, with bundles assigned in between: the last edge is the only bridge. -/
example : ((MixedC.init .undirected false .vec .list .list).runW id 0 natOrder (twoRep Int) plainC 77 .vec .list .list []
      [.call (.vertex 10), .call (.vertex 20), .call (.edge 1 0 "x"), .setEdge (1, 0, 0) "y", .setVertex 0 11, .call (.edge 0 1 "z"),
        .call (.vertex 30), .call (.edge 2 0 "v"), .setEdge (0, 1, 0) "w", .setVertex 2 31]).bind
    (fun r => r.1.see.bind fun a => (findBridges (a.graph (twoRep Int)) true 30 fun _ => 7).map fun q => (q.1, [0, 1, 2].map q.2)) =
    some ([(0, 2, 2)], [1, 1, 0]) := by
  decide +kernel

/-- Numbered vertices, some of which come to be by edges. -/
example : ((MixedC.init .directed true .set .vec .vec).runW id 0 natOrder (noRep Int) plainC 77 .set .vec .vec []
      [.call (.edge 0 1 "x"), .setVertex 1 5, .setEdge (0, 1, 0) "y", .call (.edge 3 1 "z"), .call (.edge 0 3 "v"), .call (.vertex 8)]).bind
    (fun r => r.1.see.bind fun a => topologicalSort (a.graph (noRep Int)) 30 fun _ => true) = some [1, 3, 0, 2, 4] := by
  decide +kernel

end Actl.Storage
