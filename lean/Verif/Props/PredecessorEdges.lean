import Verif.Props.Bfs

/-! C91: the predecessor edges recorded by a search are the edges of the tree of its predecessors. -/

namespace Actl.Traversal

variable {V E : Type} [DecidableEq V] {G : Graph V E} {R : V → Prop}

/-- What the recorded edge `m v` of a vertex should be, when `p v` is its recorded predecessor and `m0 v` was the
value of the map before the search: a vertex that is its own predecessor keeps the value; otherwise the edge is an
out-edge of the predecessor that enters the vertex. -/
def EdgeInto (G : Graph V E) (p : V → Option V) (m m0 : V → E) (v : V) : Prop :=
  (p v = some v ∧ m v = m0 v) ∨ ∃ u, p v = some u ∧ u ≠ v ∧ m v ∈ G.out u ∧ G.src (m v) = u ∧ G.tgt (m v) = v

theorem Story.edges {D : Set V} {l : List (Event V E)} (h : Story G R D l) (p : V → Option V) (m m0 : V → E)
    (hn : ∀ v, v ∉ D → m v = m0 v) (hD : ∀ v ∈ D, EdgeInto G p m m0 v) :
    (∀ v, v ∉ D → v ∉ discs l → l.foldl (fun t ev => predecessorEdgeRecorder G ev t) m v = m0 v) ∧
    ∀ v, v ∈ D ∨ v ∈ discs l → EdgeInto G (after (predecessorRecorder G) p l)
      (l.foldl (fun t ev => predecessorEdgeRecorder G ev t) m) m0 v := by
  induction h generalizing p m with
  | nil D => exact ⟨fun v h _ => hn v h, fun v hv => hD v (hv.resolve_right List.not_mem_nil)⟩
  | @root D u l hR hu r ih =>
    obtain ⟨h1, h2⟩ := ih (put p u (some u)) m
      (fun v hv => hn v fun h => hv (Set.mem_insert_of_mem _ h))
      (fun v hv => by
        by_cases hvu : v = u
        · subst hvu; exact Or.inl ⟨by simp [put], hn v hu⟩
        · rcases hD v (Set.mem_of_mem_insert_of_ne hv hvu) with h | h
          · exact Or.inl ⟨by simpa [put, hvu] using h.1, h.2⟩
          · exact Or.inr (by simpa [put, hvu] using h))
    simp only [discs_searchStart, discs_discover, List.mem_cons, not_or]
    refine ⟨fun v hv hv' => h1 v (fun h => hv (Set.mem_of_mem_insert_of_ne h hv'.1)) hv'.2, fun v hv => h2 v ?_⟩
    rcases hv with hv | rfl | hv
    · exact Or.inl (Set.mem_insert_of_mem _ hv)
    · exact Or.inl (Set.mem_insert _ _)
    · exact Or.inr hv
  | @tree D e l he hs ht r ih =>
    have hst : G.src e ≠ G.tgt e := fun h => ht (by rw [← h]; exact hs)
    obtain ⟨h1, h2⟩ := ih (put p (G.tgt e) (some (G.src e))) (put m (G.tgt e) e)
      (fun v hv => by
        have hvt : v ≠ G.tgt e := fun h => hv (by rw [h]; exact Set.mem_insert _ _)
        simpa [put, hvt] using hn v fun h => hv (Set.mem_insert_of_mem _ h))
      (fun v hv => by
        by_cases hvt : v = G.tgt e
        · subst hvt
          exact Or.inr ⟨G.src e, by simp [put], hst, by simpa [put] using he, by simp [put], by simp [put]⟩
        · rcases hD v (Set.mem_of_mem_insert_of_ne hv hvt) with h | h
          · exact Or.inl (by simpa [put, hvt] using h)
          · exact Or.inr (by simpa [put, hvt] using h))
    simp only [discs_treeStart, discs_discover, List.mem_cons, not_or]
    refine ⟨fun v hv hv' => h1 v (fun h => hv (Set.mem_of_mem_insert_of_ne h hv'.1)) hv'.2, fun v hv => h2 v ?_⟩
    rcases hv with hv | rfl | hv
    · exact Or.inl (Set.mem_insert_of_mem _ hv)
    · exact Or.inl (Set.mem_insert _ _)
    · exact Or.inr hv
  | nonTree he hs ht r ih => exact ih _ _ hn hD
  | treeFinish hs ht r ih => exact ih _ _ hn hD
  | start h r ih => exact ih _ _ hn hD
  | finish h r ih => exact ih _ _ hn hD
  | searchFinish r ih => exact ih _ _ hn hD

theorem initAll_edges (c : Comp (V → Option V) V E) (vs : List V) (s : (V → Option V) × (V → E)) :
    initAll (c.fst (predecessorEdgeRecorder G)) vs s = (initAll c vs s.1, s.2) := by
  induction vs generalizing s with
  | nil => rfl
  | cons v vs ih => rw [initAll, initAll, ih]; rfl

/-- Breadth-first search recording predecessors and predecessor edges: the edge of a reachable vertex is an
out-edge of its predecessor that enters it; those of the sources and of the unreachable vertices keep their
value. -/
theorem bfs_predecessor_edges (hG : G.WF) (null : V) (us : List V) (hus : ∀ u ∈ us, u ∈ G.vertices)
    (hn : us.Nodup) (p0 : V → Option V) (m0 : V → E) :
    (∃ fuel r, bfs G ((predecessorRecorder G).fst (predecessorEdgeRecorder G)) (fun _ => false) null fuel us
      (p0, m0) = some r) ∧
    ∀ fuel p m, bfs G ((predecessorRecorder G).fst (predecessorEdgeRecorder G)) (fun _ => false) null fuel us
        (p0, m0) = some (p, m) →
      (∀ v, (∃ u ∈ us, G.Reach u v) → EdgeInto G p m m0 v) ∧
      (∀ v, (¬∃ u ∈ us, G.Reach u v) → m v = m0 v) := by
  obtain ⟨l1, D', hr, hi, fuel, hf⟩ := bfs_ref (pred_tracksB.fst (predecessorEdgeRecorder G)) hG null us hus hn
    (p0, m0) (by rw [initAll_fst]; exact pred_init p0)
  obtain ⟨f1, f2, f3, f4, f5, f6, f7⟩ := hr.facts hG hus hn null
  refine ⟨⟨fuel, _, hf⟩, fun fuel' p m h => ?_⟩
  have := bfs_det _ _ _ _ _ _ _ _ hf h
  rw [initAll_edges, after_fst] at this
  simp only [Prod.mk.injEq] at this
  obtain ⟨hp, hm⟩ := this
  obtain ⟨e1, e2⟩ := f1.edges (initAll (predecessorRecorder G) G.vertices p0) m0 m0 (fun _ _ => rfl)
    (fun v hv => absurd hv (Set.notMem_empty v))
  rw [hm] at e1
  rw [hp, hm] at e2
  exact ⟨fun v hv => e2 v (Or.inr ((f4 v).mpr hv)), fun v hv => e1 v (Set.notMem_empty v) fun h => hv ((f4 v).mp h)⟩

/-- The same for a depth-first search from a source. -/
theorem dfsFrom_predecessor_edges (hG : G.WF) (s : V) (hs : s ∈ G.vertices) (p0 : V → Option V) (m0 : V → E) :
    (∃ fuel r, dfsFrom G ((predecessorRecorder G).fst (predecessorEdgeRecorder G)) (fun _ => false) fuel s
      (p0, m0) = some r) ∧
    ∀ fuel p m, dfsFrom G ((predecessorRecorder G).fst (predecessorEdgeRecorder G)) (fun _ => false) fuel s
        (p0, m0) = some (p, m) →
      (∀ v, G.Reach s v → EdgeInto G p m m0 v) ∧ (∀ v, ¬G.Reach s v → m v = m0 v) := by
  obtain ⟨l, D', hv, hi, fuel, hf⟩ := dfsFrom_ref ((pred_tracks (G := G)).fst (predecessorEdgeRecorder G)) hG s hs
    (p0, m0) (by rw [initAll_fst]; exact pred_init p0)
  refine ⟨⟨fuel, _, hf⟩, fun fuel' p m h => ?_⟩
  have := dfsFrom_det _ _ _ _ _ _ _ hf h
  rw [initAll_edges, after_fst] at this
  simp only [Prod.mk.injEq] at this
  obtain ⟨hp, hm⟩ := this
  have hva := VisitAll.one hv (Set.notMem_empty s)
  have hst := hva.story hG (fun w hw => by rw [List.mem_singleton.mp hw]; exact hs) (· = s) (fun w hw => List.mem_singleton.mp hw)
  have hD : ∀ v, v ∈ D' ↔ G.Reach s v := by intro v; rw [hva.mem_iff]; simp
  have hmem : ∀ v, v ∈ discs l ↔ G.Reach s v := by intro v; rw [hva.discs_spec.2, hD]; simp
  obtain ⟨e1, e2⟩ := hst.edges (initAll (predecessorRecorder G) G.vertices p0) m0 m0 (fun _ _ => rfl)
    (fun v hv => absurd hv (Set.notMem_empty v))
  rw [hm] at e1
  rw [hp, hm] at e2
  exact ⟨fun v hv => e2 v (Or.inr ((hmem v).mpr hv)),
    fun v hv => e1 v (Set.notMem_empty v) fun h => hv ((hmem v).mp h)⟩

/-- The same for the search of the whole graph. -/
theorem dfsAll_predecessor_edges (hG : G.WF) (p0 : V → Option V) (m0 : V → E) :
    (∃ fuel r, dfsAll G ((predecessorRecorder G).fst (predecessorEdgeRecorder G)) (fun _ => false) fuel
      (p0, m0) = some r) ∧
    ∀ fuel p m, dfsAll G ((predecessorRecorder G).fst (predecessorEdgeRecorder G)) (fun _ => false) fuel
        (p0, m0) = some (p, m) →
      ∀ v ∈ G.vertices, EdgeInto G p m m0 v := by
  obtain ⟨l, D', hva, hi, fuel, hf⟩ := dfsAll_ref ((pred_tracks (G := G)).fst (predecessorEdgeRecorder G)) hG
    (p0, m0) (by rw [initAll_fst]; exact pred_init p0)
  refine ⟨⟨fuel, _, hf⟩, fun fuel' p m h v hv => ?_⟩
  have := dfsAll_det _ _ _ _ _ _ hf h
  rw [initAll_edges, after_fst] at this
  simp only [Prod.mk.injEq] at this
  obtain ⟨hp, hm⟩ := this
  have hst := hva.story hG (fun w hw => hw) (· ∈ G.vertices) (fun w hw => hw)
  have hmem : v ∈ discs l := by
    rw [hva.discs_spec.2, hva.mem_iff]
    exact ⟨⟨v, hv, Relation.ReflTransGen.refl⟩, Set.notMem_empty v⟩
  obtain ⟨-, e2⟩ := hst.edges (initAll (predecessorRecorder G) G.vertices p0) m0 m0 (fun _ _ => rfl)
    (fun v hv => absurd hv (Set.notMem_empty v))
  rw [hp, hm] at e2
  exact e2 v (Or.inr hmem)

example : (bfs sample ((predecessorRecorder sample).fst (predecessorEdgeRecorder sample)) (fun _ => false) 99 20 [0]
      (fun _ => some 7, fun _ => (7, 7))).map (fun r => (sample.vertices.map r.1, sample.vertices.map r.2)) =
    some ([some 0, some 0, some 0, none, none], [(7, 7), (0, 1), (0, 2), (7, 7), (7, 7)]) := by decide +kernel

end Actl.Traversal
