import Verif.Props.Bfs

/-!
C48: connected components of undirected graphs.
-/

namespace Actl.Traversal

variable {V E : Type} {G : Graph V E}

/-- Every edge can be walked in both directions, as in an undirected graph. -/
def Graph.Symmetric (G : Graph V E) : Prop := ∀ u ∈ G.vertices, ∀ v, G.Adj u v → G.Adj v u

theorem Graph.WF.reach_mem (hG : G.WF) {u v : V} (hu : u ∈ G.vertices) (h : G.Reach u v) : v ∈ G.vertices := by
  induction h with
  | refl => exact hu
  | tail _ hadj ih => obtain ⟨e, he, rfl⟩ := hadj; exact hG.tgt _ ih e he

theorem Graph.Symmetric.reach (hS : G.Symmetric) (hG : G.WF) {u v : V} (hu : u ∈ G.vertices) (h : G.Reach u v) :
    G.Reach v u := by
  induction h with
  | refl => exact Relation.ReflTransGen.refl
  | tail h1 hadj ih => exact Relation.ReflTransGen.head (hS _ (hG.reach_mem hu h1) _ hadj) ih

variable [DecidableEq V]

/-- What happens to the component numbers in a run. -/
theorem Run.components {D D' : Set V} {es : List E} {l : List (Event V E)} (h : Run G D es l D') (s : (V → Int) × Int) :
    (after componentRecorder s l).2 = s.2 ∧ (∀ v, v ∈ D' → v ∉ D → (after componentRecorder s l).1 v = s.2) ∧
      ∀ v, v ∈ D ∨ v ∉ D' → (after componentRecorder s l).1 v = s.1 v := by
  induction h generalizing s with
  | nil D => exact ⟨rfl, fun v h1 h2 => absurd h1 h2, fun v _ => rfl⟩
  | skip h r ih => exact ih s
  | @tree D D1 D2 e es l1 l2 h r1 r2 ih1 ih2 =>
    have s1 := r1.subset
    have s2 := r2.subset
    have ht1 : G.tgt e ∈ D1 := s1 (Set.mem_insert _ _)
    have hafter : after componentRecorder s ([.treeStart e, .discover (G.tgt e), .start (G.tgt e)] ++ l1 ++
        [.finish (G.tgt e), .treeFinish e] ++ l2) =
        after componentRecorder (after componentRecorder (put s.1 (G.tgt e) s.2, s.2) l1) l2 := by
      rw [after_append, after_append, after_append]; rfl
    rw [hafter]
    obtain ⟨a1, a2, a3⟩ := ih1 (put s.1 (G.tgt e) s.2, s.2)
    obtain ⟨b1, b2, b3⟩ := ih2 (after componentRecorder (put s.1 (G.tgt e) s.2, s.2) l1)
    refine ⟨by rw [b1, a1], fun v h1 h2 => ?_, fun v h1 => ?_⟩
    · by_cases hv : v ∈ D1
      · rw [b3 v (Or.inl hv)]
        by_cases hvt : v = G.tgt e
        · rw [a3 v (Or.inl (by rw [hvt]; exact Set.mem_insert _ _))]; simp [put, hvt]
        · exact a2 v hv (fun h => (Set.mem_insert_iff.mp h).elim hvt h2)
      · rw [b2 v h1 hv, a1]
    · have hvt : v ≠ G.tgt e := by
        rintro rfl
        rcases h1 with h1 | h1
        · exact h h1
        · exact h1 (s2 ht1)
      rw [b3, a3]
      · simp [put, hvt]
      · rcases h1 with h1 | h1
        · exact Or.inl (Set.mem_insert_of_mem _ h1)
        · exact Or.inr (fun h => h1 (s2 h))
      · rcases h1 with h1 | h1
        · exact Or.inl (s1 (Set.mem_insert_of_mem _ h1))
        · exact Or.inr h1

theorem Visit.components {D D' : Set V} {u : V} {l : List (Event V E)} (h : Visit G D u l D') (hu : u ∉ D)
    (s : (V → Int) × Int) :
    (after componentRecorder s l).2 = s.2 + 1 ∧ (∀ v, v ∈ D' → v ∉ D → (after componentRecorder s l).1 v = s.2) ∧
      ∀ v, v ∈ D ∨ v ∉ D' → (after componentRecorder s l).1 v = s.1 v := by
  obtain ⟨l1, hr, rfl⟩ := h
  have hafter : after componentRecorder s ([.searchStart u, .discover u, .start u] ++ l1 ++ [.finish u, .searchFinish u]) =
      ((after componentRecorder (put s.1 u s.2, s.2) l1).1, (after componentRecorder (put s.1 u s.2, s.2) l1).2 + 1) := by
    rw [after_append, after_append]; rfl
  rw [hafter]
  obtain ⟨a1, a2, a3⟩ := hr.components (put s.1 u s.2, s.2)
  refine ⟨by rw [a1], fun v h1 h2 => ?_, fun v h1 => ?_⟩
  · by_cases hvu : v = u
    · rw [a3 v (Or.inl (by rw [hvu]; exact Set.mem_insert _ _))]; simp [put, hvu]
    · exact a2 v h1 (fun h => (Set.mem_insert_iff.mp h).elim hvu h2)
  · have hvu : v ≠ u := by
      rintro rfl
      rcases h1 with h1 | h1
      · exact hu h1
      · exact h1 (hr.subset (Set.mem_insert _ _))
    rw [a3]
    · simp [put, hvu]
    · rcases h1 with h1 | h1
      · exact Or.inl (Set.mem_insert_of_mem _ h1)
      · exact Or.inr h1

theorem VisitAll.components {D D' : Set V} {us : List V} {l : List (Event V E)} (hG : G.WF) (hS : G.Symmetric)
    (h : VisitAll G D us l D') (hus : ∀ u ∈ us, u ∈ G.vertices)
    (hD : ∀ u ∈ D, ∀ v, G.Reach u v → v ∈ D) (s : (V → Int) × Int) :
    (∀ v, v ∈ D ∨ v ∉ D' → (after componentRecorder s l).1 v = s.1 v) ∧
    s.2 ≤ (after componentRecorder s l).2 ∧
    (∀ v, v ∈ D' → v ∉ D → s.2 ≤ (after componentRecorder s l).1 v ∧
      (after componentRecorder s l).1 v < (after componentRecorder s l).2) ∧
    (∀ k, s.2 ≤ k → k < (after componentRecorder s l).2 → ∃ v ∈ D', v ∉ D ∧ (after componentRecorder s l).1 v = k) ∧
    ∀ v w, v ∈ D' → v ∉ D → w ∈ D' → w ∉ D →
      ((after componentRecorder s l).1 v = (after componentRecorder s l).1 w ↔ G.Reach v w) := by
  induction h generalizing s with
  | nil D =>
    exact ⟨fun v _ => rfl, Int.le_refl _, fun v h1 h2 => absurd h1 h2,
      fun k h1 h2 => absurd (show k < s.2 from h2) (by omega), fun v w h1 h2 => absurd h1 h2⟩
  | skip h r ih => exact ih (fun u hu => hus u (List.mem_cons_of_mem _ hu)) hD s
  | @visit D D1 D2 u us l1 l2 hu hv r ih =>
    have hum := hus u List.mem_cons_self
    have hone := VisitAll.one hv hu
    have s1 := hv.subset
    have s2 := r.subset
    have hmem1 : ∀ v, v ∈ D1 → v ∉ D → G.Reach u v := by
      intro v h1 h2
      obtain ⟨w, hw, hr⟩ := hone.reach v h1 h2
      rw [List.mem_singleton.mp hw] at hr
      exact hr
    have hcl : ∀ x, G.Reach u x → x ∈ D1 ∧ x ∉ D := by
      intro x hx
      have hnD : x ∉ D := fun h => hu (hD x h u (hS.reach hG hum hx))
      refine ⟨?_, hnD⟩
      induction hx with
      | refl => exact hone.mem u (by simp)
      | tail h1 hadj ihx =>
        obtain ⟨e, he, rfl⟩ := hadj
        exact hone.closed _ (ihx (fun h => hu (hD _ h u (hS.reach hG hum h1))))
          (fun h => hu (hD _ h u (hS.reach hG hum h1))) e he
    obtain ⟨a1, a2, a3⟩ := hv.components hu s
    have hD1 : ∀ x ∈ D1, ∀ v, G.Reach x v → v ∈ D1 := by
      intro x hx v hxv
      by_cases hxD : x ∈ D
      · exact s1 (hD x hxD v hxv)
      · exact (hcl v ((hmem1 x hx hxD).trans hxv)).1
    obtain ⟨b1, b2, b3, b4, b5⟩ := ih (fun u hu => hus u (List.mem_cons_of_mem _ hu)) hD1 (after componentRecorder s l1)
    rw [after_append]
    have hfirst : ∀ v, v ∈ D1 → v ∉ D → (after componentRecorder (after componentRecorder s l1) l2).1 v = s.2 := by
      intro v h1 h2
      rw [b1 v (Or.inl h1), a2 v h1 h2]
    refine ⟨fun v h1 => ?_, by omega, fun v h1 h2 => ?_, fun k h1 h2 => ?_, fun v w hv1 hv2 hw1 hw2 => ?_⟩
    · rw [b1, a3]
      · rcases h1 with h1 | h1
        · exact Or.inl h1
        · exact Or.inr (fun h => h1 (s2 h))
      · rcases h1 with h1 | h1
        · exact Or.inl (s1 h1)
        · exact Or.inr h1
    · by_cases hv1 : v ∈ D1
      · rw [hfirst v hv1 h2]
        exact ⟨Int.le_refl _, by omega⟩
      · obtain ⟨c1, c2⟩ := b3 v h1 hv1
        exact ⟨by omega, c2⟩
    · by_cases hk : k = s.2
      · refine ⟨u, s2 (hcl u Relation.ReflTransGen.refl).1, hu, ?_⟩
        rw [hk]; exact hfirst u (hcl u Relation.ReflTransGen.refl).1 hu
      · obtain ⟨v, c1, c2, c3⟩ := b4 k (by omega) h2
        exact ⟨v, c1, fun h => c2 (s1 h), c3⟩
    · by_cases hv3 : v ∈ D1
      · have hrv := hmem1 v hv3 hv2
        by_cases hw3 : w ∈ D1
        · rw [hfirst v hv3 hv2, hfirst w hw3 hw2]
          exact ⟨fun _ => (hS.reach hG hum hrv).trans (hmem1 w hw3 hw2), fun _ => rfl⟩
        · have hbw := b3 w hw1 hw3
          rw [hfirst v hv3 hv2]
          exact ⟨fun h => by omega, fun h => absurd (hD1 v hv3 w h) hw3⟩
      · by_cases hw3 : w ∈ D1
        · have hbv := b3 v hv1 hv3
          rw [hfirst w hw3 hw2]
          refine ⟨fun h => by omega, fun h => ?_⟩
          have hvm : v ∈ G.vertices := by
            obtain ⟨u', hu', hr'⟩ := r.reach v hv1 hv3
            exact hG.reach_mem (hus u' (List.mem_cons_of_mem _ hu')) hr'
          exact absurd (hD1 w hw3 v (hS.reach hG hvm h)) hv3
        · exact b5 v w hv1 hv3 hw1 hw3

/-- Depth-first search of an undirected graph with the component recorder (fresh: the count is 0): it
terminates; two vertices get the same number just if there is a path between them; the numbers used
are just 0 .. count-1. -/
theorem components_spec (hG : G.WF) (hS : G.Symmetric) (m : V → Int) :
    (∃ fuel r, dfsAll G (componentRecorder : Comp _ V E) (fun _ => false) fuel (m, 0) = some r) ∧
    ∀ fuel comp count, dfsAll G (componentRecorder : Comp _ V E) (fun _ => false) fuel (m, 0) = some (comp, count) →
      (∀ u ∈ G.vertices, ∀ v ∈ G.vertices, (comp u = comp v ↔ G.Reach u v)) ∧
      ∀ k, (∃ v ∈ G.vertices, comp v = k) ↔ 0 ≤ k ∧ k < count := by
  obtain ⟨l, D', hva, hi, fuel, hf⟩ := dfsAll_ref (comp_tracks (G := G)) hG (m, 0) (comp_init (m, 0) (Int.le_refl _))
  refine ⟨⟨fuel, _, hf⟩, fun fuel' comp count h => ?_⟩
  have hr := dfsAll_det _ _ _ _ _ _ hf h
  have h0 : (initAll (componentRecorder : Comp _ V E) G.vertices (m, 0)).2 = 0 :=
    initAll_of (componentRecorder : Comp _ V E) (fun s => s.2 = 0) (fun _ _ h => h) _ _ rfl
  obtain ⟨-, -, b3, b4, b5⟩ := hva.components hG hS (fun u hu => hu) (fun u hu => absurd hu (Set.notMem_empty u))
    (initAll (componentRecorder : Comp _ V E) G.vertices (m, 0))
  rw [hr, h0] at b3 b4
  rw [hr] at b5
  have hmem : ∀ v ∈ G.vertices, v ∈ D' := fun v hv => hva.mem v hv
  refine ⟨fun u hu v hv => b5 u v (hmem u hu) (Set.notMem_empty u) (hmem v hv) (Set.notMem_empty v), fun k => ⟨?_, ?_⟩⟩
  · rintro ⟨v, hv, rfl⟩
    exact b3 v (hmem v hv) (Set.notMem_empty v)
  · rintro ⟨h1, h2⟩
    obtain ⟨v, c1, c2, c3⟩ := b4 k h1 h2
    refine ⟨v, ?_, c3⟩
    obtain ⟨u, hu, hr⟩ := hva.reach v c1 c2
    exact hG.reach_mem hu hr

/-- On a directed graph the numbers are not those of weakly or strongly connected vertices. -/
example : (dfsAll (⟨[0, 1], fun u => if u = 1 then [(1, 0)] else [], Prod.fst, Prod.snd⟩ : Graph Nat (Nat × Nat))
    componentRecorder (fun _ => false) 9 (fun _ => 7, 0)).map (fun r => ([0, 1].map r.1, r.2)) = some ([0, 1], 2) := by
  decide +kernel

/-- An undirected graph with a cycle, a loop and three components. -/
def sampleUndirected : Graph Nat (Nat × Nat) where
  vertices := [0, 1, 2, 3, 4, 5]
  out u := match u with
    | 0 => [(0, 4), (0, 1)]
    | 1 => [(1, 4), (1, 0)]
    | 3 => [(3, 5), (3, 3)]
    | 4 => [(4, 0), (4, 1)]
    | 5 => [(5, 3)]
    | _ => []
  src := Prod.fst
  tgt := Prod.snd

example : sampleUndirected.WF ∧ sampleUndirected.Symmetric ∧
    (dfsAll sampleUndirected componentRecorder (fun _ => false) 30 (fun _ => 7, 0)).map
      (fun r => (sampleUndirected.vertices.map r.1, r.2)) = some ([0, 0, 1, 2, 0, 2], 3) := by
  refine ⟨⟨by decide, by decide, by decide⟩, ?_, by decide +kernel⟩
  have key : ∀ u ∈ sampleUndirected.vertices, ∀ e ∈ sampleUndirected.out u,
      ∃ e' ∈ sampleUndirected.out (sampleUndirected.tgt e), sampleUndirected.tgt e' = u := by decide +kernel
  rintro u hu v ⟨e, he, rfl⟩
  exact key u hu e he

end Actl.Traversal
