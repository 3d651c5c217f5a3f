import Verif.Lemmas.ArticulationRun
import Verif.Props.Bridges

/-!
C51: articulation points.
-/

namespace Actl.Traversal

variable {V E : Type} [DecidableEq V] {G : Graph V E}

/-- The finder knows the discovered vertices. -/
def ArtI (s : ArtState V) (D : Set V) : Prop := 0 ≤ s.now ∧ ∀ v, s.time v ≠ 0 ↔ v ∈ D

theorem ArtI.start {s : ArtState V} {D : Set V} {v : V} (h : ArtI s D) :
    ArtI ((artFinder G).on (.start v) s) (insert v D) := by
  have h0 := h.1
  refine ⟨by show 0 ≤ s.now + 1; omega, fun x => ?_⟩
  show put s.time v (s.now + 1) x ≠ 0 ↔ _
  by_cases hxv : x = v
  · simp only [put, hxv, if_true, Set.mem_insert_iff, true_or, iff_true]
    omega
  · simp only [put, hxv, if_false, Set.mem_insert_iff, false_or]
    exact h.2 x

theorem art_tracks : Tracks G (artFinder G) ArtI where
  disc s D v h _ := by
    rw [← h.2 v]
    show (s.time v != 0) = true ↔ _
    simp
  nonTree s D e h hs ht := by rw [artNonTree]; split <;> exact h
  treeFinish s D e h hs ht := by
    rw [artTreeFinish]
    split
    · split <;> exact h
    · exact h
  finish s D u h _ := h
  searchFinish s D u h hu := by
    show ArtI (if s.rootChildren > 1 then { s with marks := put s.marks u true } else s) D
    split <;> exact h
  enterTree s D e h _ _ _ := h.start
  enterRoot s D u h _ _ := ArtI.start (s := { s with root := some u, rootChildren := 0 }) h

theorem art_initAll (vs : List V) (marks : V → Bool) :
    initAll (artFinder G) vs ⟨marks, fun _ => 0, fun _ => 0, none, 0, 0⟩ = ⟨marks, fun _ => 0, fun _ => 0, none, 0, 0⟩ := by
  induction vs with
  | nil => rfl
  | cons v vs ih =>
    have : (artFinder G).on (.init v) ⟨marks, fun _ => 0, fun _ => 0, none, 0, 0⟩ =
        ⟨marks, fun _ => 0, fun _ => 0, none, 0, 0⟩ := by
      show (⟨_, put (fun _ => 0) v 0, _, _, _, _⟩ : ArtState V) = ⟨_, fun _ => 0, _, _, _, _⟩
      congr 1
      funext x
      simp [put]
    rw [initAll, this, ih]

theorem art_init (marks : V → Bool) (par : V → Option V) :
    AInv G marks par [] ∅ ⟨marks, fun _ => 0, fun _ => 0, none, 0, 0⟩ := by
  have hn : ∀ x : V, x ∈ (∅ : Set V) → False := fun x hx => Set.notMem_empty x hx
  exact ⟨⟨Int.le_refl 0, fun x hx => (hn x hx).elim, fun x hx => (hn x hx).elim, .nil,
    fun x hx => absurd hx List.not_mem_nil, fun x hx => (hn x hx).elim, fun x hx => (hn x hx).elim, fun x hx => (hn x hx).elim,
    fun x hx => (hn x hx).elim, fun x hx => (hn x hx).elim, fun x hx => (hn x hx).elim, fun x hx => (hn x hx).elim⟩,
    ⟨fun _ h => h, fun x hx => (hn x hx).elim, fun _ h => Or.inl h, fun x hx => (hn x hx).elim,
    fun x hx => absurd hx List.not_mem_nil, fun r h => absurd h (by simp), fun x hx => absurd hx List.not_mem_nil⟩⟩

/-- `find_articulation_points` on an undirected graph terminates.  Marks set before stay.  Every vertex
whose removal disconnects two of its neighbours is marked.  A vertex that becomes marked has two
different neighbours without an edge between them; if it comes first of its connected component, then
its removal does disconnect two of its neighbours.

Missing: other vertices that become marked need not disconnect anything
(`findArticulationPoints_cycle`). -/
theorem findArticulationPoints_partial (hG : G.WF) (hS : G.Symmetric) (marks : V → Bool) :
    (∃ fuel r, findArticulationPoints G fuel marks = some r) ∧
    ∀ fuel res, findArticulationPoints G fuel marks = some res →
      (∀ u, marks u = true → res u = true) ∧
      (∀ u ∈ G.vertices, G.Articulation u → res u = true) ∧
      (∀ u, res u = true → marks u = true ∨ u ∈ G.vertices ∧ G.Gap u) ∧
      ∀ a u b, G.vertices = a ++ u :: b → (∀ w ∈ a, ¬G.Reach w u) →
        (res u = true ↔ marks u = true ∨ G.Articulation u) := by
  obtain ⟨l, D', hva, hi, fuel, hf⟩ := dfsAll_ref (art_tracks (G := G)) hG ⟨marks, fun _ => 0, fun _ => 0, none, 0, 0⟩
    (by rw [art_initAll]; exact ⟨Int.le_refl 0, fun v => by simp⟩)
  rw [art_initAll] at hi hf
  obtain ⟨par, hinv, -, hroot, -, -⟩ := hva.articulation hS hG _ (fun u hu => hu) _ (art_init marks fun _ => none)
  generalize after (artFinder G) _ l = s at hi hf hinv
  refine ⟨⟨fuel, s.marks, by unfold findArticulationPoints; rw [hf]⟩, fun fuel' res h => ?_⟩
  have hres : res = s.marks := by
    unfold findArticulationPoints at h
    split at h
    · cases h
    · rename_i s' hs'
      have := dfsAll_det _ _ _ _ _ _ hf hs'
      subst this
      injection h with h
      exact h.symm
  subst hres
  have hmem : ∀ v, v ∈ D' ↔ v ∈ G.vertices := by
    intro v
    rw [hva.mem_iff]
    constructor
    · rintro ⟨u, hu, hr⟩
      exact hG.reach_mem hu hr
    · exact fun h => ⟨v, h, .refl⟩
  have hm := hinv.marks
  have hcomp : ∀ u ∈ G.vertices, G.Articulation u → s.marks u = true :=
    fun u hu => hm.complete u ((hmem u).mpr hu) List.not_mem_nil
  refine ⟨hm.kept, hcomp, fun u hu => ?_, fun a u b hab ha => ⟨fun hu => ?_, ?_⟩⟩
  · rcases hm.sound u hu with h1 | ⟨h1, h2, _⟩
    · exact Or.inl h1
    · exact Or.inr ⟨(hmem u).mp h1, h2⟩
  · rcases hm.sound u hu with h1 | ⟨_, _, h3, _⟩
    · exact Or.inl h1
    · exact Or.inr (h3 (hroot a u b hab (Set.notMem_empty u) ha))
  · rintro (h1 | h1)
    · exact hm.kept u h1
    · exact hcomp u (by rw [hab]; simp) h1

/-- The marks are right if removing any vertex disconnects all its neighbours without an edge between
them: in forests, complete graphs and other graphs made of cliques. -/
theorem findArticulationPoints_exact (hG : G.WF) (hS : G.Symmetric)
    (hB : ∀ u ∈ G.vertices, G.Gap u → G.Articulation u) (fuel : Nat) (res : V → Bool)
    (h : findArticulationPoints G fuel (fun _ => false) = some res) :
    ∀ u ∈ G.vertices, (res u = true ↔ G.Articulation u) := by
  obtain ⟨-, h2, h3, -⟩ := (findArticulationPoints_partial hG hS (fun _ => false)).2 fuel res h
  refine fun u hu => ⟨fun hr => ?_, h2 u hu⟩
  rcases h3 u hr with h4 | h4
  · cases h4
  · exact hB u hu h4.2

/-- The cycle 0-1-2-3-0. -/
def fourCycle : Graph Nat (Nat × Nat) where
  vertices := [0, 1, 2, 3]
  out u := match u with
    | 0 => [(0, 1), (0, 3)]
    | 1 => [(1, 0), (1, 2)]
    | 2 => [(2, 1), (2, 3)]
    | 3 => [(3, 2), (3, 0)]
    | _ => []
  src := Prod.fst
  tgt := Prod.snd

theorem fourCycle_wf : fourCycle.WF := ⟨by decide, by decide, by decide⟩

theorem fourCycle_symmetric : fourCycle.Symmetric := by
  have key : ∀ u ∈ fourCycle.vertices, ∀ e ∈ fourCycle.out u,
      ∃ e' ∈ fourCycle.out (fourCycle.tgt e), fourCycle.tgt e' = u := by decide +kernel
  rintro u hu v ⟨e, he, rfl⟩
  exact key u hu e he

/-- The claim is false: what a vertex reaches through its children is never taken into account, so a
vertex of the cycle is marked although no removal of a vertex disconnects anything. -/
theorem findArticulationPoints_cycle : fourCycle.WF ∧ fourCycle.Symmetric ∧ (∀ u ∈ fourCycle.vertices, ¬fourCycle.Articulation u) ∧
    ∃ res, findArticulationPoints fourCycle 30 (fun _ => false) = some res ∧ res 1 = true := by
  refine ⟨fourCycle_wf, fourCycle_symmetric, ?_, _, rfl, rfl⟩
  have nb : ∀ u ∈ fourCycle.vertices, ∀ x, fourCycle.Adj u x → x = (u + 1) % 4 ∨ x = (u + 3) % 4 := by
    have key : ∀ u ∈ fourCycle.vertices, ∀ e ∈ fourCycle.out u, fourCycle.tgt e = (u + 1) % 4 ∨ fourCycle.tgt e = (u + 3) % 4 := by
      decide +kernel
    rintro u hu x ⟨e, he, rfl⟩
    exact key u hu e he
  have adj : ∀ u ∈ fourCycle.vertices, fourCycle.Adj ((u + 1) % 4) ((u + 2) % 4) ∧ fourCycle.Adj ((u + 2) % 4) ((u + 3) % 4) ∧
      fourCycle.Adj ((u + 2) % 4) ((u + 1) % 4) ∧ fourCycle.Adj ((u + 3) % 4) ((u + 2) % 4) ∧
      (u + 1) % 4 ≠ u ∧ (u + 2) % 4 ≠ u ∧ (u + 3) % 4 ≠ u := by
    unfold Graph.Adj
    decide +kernel
  rintro u hu ⟨x, y, a1, a2, -, -, a5⟩
  obtain ⟨k1, k2, k3, k4, k5, k6, k7⟩ := adj u hu
  apply a5
  have h13 : fourCycle.ReachAvoid u ((u + 1) % 4) ((u + 3) % 4) :=
    .head ⟨k1, k5, k6⟩ (.single ⟨k2, k6, k7⟩)
  have h31 : fourCycle.ReachAvoid u ((u + 3) % 4) ((u + 1) % 4) :=
    .head ⟨k4, k7, k6⟩ (.single ⟨k3, k6, k5⟩)
  rcases nb u hu x a1 with rfl | rfl
  · rcases nb u hu y a2 with rfl | rfl
    · exact .refl
    · exact h13
  · rcases nb u hu y a2 with rfl | rfl
    · exact h31
    · exact .refl

/-- 1 and 2 are marked, rightly: they hold the bridge between the double edge and the triangle. -/
example : (findArticulationPoints sampleBridges 50 (fun _ => false)).map (fun r => sampleBridges.vertices.map r) =
    some [false, true, true, false, false, false] := by decide +kernel

/-- A star with centre 1 and a path from it, as example of the exact case: 1 and 3 are marked. -/
example : (findArticulationPoints (⟨[0, 1, 2, 3, 4], fun u => match u with
      | 0 => [(0, 1)] | 1 => [(1, 0), (1, 2), (1, 3)] | 2 => [(2, 1)] | 3 => [(3, 1), (3, 4)] | 4 => [(4, 3)] | _ => [],
      Prod.fst, Prod.snd⟩ : Graph Nat (Nat × Nat)) 50 (fun _ => false)).map (fun r => [0, 1, 2, 3, 4].map r) =
    some [false, true, false, true, false] := by decide +kernel

/-- The hypothesis of `findArticulationPoints_exact` for the path 0-1-2. -/
example : ∀ u ∈ (⟨[0, 1, 2], fun u => if u = 1 then [(1, 0), (1, 2)] else if u ≤ 2 then [(u, 1)] else [],
      Prod.fst, Prod.snd⟩ : Graph Nat (Nat × Nat)).vertices,
    (⟨[0, 1, 2], fun u => if u = 1 then [(1, 0), (1, 2)] else if u ≤ 2 then [(u, 1)] else [],
      Prod.fst, Prod.snd⟩ : Graph Nat (Nat × Nat)).Gap u →
    (⟨[0, 1, 2], fun u => if u = 1 then [(1, 0), (1, 2)] else if u ≤ 2 then [(u, 1)] else [],
      Prod.fst, Prod.snd⟩ : Graph Nat (Nat × Nat)).Articulation u := by
  rintro u hu ⟨x, y, ⟨e, he, hx⟩, ⟨f, hf, hy⟩, hxu, hyu, hxy, hn⟩
  refine ⟨x, y, ⟨e, he, hx⟩, ⟨f, hf, hy⟩, hxu, hyu, fun hr => ?_⟩
  simp only at he hf hx hy
  -- only vertex 1 has two neighbours, and these have no neighbour but 1
  have hu1 : u = 1 := by
    by_contra h1
    simp only [List.mem_cons, List.not_mem_nil, or_false] at hu
    have h2 : u ≤ 2 := by omega
    rw [if_neg h1, if_pos h2, List.mem_singleton] at he hf
    rw [he] at hx
    rw [hf] at hy
    exact hxy (hx.symm.trans hy)
  subst hu1
  rcases Relation.ReflTransGen.cases_head hr with h | ⟨c, ⟨⟨g, hg, hgc⟩, h1, h2⟩, _⟩
  · exact hxy h
  · simp only at hg hgc
    rw [if_neg h1] at hg
    split at hg
    · rw [List.mem_singleton.mp hg] at hgc
      exact h2 hgc.symm
    · cases hg

end Actl.Traversal
