import Verif.Props.Dfs
import Verif.Props.Components

/-!
C158: what the time stamps of a depth-first search say about the edges.
-/

namespace Actl.Traversal

variable {V E : Type} [DecidableEq V] [DecidableEq E] {G : Graph V E}

/-- Depth-first search of the whole graph recording time stamps.
* The end of an edge is stamped before its start is left.
* The graph has no cycle just if no edge leads back: to a vertex in whose interval the edge starts.
* In an undirected graph every edge joins vertices one of which has its stamp in the interval of the other: no edge goes across. -/
theorem dfsAll_edges (hG : G.WF) (s : Stamps V) (h0 : 0 ≤ s.now) (fuel : Nat) (t : Stamps V) (l : List (Event V E))
    (h : dfsAll G ((timeStamper (-1)).fst logger) (fun _ => false) fuel (s, []) = some (t, l)) :
    (∀ u ∈ G.vertices, ∀ e ∈ G.out u, t.inTime (G.tgt e) < t.outTime u) ∧
    (G.Acyclic ↔ ∀ u ∈ G.vertices, ∀ e ∈ G.out u, ¬(t.inTime (G.tgt e) ≤ t.inTime u ∧ t.inTime u < t.outTime (G.tgt e))) ∧
    (G.Symmetric → ∀ u ∈ G.vertices, ∀ e ∈ G.out u,
      t.inTime u ≤ t.inTime (G.tgt e) ∧ t.outTime (G.tgt e) ≤ t.outTime u ∨
      t.inTime (G.tgt e) ≤ t.inTime u ∧ t.outTime u ≤ t.outTime (G.tgt e)) := by
  have hus : ∀ w ∈ G.vertices, w ∈ G.vertices := fun w hw => hw
  have stamps := dfsAll_stamps hG s h0 fuel t l h
  obtain ⟨hva, ht, -, hex⟩ := (dfsAll_explores_of_tracks stamp_tracks hG s (stamp_init s h0)).2 _ _ _ h
  have hs : (starts l).Nodup := by rw [hva.starts_eq]; exact hva.discs_spec.1
  have hf : (finishes l).Nodup := hva.finishes_perm.nodup_iff.mpr hva.discs_spec.1
  have hmem : ∀ w ∈ G.vertices, Event.start w ∈ l ∧ Event.finish w ∈ l := by
    intro w hw
    constructor
    · rw [← mem_starts, hva.starts_eq, hva.discs_spec.2]; exact ⟨hw, Set.notMem_empty w⟩
    · rw [← mem_finishes, hva.finishes_perm.mem_iff, hva.discs_spec.2]; exact ⟨hw, Set.notMem_empty w⟩
  have first : ∀ u ∈ G.vertices, ∀ e ∈ G.out u, t.inTime (G.tgt e) < t.outTime u := by
    intro u hu e he
    have hv := hG.tgt u hu e he
    have h1 := startedBefore_lt l (hmem _ hv).1 (hva.edge_order hG hus hu e he)
    rw [ht, stamps_in (-1) _ hs hva.no_init (hmem _ hv).1, stamps_out (-1) _ hf (hmem u hu).2]
    omega
  refine ⟨first, ⟨fun hac u hu e he hb => ?_, fun hno u hu hc => ?_⟩, fun hS u hu e he => ?_⟩
  · have hv := hG.tgt u hu e he
    have htree := (stamps (G.tgt e) u hv hu).2.2.2.2.2.mp hb
    have hr : G.Reach (G.tgt e) u := by
      clear hb he hu
      induction htree with
      | refl => exact .refl
      | tail _ h ih => exact ih.tail (hva.tree_adj hG hus h)
    have hadj : G.Adj u (G.tgt e) := ⟨e, he, rfl⟩
    exact hac u hu (Relation.TransGen.trans_left (.single hadj) hr)
  · have edge : ∀ u ∈ G.vertices, ∀ e ∈ G.out u, finishAt l (G.tgt e) < finishAt l u := by
      intro u hu e he
      have hv := hG.tgt u hu e he
      have hn := hno u hu e he
      rw [(stamps (G.tgt e) u hv hu).2.2.2.2.2] at hn
      have huv : u ≠ G.tgt e := fun hh => hn (hh ▸ .refl)
      have h1 := hva.edge_order hG hus hu e he
      obtain ⟨h2, h3⟩ := hva.intervals hG hus hu hv huv
      rcases h3 with h3 | h3 | h3 | h3
      · exact h3.2.2
      · exact absurd h3.1.to_reflTransGen hn
      · omega
      · omega
    have key : ∀ v, Relation.TransGen G.Adj u v → finishAt l v < finishAt l u ∧ v ∈ G.vertices := by
      intro v hv
      induction hv with
      | single hadj => obtain ⟨e, he, rfl⟩ := hadj; exact ⟨edge _ hu e he, hG.tgt _ hu e he⟩
      | tail _ hadj ih => obtain ⟨e, he, rfl⟩ := hadj; exact ⟨(edge _ ih.2 e he).trans ih.1, hG.tgt _ ih.2 e he⟩
    exact absurd (key u hc).1 (Nat.lt_irrefl _)
  · have hv := hG.tgt u hu e he
    obtain ⟨f, hf', hft⟩ := hS u hu _ ⟨e, he, rfl⟩
    have h1 := first u hu e he
    have h2 := first _ hv f hf'
    rw [hft] at h2
    rcases (stamps u (G.tgt e) hu hv).2.2.2.2.1 with h3 | h3 | h3 | h3
    · exact .inl h3
    · exact .inr h3
    · omega
    · omega

/-- In the sample 1 → 0 leads back: 0 is stamped 0 to 3, 1 is stamped 1. -/
example : sample.WF ∧
    (dfsAll sample ((timeStamper (-1)).fst logger) (fun _ => false) 20 (⟨fun _ => 7, fun _ => 7, 0⟩, [])).map
      (fun r => (sample.vertices.map r.1.inTime, sample.vertices.map r.1.outTime)) = some ([0, 1, 2, 3, 4], [3, 2, 3, 5, 5]) :=
  ⟨⟨by decide, by decide, by decide⟩, by decide +kernel⟩

/-- Without cycles: 0 → 2, 0 → 1, 1 → 2, 3 → 0, 3 → 2. -/
example : (dfsAll sampleDag ((timeStamper (-1)).fst logger) (fun _ => false) 20 (⟨fun _ => 7, fun _ => 7, 0⟩, [])).map
      (fun r => (sampleDag.vertices.map r.1.inTime, sampleDag.vertices.map r.1.outTime)) = some ([0, 2, 1, 3], [3, 3, 2, 4]) := by
  decide +kernel

end Actl.Traversal
