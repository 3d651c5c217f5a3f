import Verif.Props.Bridges
import Verif.Props.Articulation
import Verif.Props.Biconnected

/-!
C152: bridges, two-edge-connected components, connected components and articulation points, found by
separate searches of one undirected graph, fit together.
-/

namespace Actl.Traversal

variable {V E : Type} [DecidableEq V] {G : Graph V E} {rev : E → E} {par : Bool}

/-- Removal of an end of a bridge disconnects the other end from any further neighbour. -/
theorem Graph.Bridge.articulation (hG : G.WF) (hU : G.Undirected rev) {u w : V} {e : E} (hu : u ∈ G.vertices)
    (he : e ∈ G.out u) (hb : G.Bridge rev e) (hw : G.Adj (G.tgt e) w) (hwu : w ≠ u) (hwv : w ≠ G.tgt e) :
    G.Articulation (G.tgt e) := by
  have hv := hG.tgt u hu e he
  have hsrc := hG.src u hu e he
  have huv : u ≠ G.tgt e := by
    intro h
    apply hb
    rw [hsrc, ← h]
    exact .refl
  refine ⟨u, w, hU.symmetric u hu _ ⟨e, he, rfl⟩, hw, huv, hwv, fun hr => hb ?_⟩
  rw [hsrc]
  have key : ∀ y, G.ReachAvoid (G.tgt e) u y → G.Reach u y ∧ G.ReachWithout rev e u y := by
    intro y hy
    induction hy with
    | refl => exact ⟨.refl, .refl⟩
    | @tail b c _ hadj ih =>
      obtain ⟨⟨f, hf, rfl⟩, h1, h2⟩ := hadj
      refine ⟨ih.1.tail ⟨f, hf, rfl⟩, ih.2.tail ⟨f, hf, rfl, fun h => h2 (by rw [h]), fun h => h1 ?_⟩⟩
      have h3 := hG.src b (hG.reach_mem hu ih.1) f hf
      rw [← h3, h, hG.src _ hv (rev e) (hU.mem_rev u hu e he)]
  obtain ⟨k1, k2⟩ := key w hr
  have hwm := hG.reach_mem hu k1
  obtain ⟨f, hf, hft⟩ := hU.symmetric _ hv w hw
  refine k2.tail ⟨f, hf, hft, fun h => hwu ?_, fun h => hwv ?_⟩
  · rw [← hG.src w hwm f hf, h, hsrc]
  · rw [← hG.src w hwm f hf, h, hG.src _ hv (rev e) (hU.mem_rev u hu e he)]

/-- Three searches of one undirected graph, for the bridges and two-edge-connected components, for the
connected components, and for the articulation points, agree.
* An edge is among the bridges output, in one direction or the other, just if its ends get different
  two-edge-connected component numbers.
* Vertices with the same two-edge-connected component number have the same component number.
* If no bridge is output, the converse holds too.
* The ends of every edge have the same component number.
* An end of a bridge output that has a neighbour besides itself and the other end is marked as an
  articulation point. -/
theorem searches_agree (hG : G.WF) (hU : G.Undirected rev) (hpar : par = false → G.Simple)
    (map cmap : V → Int) (marks : V → Bool) (f₁ f₂ f₃ : Nat) (bridges : List E) (two comp : V → Int) (count : Int)
    (res : V → Bool) (h₁ : findBridges G par f₁ map = some (bridges, two))
    (h₂ : dfsAll G (componentRecorder : Comp _ V E) (fun _ => false) f₂ (cmap, 0) = some (comp, count))
    (h₃ : findArticulationPoints G f₃ marks = some res) :
    (∀ u ∈ G.vertices, ∀ e ∈ G.out u, (e ∈ bridges ∨ rev e ∈ bridges ↔ two u ≠ two (G.tgt e))) ∧
    (∀ u ∈ G.vertices, ∀ v ∈ G.vertices, two u = two v → comp u = comp v) ∧
    (bridges = [] → ∀ u ∈ G.vertices, ∀ v ∈ G.vertices, comp u = comp v → two u = two v) ∧
    (∀ u ∈ G.vertices, ∀ e ∈ G.out u, comp u = comp (G.tgt e)) ∧
    ∀ u ∈ G.vertices, ∀ e ∈ G.out u, e ∈ bridges ∨ rev e ∈ bridges →
      ∀ g ∈ G.out (G.tgt e), G.tgt g ≠ u → G.tgt g ≠ G.tgt e → res (G.tgt e) = true := by
  obtain ⟨b1, -, -, -, b5, -⟩ := (findBridges_spec (par := par) hG hU hpar map).2 _ _ _ h₁
  obtain ⟨c1, -⟩ := (components_spec hG hU.symmetric cmap).2 _ _ _ h₂
  obtain ⟨-, a2, -, -⟩ := (findArticulationPoints_partial hG hU.symmetric marks).2 _ _ h₃
  have key : ∀ u ∈ G.vertices, ∀ e ∈ G.out u, (G.Bridge rev e ↔ two u ≠ two (G.tgt e)) := by
    intro u hu e he
    rw [ne_eq, b5 u hu _ (hG.tgt u hu e he)]
    constructor
    · intro hb h2
      apply hb
      rw [hG.src u hu e he]
      exact h2.2 u hu e he
    · intro hn
      by_contra hb
      exact hn ((hU.nb_iff hG hu).mp (.single ⟨hu, e, he, rfl, hb⟩))
  refine ⟨fun u hu e he => (b1 u hu e he).trans (key u hu e he), fun u hu v hv h => ?_, fun hb u hu v hv h => ?_,
    fun u hu e he => (c1 u hu _ (hG.tgt u hu e he)).mpr (.single ⟨e, he, rfl⟩), fun u hu e he hb g hg h1 h2 => ?_⟩
  · exact (c1 u hu v hv).mpr ((b5 u hu v hv).mp h).1
  · rw [b5 u hu v hv, ← hU.nb_iff hG hu]
    have hr := (c1 u hu v hv).mp h
    clear hv h
    induction hr with
    | refl => exact .refl
    | @tail x y hx hadj ih =>
      obtain ⟨f, hf, rfl⟩ := hadj
      have hxm := hG.reach_mem hu hx
      refine ih.tail ⟨hxm, f, hf, rfl, fun hbr => ?_⟩
      have := (b1 x hxm f hf).mpr hbr
      simp [hb] at this
  · exact a2 _ (hG.tgt u hu e he) (Graph.Bridge.articulation hG hU hu he ((b1 u hu e he).mp hb) ⟨g, hg, rfl⟩ h1 h2)

/-- The graph of the bridges sample: the bridge 1-2, whose ends both have other neighbours, both marked. -/
example : (findBridges sampleBridges true 50 (fun _ => 9)).map (fun r => (r.1, sampleBridges.vertices.map r.2)) =
      some ([(1, 2, 2)], [1, 1, 0, 0, 0, 2]) ∧
    (dfsAll sampleBridges (componentRecorder : Comp _ Nat _) (fun _ => false) 50 (fun _ => 9, 0)).map
      (fun r => (sampleBridges.vertices.map r.1, r.2)) = some ([0, 0, 0, 0, 0, 1], 2) ∧
    (findArticulationPoints sampleBridges 50 (fun _ => false)).map (fun r => sampleBridges.vertices.map r) =
      some [false, true, true, false, false, false] := by
  decide +kernel

end Actl.Traversal
