import Verif.Props.Dfs
import Verif.Props.Scc

/-!
C153: `topological_sort` of graphs that may have cycles.
-/

namespace Actl.Traversal

variable {V E : Type} [DecidableEq V] {G : Graph V E}

/-- Some vertex mutually reachable with `u` is finished no earlier than a given vertex reachable from `u`. -/
theorem VisitAll.finish_late [DecidableEq E] {l : List (Event V E)} {D' : Set V} (hG : G.WF)
    (hva : VisitAll G ∅ G.vertices l D') (hmemD : ∀ v, v ∈ D' ↔ v ∈ G.vertices) {u w : V} (hu : u ∈ G.vertices)
    (h : G.Reach u w) : ∃ x, G.Reach u x ∧ G.Reach x u ∧ (w = x ∨ finishAt l w < finishAt l x) := by
  have hus : ∀ w ∈ G.vertices, w ∈ G.vertices := fun w hw => hw
  have htree : ∀ a b, Relation.TransGen (TreeAdj G l) a b → G.Reach a b := by
    intro a b hab
    induction hab with
    | single h => exact .single (hva.tree_adj hG hus h)
    | tail _ h ih => exact ih.tail (hva.tree_adj hG hus h)
  induction h with
  | refl => exact ⟨u, .refl, .refl, Or.inl rfl⟩
  | @tail b c hub hadj ih =>
    obtain ⟨x, hux, hxu, hx⟩ := ih
    have huc := hub.tail hadj
    have hb := (hmemD b).mpr (hG.reach_mem hu hub)
    have hc := (hmemD c).mpr (hG.reach_mem hu huc)
    have hxm := (hmemD x).mpr (hG.reach_mem hu hux)
    by_cases hcx : c = x
    · exact ⟨x, hux, hxu, Or.inl hcx⟩
    by_cases hbc : b = c
    · exact ⟨x, hux, hxu, hbc ▸ hx⟩
    obtain ⟨e, he, rfl⟩ := hadj
    have h1 := hva.edge_order hG hus hb e he
    obtain ⟨i1, i2⟩ := hva.intervals hG hus hxm hc (Ne.symm hcx)
    obtain ⟨j1, j2⟩ := hva.intervals hG hus hc hxm hcx
    have hbx : finishAt l b ≤ finishAt l x := by
      rcases hx with rfl | hx
      · exact Nat.le_refl _
      · omega
    rcases i2 with i2 | i2 | i2 | i2
    · exact ⟨x, hux, hxu, Or.inr i2.2.2⟩
    · exact ⟨_, huc, (htree _ _ i2.1).trans hxu, Or.inl rfl⟩
    · omega
    · exact ⟨x, hux, hxu, Or.inr (by omega)⟩

/-- `topological_sort` of any directed graph.
* It terminates and lists every vertex once.
* The list is in the promised order (edges go from later to earlier) just if the graph has no cycle, so
  checking the order decides whether there is one.
* A vertex listed last of those mutually reachable with it is listed after everything reachable from it.
* Whatever reaches the vertex listed last is reachable from it. -/
theorem topologicalSort_any (hG : G.WF) (flags : V → Bool) :
    (∃ fuel output, topologicalSort G fuel flags = some output) ∧
    ∀ fuel output, topologicalSort G fuel flags = some output →
      output.Perm G.vertices ∧
      ((∀ u ∈ G.vertices, ∀ e ∈ G.out u, output.idxOf (G.tgt e) < output.idxOf u) ↔ G.Acyclic) ∧
      (∀ u ∈ G.vertices, (∀ y, G.Reach u y → G.Reach y u → output.idxOf y ≤ output.idxOf u) →
        ∀ w, G.Reach u w → output.idxOf w ≤ output.idxOf u) ∧
      ∀ (init : List V) (r : V), output = init ++ [r] → ∀ z ∈ G.vertices, G.Reach z r → G.Reach r z := by
  classical
  obtain ⟨l, D', hva, hi, fuel, hf⟩ := dfsAll_ref (flag_tracks.fst (finishPrinter (E := E))) hG (flags, [])
    (by rw [initAll_fst]; exact flag_init flags)
  have hfn : (finishes l).Nodup := hva.finishes_perm.nodup_iff.mpr hva.discs_spec.1
  have hmemD : ∀ v, v ∈ D' ↔ v ∈ G.vertices := by
    intro v
    rw [hva.mem_iff]
    constructor
    · rintro ⟨u, hu, hr⟩
      exact hG.reach_mem hu hr
    · exact fun h => ⟨v, h, Relation.ReflTransGen.refl⟩
  have hmem : ∀ v, v ∈ finishes l ↔ v ∈ G.vertices := by
    intro v
    rw [hva.finishes_perm.mem_iff, hva.discs_spec.2, hmemD]
    simp
  have hrun : topologicalSort G fuel flags = some (finishes l) := by
    unfold topologicalSort
    rw [hf, after_fst, initAll_snd _ (fun _ _ => rfl), fold_finishPrinter, List.nil_append]
  refine ⟨⟨fuel, _, hrun⟩, fun fuel' output h => ?_⟩
  have hout : ∀ fuel' output, topologicalSort G fuel' flags = some output → output = finishes l := by
    intro fuel' output h
    unfold topologicalSort at h hrun
    split at h
    · cases h
    · rename_i a o hs
      have := dfsAll_det _ _ _ _ _ _ hf hs
      rw [hf, this] at hrun
      simp only [Option.some.injEq] at h hrun
      rw [← h, hrun]
  obtain rfl := hout fuel' output h
  have late : ∀ u ∈ G.vertices, ∀ w, G.Reach u w → ∃ x, G.Reach u x ∧ G.Reach x u ∧
      (finishes l).idxOf w ≤ (finishes l).idxOf x := by
    intro u hu w hw
    obtain ⟨x, h1, h2, h3⟩ := hva.finish_late hG hmemD hu hw
    refine ⟨x, h1, h2, ?_⟩
    rcases h3 with rfl | h3
    · exact Nat.le_refl _
    · exact Nat.le_of_lt (finishes_idx hfn (mem_finishes.mp ((hmem x).mpr (hG.reach_mem hu h1)))
        (mem_finishes.mp ((hmem w).mpr (hG.reach_mem hu hw))) h3)
  refine ⟨(List.perm_ext_iff_of_nodup hfn hG.nodup).mpr hmem, ⟨fun ho u hu hc => ?_, fun hac => ?_⟩, ?_, ?_⟩
  · have key : ∀ v, Relation.TransGen G.Adj u v → (finishes l).idxOf v < (finishes l).idxOf u ∧ v ∈ G.vertices := by
      intro v hv
      induction hv with
      | single hadj => obtain ⟨e, he, rfl⟩ := hadj; exact ⟨ho _ hu e he, hG.tgt _ hu e he⟩
      | tail _ hadj ih => obtain ⟨e, he, rfl⟩ := hadj; exact ⟨(ho _ ih.2 e he).trans ih.1, hG.tgt _ ih.2 e he⟩
    exact absurd (key u hc).1 (Nat.lt_irrefl _)
  · obtain ⟨out, ⟨fuel₂, h1⟩, -, h3⟩ := topologicalSort_spec hG hac flags
    rw [← hout fuel₂ out h1]
    exact h3
  · intro u hu hl w hw
    obtain ⟨x, h1, h2, h3⟩ := late u hu w hw
    exact h3.trans (hl x h1 h2)
  · intro init r hr z hz hzr
    obtain ⟨x, h1, h2, h3⟩ := late z hz r hzr
    have hx := (hmem x).mpr (hG.reach_mem hz h1)
    have hxr : x = r := by
      rw [hr] at hfn hx h3
      rcases List.mem_append.mp hx with hx' | hx'
      · have hri : r ∉ init := fun h => by
          rw [List.nodup_append] at hfn
          exact hfn.2.2 r h r (by simp) rfl
        have h4 := List.idxOf_lt_length_of_mem hx'
        rw [List.idxOf_append_of_mem hx', List.idxOf_append_of_notMem hri] at h3
        omega
      · simpa using hx'
    exact hxr ▸ h2

/-- If the list of `topological_sort` is in order then `find_strong_components` gives all vertices
different numbers. -/
theorem topologicalSort_strong (hG : G.WF) (flags : V → Bool) (M : Int) (h0 : 0 < M) (hM : (G.vertices.length : Int) ≤ M)
    (map : V → Int) (f₁ f₂ : Nat) (output : List V) (comp : V → Int) (h₁ : topologicalSort G f₁ flags = some output)
    (h₂ : findStrongComponents G M f₂ map = some comp)
    (ho : ∀ u ∈ G.vertices, ∀ e ∈ G.out u, output.idxOf (G.tgt e) < output.idxOf u) :
    ∀ u ∈ G.vertices, ∀ v ∈ G.vertices, (comp u = comp v ↔ u = v) :=
  findStrongComponents_acyclic hG M h0 hM (((topologicalSort_any hG flags).2 _ _ h₁).2.1.mp ho) map f₂ comp h₂

/-- With the cycles 0-1 and 0-2-1, a loop at 1, and 3 → 0, 3 → 4: every vertex once; 3 comes last and reaches
everything; 0 comes last of its cycle. -/
example : sample.WF ∧ topologicalSort sample 30 (fun _ => true) = some [1, 2, 0, 4, 3] :=
  ⟨⟨by decide, by decide, by decide⟩, by rfl⟩

/-- An order that passes the check, and the numbers. -/
example : topologicalSort sampleDag 20 (fun _ => true) = some [2, 1, 0, 3] ∧
    (∀ u ∈ sampleDag.vertices, ∀ e ∈ sampleDag.out u, [2, 1, 0, 3].idxOf (sampleDag.tgt e) < [2, 1, 0, 3].idxOf u) ∧
    (findStrongComponents sampleDag 100 30 (fun _ => 7)).map (fun c => sampleDag.vertices.map c) = some [2, 1, 0, 3] :=
  ⟨by rfl, by decide, by decide +kernel⟩

end Actl.Traversal
