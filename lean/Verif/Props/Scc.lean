import Verif.Lemmas.Scc
import Verif.Props.Components

/-!
C49: strongly connected components.
-/

namespace Actl.Traversal

variable {V E : Type} [DecidableEq V] {G : Graph V E}

/-- `find_strong_components` on a directed graph with at most `maxTime` vertices terminates without
undefined behaviour whatever the map holds before.  Vertices with the same number are reachable from
each other, and the numbers used are 0, 1, .., k-1 for some k.

Missing: vertices reachable from each other need not get the same number
(`findStrongComponents_splits`). -/
theorem findStrongComponents_sound_partial (hG : G.WF) (M : Int) (h0 : 0 < M) (hM : (G.vertices.length : Int) ≤ M)
    (map : V → Int) :
    (∃ fuel r, findStrongComponents G M fuel map = some r) ∧
    ∀ fuel comp, findStrongComponents G M fuel map = some comp →
      (∀ u ∈ G.vertices, ∀ v ∈ G.vertices, comp u = comp v → G.Reach u v ∧ G.Reach v u) ∧
      ∃ count : Int, ∀ k, (∃ v ∈ G.vertices, comp v = k) ↔ 0 ≤ k ∧ k < count := by
  obtain ⟨l, D', hva, hi, fuel, hf⟩ := dfsAll_ref (scc_tracks (G := G) (M := M)) hG (SccState.fresh map)
    (by rw [scc_initAll]; exact scc_init h0 map)
  rw [scc_initAll] at hi hf
  have hinv := hva.scc hG _ (fun u hu => hu) (sccInv_init hG hM map)
  generalize after (sccFinder G M) (SccState.fresh map) l = s at hi hf hinv
  have hok := hinv.2
  refine ⟨⟨fuel, s.components.map, by unfold findStrongComponents; rw [hf]; simp [hok.good]⟩, fun fuel' comp h => ?_⟩
  have hcomp : comp = s.components.map := by
    unfold findStrongComponents at h
    split at h
    · cases h
    · rename_i s' hs'
      have := dfsAll_det _ _ _ _ _ _ hf hs'
      subst this
      rw [hok.good] at h
      simpa using h.symm
  subst hcomp
  have hstack : s.components.stack = [] := by
    have := hok.ok
    generalize s.components.stack = st at this
    cases this
    rfl
  have hn : ∀ v, v ∉ s.components.stack := fun v => by rw [hstack]; exact List.not_mem_nil
  have hmem : ∀ v, v ∈ D' ↔ v ∈ G.vertices := by
    intro v
    rw [hva.mem_iff]
    constructor
    · rintro ⟨u, hu, hr⟩
      exact hG.reach_mem hu hr
    · exact fun h => ⟨v, h, .refl⟩
  refine ⟨fun u hu v hv he => hok.same u ((hmem u).mpr hu) (hn u) v ((hmem v).mpr hv) (hn v) he,
    s.components.n, fun k => ⟨?_, ?_⟩⟩
  · rintro ⟨v, hv, rfl⟩
    exact hok.range v ((hmem v).mpr hv) (hn v)
  · rintro ⟨h1, h2⟩
    obtain ⟨y, y1, _, y3⟩ := hok.used k h1 h2
    exact ⟨y, (hmem y).mp y1, y3⟩

/-- In an acyclic graph all vertices get different numbers. -/
theorem findStrongComponents_acyclic (hG : G.WF) (M : Int) (h0 : 0 < M) (hM : (G.vertices.length : Int) ≤ M)
    (hA : G.Acyclic) (map : V → Int) (fuel : Nat) (comp : V → Int) (h : findStrongComponents G M fuel map = some comp) :
    ∀ u ∈ G.vertices, ∀ v ∈ G.vertices, (comp u = comp v ↔ u = v) := by
  intro u hu v hv
  refine ⟨fun he => ?_, fun he => by rw [he]⟩
  obtain ⟨h1, h2⟩ := ((findStrongComponents_sound_partial hG M h0 hM map).2 fuel comp h).1 u hu v hv he
  rcases Relation.reflTransGen_iff_eq_or_transGen.mp h1 with h1 | h1
  · exact h1.symm
  · exact absurd (h1.trans_left h2) (hA u hu)

/-- Two cycles with a common vertex: 0 → 1 → 0 and 0 → 2 → 1. -/
def twoCycles : Graph Nat (Nat × Nat) where
  vertices := [0, 1, 2]
  out u := match u with
    | 0 => [(0, 1), (0, 2)]
    | 1 => [(1, 0)]
    | 2 => [(2, 1)]
    | _ => []
  src := Prod.fst
  tgt := Prod.snd

/-- The claim is false: finished vertices are forgotten although their component is not complete, so a
vertex that reaches the component only through them is split off. -/
theorem findStrongComponents_splits : twoCycles.WF ∧ (∀ u ∈ twoCycles.vertices, ∀ v ∈ twoCycles.vertices, twoCycles.Reach u v) ∧
    ∀ map, ∃ comp, findStrongComponents twoCycles 2147483647 20 map = some comp ∧ comp 0 = 1 ∧ comp 1 = 1 ∧ comp 2 = 0 := by
  refine ⟨⟨by decide, by decide, by decide⟩, ?_, fun map => ⟨_, rfl, rfl, rfl, rfl⟩⟩
  have h01 : twoCycles.Reach 0 1 := .single ⟨(0, 1), by decide, rfl⟩
  have h10 : twoCycles.Reach 1 0 := .single ⟨(1, 0), by decide, rfl⟩
  have h02 : twoCycles.Reach 0 2 := .single ⟨(0, 2), by decide, rfl⟩
  have h21 : twoCycles.Reach 2 1 := .single ⟨(2, 1), by decide, rfl⟩
  have to0 : ∀ u ∈ twoCycles.vertices, twoCycles.Reach u 0 := by
    intro u hu
    have : u = 0 ∨ u = 1 ∨ u = 2 := by simpa [twoCycles] using hu
    rcases this with rfl | rfl | rfl
    · exact .refl
    · exact h10
    · exact h21.trans h10
  intro u hu v hv
  refine (to0 u hu).trans ?_
  have : v = 0 ∨ v = 1 ∨ v = 2 := by simpa [twoCycles] using hv
  rcases this with rfl | rfl | rfl
  · exact .refl
  · exact h01
  · exact h02

/-- The order of the edges matters: with the edge to 2 first the numbers are right. -/
example : (findStrongComponents ⟨[0, 1, 2], fun u => if u = 0 then [(0, 2), (0, 1)] else twoCycles.out u, Prod.fst, Prod.snd⟩
    2147483647 20 (fun _ => 9)).map (fun c => [0, 1, 2].map c) = some [0, 0, 0] := by decide +kernel

/-- Components 3; 4; 0, 1, 2 of which 2 is split off. -/
example : (findStrongComponents sample 2147483647 30 (fun _ => 9)).map (fun c => sample.vertices.map c) =
    some [1, 1, 0, 3, 2] := by decide +kernel

end Actl.Traversal
