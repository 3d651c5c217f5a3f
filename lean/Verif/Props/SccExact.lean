import Verif.Lemmas.SccExact
import Verif.Props.Scc
import Verif.Props.ArticulationExact
import Verif.Props.Dfs

/-!
C49: which vertices `find_strong_components` gives the same number.
-/

namespace Actl.Traversal

variable {V E : Type} [DecidableEq V] {G : Graph V E}

/-- The edges of the graph that do not lead to a vertex which the search finished before it started the
source of the edge; `t` are the times a time stamper records. -/
def Graph.AdjKept (G : Graph V E) (t : Stamps V) (x y : V) : Prop := G.Adj x y ∧ t.inTime x < t.outTime y

theorem sccX_init (hG : G.WF) {M : Int} (hM : (G.vertices.length : Int) ≤ M) (map : V → Int) (t : Stamps V) :
    SccX G M (1 - t.now) [] ∅ (SccState.fresh map) t where
  clock := by show (0 : Int) + 1 = _; omega
  ins x hx := absurd hx (Set.notMem_empty x)
  outs x hx := absurd hx (Set.notMem_empty x)
  sep x hx := absurd hx (Set.notMem_empty x)
  low := by
    refine ⟨?_, Int.le_refl 0, hM, fun x hx => absurd hx List.not_mem_nil, .nil, .nil,
      fun x hx => absurd hx List.not_mem_nil, fun x hx => absurd hx List.not_mem_nil,
      fun x hx => absurd hx List.not_mem_nil, fun x hx => absurd hx (Set.notMem_empty x), fun x _ _ => rfl⟩
    have h : (0 : Int) + (undisc G ∅ : Int) = G.vertices.length := by rw [undisc_empty hG]; omega
    exact h
  comp := by
    refine ⟨.nil, List.nodup_nil, fun x hx => absurd hx List.not_mem_nil, Int.le_refl 0,
      fun x hx => absurd hx (Set.notMem_empty x), fun x hx => absurd hx (Set.notMem_empty x), fun k h1 h2 => ?_, rfl⟩
    exact absurd (show k < 0 from h2) (by omega)
  sorted := .nil
  closed x hx := absurd hx (Set.notMem_empty x)
  back x hx := absurd hx (Set.notMem_empty x)
  done x hx := absurd hx (Set.notMem_empty x)

/-- Two vertices get the same number if and only if each is reachable from the other without the edges
to vertices which the depth-first search had finished before it started the source of the edge. -/
theorem findStrongComponents_char (hG : G.WF) (M : Int) (h0 : 0 < M) (hM : (G.vertices.length : Int) ≤ M) (map : V → Int)
    {fuel : Nat} {comp : V → Int} (h : findStrongComponents G M fuel map = some comp) {m : Nat} {t0 t : Stamps V}
    (hn : 0 ≤ t0.now) (ht : dfsAll G (timeStamper (-1)) (fun _ => false) m t0 = some t) :
    ∀ u ∈ G.vertices, ∀ v ∈ G.vertices, (comp u = comp v ↔
      Relation.ReflTransGen (G.AdjKept t) u v ∧ Relation.ReflTransGen (G.AdjKept t) v u) := by
  obtain ⟨l, D', hva, hi, fuel', hf⟩ := dfsAll_ref (scc_tracks (G := G) (M := M)) hG (SccState.fresh map)
    (by rw [scc_initAll]; exact scc_init h0 map)
  rw [scc_initAll] at hi hf
  obtain ⟨l2, D2, hva2, -, f2, hf2⟩ := dfsAll_ref (stamp_tracks (G := G)) hG t0 (stamp_init t0 hn)
  obtain ⟨rfl, rfl⟩ := hva.det hva2
  have hte := dfsAll_det _ _ _ _ _ _ hf2 ht
  have hinv := hva.sccX hG _ (initAll (timeStamper (E := E) (-1)) G.vertices t0) (fun u hu => hu) (sccX_init hG hM map _)
  rw [hte] at hinv
  generalize after (sccFinder G M) (SccState.fresh map) l = s at hi hf hinv
  have hok := hinv.comp
  have hcomp : comp = s.components.map := by
    unfold findStrongComponents at h
    split at h
    · cases h
    · rename_i s' hs'
      have := dfsAll_det _ _ _ _ _ _ hf hs'
      subst this
      rw [hok.good] at h
      simpa using h.symm
  subst hcomp
  have hstack : s.components.stack = [] := by
    have := hok.ok
    generalize s.components.stack = st at this
    cases this
    rfl
  have hns : ∀ v, v ∉ s.components.stack := fun v => by rw [hstack]; exact List.not_mem_nil
  have hmem : ∀ v, v ∈ G.vertices → v ∈ D' := fun v hv => (hva.mem_iff v).mpr ⟨v, hv, .refl⟩
  have hVD : ∀ v, v ∈ D' → v ∈ G.vertices := by
    intro v hv
    obtain ⟨u, hu, hr⟩ := (hva.mem_iff v).mp hv
    exact hG.reach_mem hu hr
  have hle : ∀ u ∈ G.vertices, ∀ v, Relation.ReflTransGen (G.AdjKept t) u v →
      v ∈ G.vertices ∧ s.components.map v ≤ s.components.map u := by
    intro u hu v hr
    induction hr with
    | refl => exact ⟨hu, Int.le_refl _⟩
    | @tail x y _ hxy ih =>
      obtain ⟨hx, ihle⟩ := ih
      have hy : y ∈ G.vertices := hG.reach_mem hx (.single hxy.1)
      refine ⟨hy, Int.le_trans ?_ ihle⟩
      exact (hinv.closed x (hmem x hx) (hns x) y (kept_adj.mpr ⟨hxy.1, hmem x hx, hmem y hy, Or.inr hxy.2⟩)).2
  have hsub : ∀ x y, (kept G [] D' t).Reach x y → Relation.ReflTransGen (G.AdjKept t) x y := by
    intro x y hr
    refine hr.lift id (fun a b hab => ?_)
    obtain ⟨k1, -, -, k4⟩ := kept_adj.mp hab
    exact ⟨k1, k4.resolve_left List.not_mem_nil⟩
  intro u hu v hv
  constructor
  · intro he
    have := hok.same u (hmem u hu) (hns u) v (hmem v hv) (hns v) he
    exact ⟨hsub _ _ this.1, hsub _ _ this.2⟩
  · rintro ⟨h1, h2⟩
    exact Int.le_antisymm (hle v hv u h2).2 (hle u hu v h1).2

/-- The numbers are those of the strongly connected components if no edge between two vertices of one
component leads to a vertex finished before its source was started. -/
theorem findStrongComponents_exact (hG : G.WF) (M : Int) (h0 : 0 < M) (hM : (G.vertices.length : Int) ≤ M) (map : V → Int)
    {fuel : Nat} {comp : V → Int} (h : findStrongComponents G M fuel map = some comp) {m : Nat} {t0 t : Stamps V}
    (hn : 0 ≤ t0.now) (ht : dfsAll G (timeStamper (-1)) (fun _ => false) m t0 = some t)
    (hc : ∀ x ∈ G.vertices, ∀ y, G.Adj x y → G.Reach y x → t.inTime x < t.outTime y) :
    ∀ u ∈ G.vertices, ∀ v ∈ G.vertices, (comp u = comp v ↔ G.Reach u v ∧ G.Reach v u) := by
  have key : ∀ u ∈ G.vertices, ∀ v, G.Reach u v → G.Reach v u → Relation.ReflTransGen (G.AdjKept t) u v := by
    intro u hu v h1
    induction h1 with
    | refl => exact fun _ => .refl
    | @tail x y hux hxy ih =>
      intro hyu
      exact (ih ((Relation.ReflTransGen.single hxy).trans hyu)).tail
        ⟨hxy, hc x (hG.reach_mem hu hux) y hxy (hyu.trans hux)⟩
  intro u hu v hv
  refine ⟨((findStrongComponents_sound_partial hG M h0 hM map).2 fuel comp h).1 u hu v hv, fun ⟨h1, h2⟩ => ?_⟩
  exact (findStrongComponents_char hG M h0 hM map h hn ht u hu v hv).mpr ⟨key u hu v h1 h2, key v hv u h2 h1⟩

/-- What the stamps say about the events of the search. -/
theorem stamps_log [DecidableEq E] (hG : G.WF) {m : Nat} {t0 t : Stamps V} (hn : 0 ≤ t0.now)
    (ht : dfsAll G (timeStamper (-1)) (fun _ => false) m t0 = some t) :
    ∃ l D', VisitAll G ∅ G.vertices l D' ∧ (∀ v, v ∈ D' ↔ v ∈ G.vertices) ∧ ∀ w ∈ G.vertices,
      Event.start w ∈ l ∧ startAt l w < finishAt l w ∧
      t.inTime w = t0.now + startedBefore l (startAt l w) ∧ t.outTime w = t0.now + startedBefore l (finishAt l w) := by
  obtain ⟨l, D', hva, -, f2, hf2⟩ := dfsAll_ref (stamp_tracks (G := G)) hG t0 (stamp_init t0 hn)
  have hte := dfsAll_det _ _ _ _ _ _ hf2 ht
  have hmem : ∀ v, v ∈ D' ↔ v ∈ G.vertices := by
    intro v
    rw [hva.mem_iff]
    constructor
    · rintro ⟨u, hu, hr⟩
      exact hG.reach_mem hu hr
    · exact fun h => ⟨v, h, .refl⟩
  have hs : (starts l).Nodup := by rw [hva.starts_eq]; exact hva.discs_spec.1
  have hf : (finishes l).Nodup := hva.finishes_perm.nodup_iff.mpr hva.discs_spec.1
  have hnow : (initAll (timeStamper (-1) : Comp _ V E) G.vertices t0).now = t0.now :=
    initAll_of (timeStamper (-1) : Comp _ V E) (fun x => x.now = t0.now) (fun _ _ h => h) _ _ rfl
  refine ⟨l, D', hva, hmem, fun w hw => ?_⟩
  have h1 : Event.start w ∈ l := by
    rw [← mem_starts, hva.starts_eq, hva.discs_spec.2]; exact ⟨(hmem w).mpr hw, Set.notMem_empty w⟩
  have h2 : Event.finish w ∈ l := by
    rw [← mem_finishes, hva.finishes_perm.mem_iff, hva.discs_spec.2]; exact ⟨(hmem w).mpr hw, Set.notMem_empty w⟩
  refine ⟨h1, ?_, ?_, ?_⟩
  · obtain ⟨a, b, c, B⟩ := hva.toBlock hG (fun w hw => hw) w ((hmem w).mpr hw)
    obtain ⟨p1, p2, -⟩ := B.at hs hf
    omega
  · rw [← hte, stamps_in (-1) _ hs hva.no_init h1, hnow]
  · rw [← hte, stamps_out (-1) _ hf h2, hnow]

/-- The numbers are those of the strongly connected components if every edge between two vertices of one
component has an opposite edge; in particular in graphs with an opposite edge for every edge. -/
theorem findStrongComponents_symmetric (hG : G.WF) (M : Int) (h0 : 0 < M) (hM : (G.vertices.length : Int) ≤ M)
    (map : V → Int) (hS : ∀ x ∈ G.vertices, ∀ y, G.Adj x y → G.Reach y x → G.Adj y x)
    {fuel : Nat} {comp : V → Int} (h : findStrongComponents G M fuel map = some comp) :
    ∀ u ∈ G.vertices, ∀ v ∈ G.vertices, (comp u = comp v ↔ G.Reach u v ∧ G.Reach v u) := by
  classical
  obtain ⟨l, D', hva, -, m, hf⟩ := dfsAll_ref (stamp_tracks (G := G)) hG ⟨fun _ => 0, fun _ => 0, 0⟩
    (stamp_init _ (Int.le_refl 0))
  obtain ⟨l, D', hva, hmem, hst⟩ := stamps_log hG (Int.le_refl 0) hf
  refine findStrongComponents_exact hG M h0 hM map h (Int.le_refl 0) hf (fun x hx y hxy hr => ?_)
  have hy := hG.reach_mem hx (.single hxy)
  obtain ⟨e, he, hex⟩ := hS x hx y hxy hr
  have ho := hva.edge_order hG (fun w hw => hw) ((hmem y).mpr hy) e he
  rw [hex] at ho
  have := startedBefore_lt l (hst x hx).1 ho
  rw [(hst x hx).2.2.1, (hst y hy).2.2.2]
  omega

/-- The numbers are those of the strongly connected components if no vertex has edges to two different
vertices of its own component (the components are single vertices or simple cycles). -/
theorem findStrongComponents_cycles (hG : G.WF) (M : Int) (h0 : 0 < M) (hM : (G.vertices.length : Int) ≤ M)
    (map : V → Int)
    (hU : ∀ x ∈ G.vertices, ∀ y z, G.Adj x y → G.Adj x z → G.Reach y x → G.Reach z x → y = z)
    {fuel : Nat} {comp : V → Int} (h : findStrongComponents G M fuel map = some comp) :
    ∀ u ∈ G.vertices, ∀ v ∈ G.vertices, (comp u = comp v ↔ G.Reach u v ∧ G.Reach v u) := by
  classical
  obtain ⟨l, D', hva, -, m, hf⟩ := dfsAll_ref (stamp_tracks (G := G)) hG ⟨fun _ => 0, fun _ => 0, 0⟩
    (stamp_init _ (Int.le_refl 0))
  obtain ⟨l, D', hva, hmem, hst⟩ := stamps_log hG (Int.le_refl 0) hf
  refine findStrongComponents_exact hG M h0 hM map h (Int.le_refl 0) hf (fun x hx y hxy hr => ?_)
  have hy := hG.reach_mem hx (.single hxy)
  have hus : ∀ w ∈ G.vertices, w ∈ G.vertices := fun w hw => hw
  -- every vertex on the way from `y` to `x` is started before `y` is finished
  have key : ∀ z, G.Reach y z → G.Reach z y → startAt l z < finishAt l y := by
    intro z hyz
    induction hyz with
    | refl => exact fun _ => (hst y hy).2.1
    | @tail z w hyz hzw ih =>
      intro hwy
      have hz := hG.reach_mem hy hyz
      have hzy : G.Reach z y := (Relation.ReflTransGen.single hzw).trans hwy
      have i1 := ih hzy
      obtain ⟨e, he, hew⟩ := hzw
      have ho := hva.edge_order hG hus ((hmem z).mpr hz) e he
      rw [hew] at ho
      by_cases hzy' : z = y
      · rw [← hzy']; exact ho
      rcases (hva.intervals hG hus ((hmem z).mpr hz) ((hmem y).mpr hy) hzy').2 with k | k | k | k
      · obtain ⟨w', hw1, hw2⟩ := Relation.TransGen.head'_iff.mp k.1
        have hadj := hva.tree_adj hG hus hw1
        have hw'y : G.Reach w' y := hw2.lift id (fun a b hab => hva.tree_adj hG hus hab)
        have hww : w = w' := hU z hz w w' ⟨e, he, hew⟩ hadj (hwy.trans hyz) (hw'y.trans hyz)
        subst hww
        rcases Relation.reflTransGen_iff_eq_or_transGen.mp hw2 with k2 | k2
        · rw [← k2]; exact (hst y hy).2.1
        · have hwV := hG.reach_mem hz (.single hadj)
          have := (hva.tree_interval hG hus ((hmem w).mpr hwV) k2).2.1
          have := (hst y hy).2.1
          omega
      · omega
      · have := (hst y hy).2.1
        omega
      · omega
  have ho := key x hr (.single hxy)
  have := startedBefore_lt l (hst x hx).1 ho
  rw [(hst x hx).2.2.1, (hst y hy).2.2.2]
  omega

/-- The stamps of the two cycles: vertex 1 is finished (2) when 2 is started (2), so the edge 2 → 1 is
lost; both other edges to vertices already known are kept. -/
example : (dfsAll twoCycles (timeStamper (-1)) (fun _ => false) 20 ⟨fun _ => 0, fun _ => 0, 0⟩).map
    (fun t => ([0, 1, 2].map t.inTime, [0, 1, 2].map t.outTime)) = some ([0, 1, 2], [3, 2, 3]) := by decide +kernel

/-- With the edge to 2 first the search never meets a finished vertex, so the theorem applies. -/
example : (dfsAll (⟨[0, 1, 2], fun u => if u = 0 then [(0, 2), (0, 1)] else twoCycles.out u, Prod.fst, Prod.snd⟩ :
      Graph Nat (Nat × Nat)) (timeStamper (-1)) (fun _ => false) 20 ⟨fun _ => 0, fun _ => 0, 0⟩).map
    (fun t => ([0, 1, 2].map t.inTime, [0, 1, 2].map t.outTime)) = some ([0, 2, 1], [3, 3, 3]) := by decide +kernel

/-- Two cycles 0 → 1 → 2 → 0 and 3 → 4 → 3 with edges 0 → 3, 2 → 4 and 4 → 5 between components: no vertex
has edges to two vertices of its own component. -/
def disjointCycles : Graph Nat (Nat × Nat) where
  vertices := [0, 1, 2, 3, 4, 5]
  out u := match u with
    | 0 => [(0, 3), (0, 1)]
    | 1 => [(1, 2)]
    | 2 => [(2, 4), (2, 0)]
    | 3 => [(3, 4)]
    | 4 => [(4, 5), (4, 3)]
    | _ => []
  src := Prod.fst
  tgt := Prod.snd

example : disjointCycles.WF := ⟨by decide, by decide, by decide⟩

example : ∀ x ∈ disjointCycles.vertices, ∀ y z, disjointCycles.Adj x y → disjointCycles.Adj x z → disjointCycles.Reach y x →
    disjointCycles.Reach z x → y = z := by
  have hadj : ∀ x ∈ disjointCycles.vertices, ∀ e ∈ disjointCycles.out x, e.2 ∈ disjointCycles.vertices ∧ e.2 / 3 ≥ x / 3 ∧
      (e.2 = 5 → x ≠ 5) ∧ e.2 ≠ x := by decide
  have hreach : ∀ x ∈ disjointCycles.vertices, ∀ y, disjointCycles.Reach x y →
      y ∈ disjointCycles.vertices ∧ x / 3 ≤ y / 3 ∧ (x = 5 → y = 5) := by
    intro x hx y hr
    induction hr with
    | refl => exact ⟨hx, Nat.le_refl _, id⟩
    | @tail a b _ hab ih =>
      obtain ⟨e, he, rfl⟩ := hab
      obtain ⟨k1, k2, k3, -⟩ := hadj a ih.1 e he
      refine ⟨k1, Nat.le_trans ih.2.1 k2, fun h5 => ?_⟩
      rw [ih.2.2 h5] at he
      exact absurd he List.not_mem_nil
  have hun : ∀ x ∈ disjointCycles.vertices, ∀ e ∈ disjointCycles.out x, ∀ f ∈ disjointCycles.out x,
      e.2 / 3 ≤ x / 3 → f.2 / 3 ≤ x / 3 → (e.2 = 5 → x = 5) → (f.2 = 5 → x = 5) → e.2 = f.2 := by decide
  rintro x hx _ _ ⟨e, he, rfl⟩ ⟨f, hf, rfl⟩ h1 h2
  obtain ⟨-, a1, a2⟩ := hreach _ (hadj x hx e he).1 _ h1
  obtain ⟨-, b1, b2⟩ := hreach _ (hadj x hx f hf).1 _ h2
  exact hun x hx e he f hf a1 b1 a2 b2

example : (findStrongComponents disjointCycles 2147483647 40 (fun _ => 9)).map (fun c => disjointCycles.vertices.map c) =
    some [2, 2, 2, 1, 1, 0] := by decide +kernel

end Actl.Traversal
