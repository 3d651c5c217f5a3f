import Verif.Props.Bfs
import Verif.Props.Components

/-!
C155: the distances of breadth-first searches from different sources fit together.
-/

namespace Actl.Traversal

variable {V E : Type} [DecidableEq V] {G : Graph V E}

omit [DecidableEq V] in
theorem Graph.Walk.append {n m : Nat} {u v w : V} (h : G.Walk n u v) (h' : G.Walk m v w) : G.Walk (n + m) u w := by
  induction h' with
  | nil => exact h
  | snoc _ hadj ih => exact .snoc (ih h) hadj

omit [DecidableEq V] in
theorem Graph.Walk.toReach {n : Nat} {u v : V} (h : G.Walk n u v) : G.Reach u v := by
  induction h with
  | nil => exact .refl
  | snoc _ hadj ih => exact ih.tail hadj

omit [DecidableEq V] in
theorem Graph.Walk.reverse (hG : G.WF) (hS : G.Symmetric) {n : Nat} {u v : V} (hu : u ∈ G.vertices) (h : G.Walk n u v) :
    G.Walk n v u := by
  induction h with
  | nil => exact .nil _
  | @snoc n u v w h hadj ih =>
    have h1 : G.Walk 1 w v := .snoc (.nil w) (hS v (hG.reach_mem hu h.toReach) w hadj)
    have := h1.append (ih hu)
    rwa [Nat.add_comm] at this

/-- What is recorded by a search from one source. -/
theorem bfs_single (hG : G.WF) (null : V) {s : V} (hs : s ∈ G.vertices) {d0 d : V → Int} {fuel : Nat}
    {l : List (Event V E)} (h : bfs G ((distanceRecorder G).fst logger) (fun _ => false) null fuel [s] (d0, []) = some (d, l)) :
    ∀ v ∈ G.vertices, (d v = -1 ∧ ∀ n, ¬G.Walk n s v) ∨ ∃ n : Nat, d v = n ∧ G.Walk n s v ∧ ∀ m, G.Walk m s v → n ≤ m := by
  intro v hv
  obtain ⟨-, -, h3, h4⟩ := (bfs_distances hG null [s] (by simpa using hs) (by simp) d0).2 fuel d l h
  by_cases hr : G.Reach s v
  · obtain ⟨n, h5, ⟨s', hs', h6⟩, h7⟩ := h3 v ⟨s, by simp, hr⟩
    obtain rfl := List.mem_singleton.mp hs'
    exact Or.inr ⟨n, h5, h6, fun m hm => h7 m _ (by simp) hm⟩
  · exact Or.inl ⟨h4 v hv (by simpa using hr), fun n hn => hr hn.toReach⟩

/-- Breadth-first searches of one graph, one from every vertex; `d s v` is the distance recorded for `v`
by the search from `s`, -1 if there is none.
* Distances are at least -1, and 0 just for the source.
* The ends of an edge: the distance of the end is at most one more than that of the start.
* The triangle inequality.
* In a search from several sources the distance is the least of those from the single sources. -/
theorem bfs_metric (hG : G.WF) (null : V) (d0 : V → V → Int) (d : V → V → Int)
    (hd : ∀ s ∈ G.vertices, ∃ fuel l, bfs G ((distanceRecorder G).fst logger) (fun _ => false) null fuel [s] (d0 s, []) =
      some (d s, l)) :
    (∀ s ∈ G.vertices, ∀ v ∈ G.vertices, -1 ≤ d s v ∧ (d s v = 0 ↔ s = v)) ∧
    (∀ s ∈ G.vertices, ∀ u ∈ G.vertices, d s u ≠ -1 → ∀ e ∈ G.out u, d s (G.tgt e) ≠ -1 ∧ d s (G.tgt e) ≤ d s u + 1) ∧
    (∀ s ∈ G.vertices, ∀ u ∈ G.vertices, ∀ v ∈ G.vertices, d s u ≠ -1 → d u v ≠ -1 →
      d s v ≠ -1 ∧ d s v ≤ d s u + d u v) ∧
    ∀ us : List V, (∀ u ∈ us, u ∈ G.vertices) → us.Nodup → ∀ m0 m fuel l,
      bfs G ((distanceRecorder G).fst logger) (fun _ => false) null fuel us (m0, []) = some (m, l) →
      ∀ v ∈ G.vertices, (m v = -1 ↔ ∀ s ∈ us, d s v = -1) ∧ (m v ≠ -1 → ∃ s ∈ us, m v = d s v) ∧
        ∀ s ∈ us, d s v ≠ -1 → m v ≤ d s v := by
  have key : ∀ s ∈ G.vertices, ∀ v ∈ G.vertices, (d s v = -1 ∧ ∀ n, ¬G.Walk n s v) ∨
      ∃ n : Nat, d s v = n ∧ G.Walk n s v ∧ ∀ m, G.Walk m s v → n ≤ m := by
    intro s hs
    obtain ⟨fuel, l, h⟩ := hd s hs
    exact bfs_single hG null hs h
  -- a walk bounds the distance
  have bound : ∀ s ∈ G.vertices, ∀ v ∈ G.vertices, ∀ n : Nat, G.Walk n s v → d s v ≠ -1 ∧ d s v ≤ n := by
    intro s hs v hv n hw
    rcases key s hs v hv with ⟨-, h⟩ | ⟨k, h1, -, h3⟩
    · exact absurd hw (h n)
    · have := h3 n hw
      omega
  have tri : ∀ s ∈ G.vertices, ∀ u ∈ G.vertices, ∀ v ∈ G.vertices, d s u ≠ -1 → d u v ≠ -1 →
      d s v ≠ -1 ∧ d s v ≤ d s u + d u v := by
    intro s hs u hu v hv h1 h2
    rcases key s hs u hu with ⟨h, -⟩ | ⟨k, k1, k2, -⟩
    · exact absurd h h1
    rcases key u hu v hv with ⟨h, -⟩ | ⟨j, j1, j2, -⟩
    · exact absurd h h2
    have := bound s hs v hv _ (k2.append j2)
    push_cast at this
    rwa [k1, j1]
  refine ⟨fun s hs v hv => ?_, fun s hs u hu h e he => ?_, tri, fun us hus hn m0 m fuel l hrun v hv => ?_⟩
  · rcases key s hs v hv with ⟨h1, h2⟩ | ⟨n, h1, h2, h3⟩
    · refine ⟨by omega, by omega, ?_⟩
      rintro rfl
      exact absurd (Graph.Walk.nil s) (h2 0)
    · refine ⟨by omega, fun h0 => ?_, ?_⟩
      · obtain rfl : n = 0 := by omega
        cases h2
        rfl
      · rintro rfl
        have := h3 0 (.nil s)
        omega
  · rcases key s hs u hu with ⟨h', -⟩ | ⟨k, k1, k2, -⟩
    · exact absurd h' h
    have := bound s hs _ (hG.tgt u hu e he) _ (k2.snoc ⟨e, he, rfl⟩)
    push_cast at this
    rwa [k1]
  · obtain ⟨-, -, h3, h4⟩ := (bfs_distances hG null us hus hn m0).2 fuel m l hrun
    by_cases hr : ∃ u ∈ us, G.Reach u v
    · obtain ⟨n, h5, ⟨s, hs, h6⟩, h7⟩ := h3 v hr
      obtain ⟨b1, b2⟩ := bound s (hus s hs) v hv n h6
      have low : ∀ s ∈ us, d s v ≠ -1 → m v ≤ d s v := by
        intro s hs hne
        rcases key s (hus s hs) v hv with ⟨h', -⟩ | ⟨k, k1, k2, -⟩
        · exact absurd h' hne
        · have := h7 k s hs k2
          omega
      refine ⟨⟨fun h => by omega, fun h => absurd (h s hs) b1⟩, fun _ => ⟨s, hs, ?_⟩, low⟩
      have := low s hs b1
      omega
    · have hm := h4 v hv hr
      have hall : ∀ s ∈ us, d s v = -1 := by
        intro s hs
        rcases key s (hus s hs) v hv with ⟨h', -⟩ | ⟨k, -, k2, -⟩
        · exact h'
        · exact absurd ⟨s, hs, k2.toReach⟩ hr
      exact ⟨⟨fun _ => hall, fun _ => hm⟩, fun h => absurd hm h, fun s hs h => absurd (hall s hs) h⟩

/-- In an undirected graph the distances are symmetric, those of the ends of an edge differ at most by one, and there is a
distance just if the depth-first search for components gives the two vertices the same number. -/
theorem bfs_metric_undirected (hG : G.WF) (hS : G.Symmetric) (null : V) (d0 : V → V → Int) (d : V → V → Int)
    (hd : ∀ s ∈ G.vertices, ∃ fuel l, bfs G ((distanceRecorder G).fst logger) (fun _ => false) null fuel [s] (d0 s, []) =
      some (d s, l))
    (cmap comp : V → Int) (fuel : Nat) (count : Int)
    (hc : dfsAll G (componentRecorder : Comp _ V E) (fun _ => false) fuel (cmap, 0) = some (comp, count)) :
    ∀ s ∈ G.vertices, ∀ v ∈ G.vertices, d s v = d v s ∧ (d s v ≠ -1 ↔ comp s = comp v) ∧
      ∀ e ∈ G.out v, d s (G.tgt e) ≤ d s v + 1 ∧ d s v ≤ d s (G.tgt e) + 1 := by
  have key : ∀ s ∈ G.vertices, ∀ v ∈ G.vertices, (d s v = -1 ∧ ∀ n, ¬G.Walk n s v) ∨
      ∃ n : Nat, d s v = n ∧ G.Walk n s v ∧ ∀ m, G.Walk m s v → n ≤ m := by
    intro s hs
    obtain ⟨fuel, l, h⟩ := hd s hs
    exact bfs_single hG null hs h
  obtain ⟨c1, -⟩ := (components_spec hG hS cmap).2 _ _ _ hc
  obtain ⟨m1, m2, -, -⟩ := bfs_metric hG null d0 d hd
  have reach : ∀ s ∈ G.vertices, ∀ v ∈ G.vertices, (d s v ≠ -1 ↔ G.Reach s v) := by
    intro s hs v hv
    obtain ⟨f, l, h⟩ := hd s hs
    obtain ⟨-, -, h3, h4⟩ := (bfs_distances hG null [s] (by simpa using hs) (by simp) (d0 s)).2 f (d s) l h
    constructor
    · intro hne
      by_contra hr
      exact hne (h4 v hv (by simpa using hr))
    · intro hr
      obtain ⟨n, h5, -⟩ := h3 v ⟨s, by simp, hr⟩
      omega
  intro s hs v hv
  refine ⟨?_, (reach s hs v hv).trans (c1 s hs v hv).symm, fun e he => ?_⟩
  · rcases key s hs v hv with ⟨h1, h2⟩ | ⟨n, h1, h2, h3⟩ <;> rcases key v hv s hs with ⟨k1, k2⟩ | ⟨k, k1, k2, k3⟩
    · rw [h1, k1]
    · exact absurd (k2.reverse hG hS hv) (h2 k)
    · exact absurd (h2.reverse hG hS hs) (k2 n)
    · have := h3 k (k2.reverse hG hS hv)
      have := k3 n (h2.reverse hG hS hs)
      omega
  · have ht := hG.tgt v hv e he
    obtain ⟨f, hf, hft⟩ := hS v hv _ ⟨e, he, rfl⟩
    have hb := (m1 s hs v hv).1
    have hb' := (m1 s hs _ ht).1
    by_cases h1 : d s v = -1
    · have h2 : d s (G.tgt e) = -1 := by
        by_contra h2
        have := (m2 s hs _ ht h2 f hf).1
        rw [hft] at this
        exact this h1
      omega
    · obtain ⟨k1, k2⟩ := m2 s hs v hv h1 e he
      have := (m2 s hs _ ht k1 f hf).2
      rw [hft] at this
      omega

omit [DecidableEq V] in
theorem follow_succ (p : V → Option V) (n : Nat) (v : V) : follow p (n + 1) v = (follow p n v).bind p := by
  induction n generalizing v with
  | zero => cases h : p v <;> simp [follow, h]
  | succ n ih =>
    rw [follow]
    cases h : p v with
    | none => simp [follow, h]
    | some w =>
      rw [Option.bind_some, ih w, follow, h, Option.bind_some]

/-- A depth-first and a breadth-first search from the same vertex: the first records a predecessor just where the second
records a distance, and to get back to the source along the predecessors takes at least as many steps as the distance. -/
theorem dfs_bfs_agree (hG : G.WF) (null : V) {s : V} (hs : s ∈ G.vertices) {d0 d : V → Int} {p0 p : V → Option V} {f₁ f₂ : Nat}
    {l : List (Event V E)}
    (h₁ : bfs G ((distanceRecorder G).fst logger) (fun _ => false) null f₁ [s] (d0, []) = some (d, l))
    (h₂ : dfsFrom G (predecessorRecorder G) (fun _ => false) f₂ s p0 = some p) :
    ∀ v ∈ G.vertices, (d v = -1 ↔ p v = none) ∧ (d v ≠ -1 → ∃ n, follow p n v = some s) ∧
      ∀ n : Nat, d v ≠ -1 → follow p n v = some s → d v ≤ n := by
  intro v hv
  obtain ⟨h3, h4, h5⟩ := (dfsFrom_predecessors hG s hs p0).2 f₂ p h₂
  obtain ⟨-, -, b3, b4⟩ := (bfs_distances hG null [s] (by simpa using hs) (by simp) d0).2 f₁ d l h₁
  by_cases hr : G.Reach s v
  · obtain ⟨n₀, k1, k2⟩ := h4 v hr
    obtain ⟨m, j1, -, j3⟩ := b3 v ⟨s, by simp, hr⟩
    have walk : ∀ k ≤ n₀, ∃ x, follow p k v = some x ∧ G.Walk k x v := by
      intro k
      induction k with
      | zero => exact fun _ => ⟨v, rfl, .nil v⟩
      | succ k ih =>
        intro hk
        obtain ⟨x, hx, hw⟩ := ih (by omega)
        obtain ⟨x', y, i1, i2, -, i4⟩ := k2 k (by omega)
        rw [hx] at i1
        obtain rfl := Option.some.inj i1
        refine ⟨y, ?_, ?_⟩
        · rw [follow_succ, hx]
          exact i2
        · have := (Graph.Walk.snoc (.nil y) i4).append hw
          rwa [Nat.zero_add, Nat.add_comm] at this
    obtain ⟨x, hx, hw⟩ := walk n₀ (Nat.le_refl _)
    rw [k1] at hx
    obtain rfl := Option.some.inj hx
    have hm := j3 n₀ s (by simp) hw
    refine ⟨⟨fun h => by omega, fun h => ?_⟩, fun _ => ⟨n₀, k1⟩, fun n _ hn => ?_⟩
    · exfalso
      rcases Nat.eq_zero_or_pos n₀ with rfl | h0
      · obtain rfl : v = s := Option.some.inj k1
        rw [h3] at h
        cases h
      · obtain ⟨x, y, i1, i2, -⟩ := k2 0 h0
        obtain rfl : v = x := Option.some.inj i1
        rw [h] at i2
        cases i2
    · have : n₀ ≤ n := by
        by_contra hlt
        obtain ⟨x, y, i1, i2, i3, -⟩ := k2 n (by omega)
        rw [hn] at i1
        obtain rfl := Option.some.inj i1
        rw [h3] at i2
        exact i3 (Option.some.inj i2)
      omega
  · have h1 := b4 v hv (by simpa using hr)
    exact ⟨⟨fun _ => h5 v hv hr, fun _ => h1⟩, fun h => absurd h1 h, fun n h => absurd h1 h⟩

/-- The searches all end, so there is such a `d` for every graph. -/
theorem bfs_metric_exists (hG : G.WF) (null : V) (d0 : V → V → Int) :
    ∃ d : V → V → Int, ∀ s ∈ G.vertices, ∃ fuel l,
      bfs G ((distanceRecorder G).fst logger) (fun _ => false) null fuel [s] (d0 s, []) = some (d s, l) := by
  classical
  have h : ∀ s ∈ G.vertices, ∃ (d : V → Int) (fuel : Nat) (l : List (Event V E)),
      bfs G ((distanceRecorder G).fst logger) (fun _ => false) null fuel [s] (d0 s, []) = some (d, l) := by
    intro s hs
    obtain ⟨fuel, ⟨d, l⟩, h⟩ := (bfs_distances hG null [s] (by simpa using hs) (by simp) (d0 s)).1
    exact ⟨d, fuel, l, h⟩
  exact ⟨fun s => if hs : s ∈ G.vertices then (h s hs).choose else d0 s, fun s hs => by
    simp only [dif_pos hs]
    exact (h s hs).choose_spec⟩

/-- All distances in the directed sample; those from 2 and 4 together are the least of the two rows. -/
example : sample.vertices.map (fun s => (bfs sample ((distanceRecorder sample).fst logger) (fun _ => false) 99 20 [s]
      (fun _ => 7, [])).map (fun r => sample.vertices.map r.1)) =
    [some [0, 1, 1, -1, -1], some [1, 0, 2, -1, -1], some [2, 1, 0, -1, -1], some [1, 2, 2, 0, 1], some [-1, -1, -1, -1, 0]] ∧
    (bfs sample ((distanceRecorder sample).fst logger) (fun _ => false) 99 20 [2, 4] (fun _ => 7, [])).map
      (fun r => sample.vertices.map r.1) = some [2, 1, 0, -1, 0] := by decide +kernel

/-- Depth-first search from 2 gets to 0 through 1: two steps back, and the distance is 2. -/
example : (dfsFrom sample (predecessorRecorder sample) (fun _ => false) 20 2 (fun _ => some 7)).map
      (fun p => (sample.vertices.map p, sample.vertices.map (follow p 2))) =
    some ([some 1, some 2, some 2, none, none], [some 2, some 2, some 2, none, none]) := by decide +kernel

/-- The path 0-1-2 and the vertex 3. -/
def pathGraph : Graph Nat (Nat × Nat) where
  vertices := [0, 1, 2, 3]
  out u := match u with
    | 0 => [(0, 1)]
    | 1 => [(1, 0), (1, 2)]
    | 2 => [(2, 1)]
    | _ => []
  src := Prod.fst
  tgt := Prod.snd

/-- All distances in an undirected graph, and the component numbers. -/
example : pathGraph.WF ∧ pathGraph.Symmetric ∧
    pathGraph.vertices.map (fun s => (bfs pathGraph ((distanceRecorder pathGraph).fst logger) (fun _ => false) 99 20 [s]
      (fun _ => 7, [])).map (fun r => pathGraph.vertices.map r.1)) =
    [some [0, 1, 2, -1], some [1, 0, 1, -1], some [2, 1, 0, -1], some [-1, -1, -1, 0]] ∧
    (dfsAll pathGraph (componentRecorder : Comp _ Nat _) (fun _ => false) 50 (fun _ => 9, 0)).map
      (fun r => (pathGraph.vertices.map r.1, r.2)) = some ([0, 0, 0, 1], 2) := by
  refine ⟨⟨by decide, by decide, by decide⟩, ?_, by decide +kernel, by decide +kernel⟩
  have h : ∀ u ∈ pathGraph.vertices, ∀ e ∈ pathGraph.out u, ∃ f ∈ pathGraph.out (pathGraph.tgt e), pathGraph.tgt f = u := by
    decide
  rintro u hu v ⟨e, he, rfl⟩
  exact h u hu e he

end Actl.Traversal
