import Verif.Lemmas.DfsStamps

/-!
C42 (termination), C43 (depth-first search visits exactly the reachable vertices), C44 (intervals
nest), C45 (topological sort).
-/

namespace Actl.Traversal

variable {σ V E : Type} {G : Graph V E} {c : Comp σ V E}

/-- Graph of the examples: two cycles, a loop, parallel edges, an unreachable part. -/
def sample : Graph Nat (Nat × Nat) where
  vertices := [0, 1, 2, 3, 4]
  out u := match u with
    | 0 => [(0, 1), (0, 2), (0, 1)]
    | 1 => [(1, 0), (1, 1)]
    | 2 => [(2, 1)]
    | 3 => [(3, 4), (3, 0)]
    | _ => []
  src := Prod.fst
  tgt := Prod.snd

theorem sample_wf : sample.WF := ⟨by decide, by decide, by decide⟩

/-- Graph of the examples without cycles. -/
def sampleDag : Graph Nat (Nat × Nat) where
  vertices := [0, 1, 2, 3]
  out u := match u with
    | 0 => [(0, 2), (0, 1)]
    | 1 => [(1, 2)]
    | 3 => [(3, 0), (3, 2)]
    | _ => []
  src := Prod.fst
  tgt := Prod.snd

/-! ### C42: termination -/

/-- Depth-first search from a source terminates for every terminator, with every component that
knows the discovered vertices.  The events are those of the search without terminator up to the
start of the first terminator. -/
theorem dfsFrom_terminates {I : σ → Set V → Prop} (hT : Tracks G c I) (hG : G.WF) (term : V → Bool) (u : V)
    (hu : u ∈ G.vertices) (s : σ) (hI : I (initAll c G.vertices s) ∅) :
    ∃ l D', Visit G ∅ u l D' ∧ ∃ fuel, dfsFrom G c term fuel u s =
      some (match (cut term l).2 with
        | none => after c (initAll c G.vertices s) l
        | some w => c.on (.searchFinish w) (after c (initAll c G.vertices s) (cut term l).1)) := by
  obtain ⟨l, D', hv, hf, _⟩ := visit_of_ref hT hG term (initAll c G.vertices s) hI hu (Set.notMem_empty u)
  exact ⟨l, D', hv, hf⟩

/-- The recorded events of a search for a terminator: with discovered flags, the search ends within
some fuel, whatever the graph. -/
theorem dfsFrom_flag_terminates [DecidableEq V] (hG : G.WF) (term : V → Bool) (u : V) (hu : u ∈ G.vertices)
    (flags : V → Bool) : ∃ fuel r, dfsFrom G (discoveredFlag.fst logger) term fuel u (flags, []) = some r := by
  obtain ⟨l, D', _, fuel, h⟩ := dfsFrom_terminates (flag_tracks.fst logger) hG term u hu (flags, [])
    (by rw [initAll_fst]; exact flag_init flags)
  exact ⟨fuel, _, h⟩

example : dfsFrom sample (discoveredFlag.fst logger) (fun v => v == 2) 20 0 (fun _ => true, []) =
    some (fun v => if v = 2 then true else if v = 1 then true else if v = 0 then true else
      initAll (discoveredFlag : Comp _ Nat (Nat × Nat)) sample.vertices (fun _ => true) v,
     [.searchStart 0, .discover 0, .start 0, .treeStart (0, 1), .discover 1, .start 1, .nonTree (1, 0), .nonTree (1, 1),
      .finish 1, .treeFinish (0, 1), .treeStart (0, 2), .discover 2, .start 2, .searchFinish 2]) := by
  rfl

/-! ### C43 -/

/-- Depth-first search from a source, with any component that knows the discovered vertices and any
listener recording events: it terminates, and explores just the vertices reachable from the source. -/
theorem dfsFrom_explores_of_tracks [DecidableEq V] {I : σ → Set V → Prop} (hT : Tracks G c I) (hG : G.WF) (u : V)
    (hu : u ∈ G.vertices) (s : σ) (hI : I (initAll c G.vertices s) ∅) :
    (∃ fuel r, dfsFrom G (c.fst logger) (fun _ => false) fuel u (s, []) = some r) ∧
    ∀ fuel s' l, dfsFrom G (c.fst logger) (fun _ => false) fuel u (s, []) = some (s', l) →
      VisitAll G ∅ [u] l {v | G.Reach u v} ∧ s' = after c (initAll c G.vertices s) l ∧
      I s' {v | G.Reach u v} ∧ Explores G (G.Reach u) l := by
  obtain ⟨l, D', hv, hi, fuel, hf⟩ := dfsFrom_ref (hT.fst logger) hG u hu (s, []) (by rw [initAll_fst]; exact hI)
  refine ⟨⟨fuel, _, hf⟩, fun fuel' s' l' h => ?_⟩
  have := dfsFrom_det _ _ _ _ _ _ _ hf h
  rw [initAll_snd _ (fun _ _ => rfl), after_fst] at this hi
  rw [fold_logger _ _ (hv.no_init), List.nil_append] at this
  simp only [Prod.mk.injEq] at this
  obtain ⟨rfl, rfl⟩ := this
  have hva := VisitAll.one hv (Set.notMem_empty u)
  have hD : D' = {v | G.Reach u v} := by
    ext v
    rw [hva.mem_iff]
    simp
  subst hD
  have hex := hva.explores hG (fun w hw => by rw [List.mem_singleton.mp hw]; exact hu)
  refine ⟨hva, rfl, hi, ?_⟩
  have : (fun v => ∃ w ∈ [u], G.Reach w v) = G.Reach u := by funext v; simp
  rwa [this] at hex

theorem dfsAll_explores_of_tracks [DecidableEq V] {I : σ → Set V → Prop} (hT : Tracks G c I) (hG : G.WF) (s : σ)
    (hI : I (initAll c G.vertices s) ∅) :
    (∃ fuel r, dfsAll G (c.fst logger) (fun _ => false) fuel (s, []) = some r) ∧
    ∀ fuel s' l, dfsAll G (c.fst logger) (fun _ => false) fuel (s, []) = some (s', l) →
      VisitAll G ∅ G.vertices l {v | v ∈ G.vertices} ∧ s' = after c (initAll c G.vertices s) l ∧
      I s' {v | v ∈ G.vertices} ∧ Explores G (· ∈ G.vertices) l := by
  obtain ⟨l, D', hv, hi, fuel, hf⟩ := dfsAll_ref (hT.fst logger) hG (s, []) (by rw [initAll_fst]; exact hI)
  refine ⟨⟨fuel, _, hf⟩, fun fuel' s' l' h => ?_⟩
  have := dfsAll_det _ _ _ _ _ _ hf h
  rw [initAll_snd _ (fun _ _ => rfl), after_fst] at this hi
  rw [fold_logger _ _ (hv.no_init), List.nil_append] at this
  simp only [Prod.mk.injEq] at this
  obtain ⟨rfl, rfl⟩ := this
  have hR : ∀ v, (∃ u ∈ G.vertices, G.Reach u v) ↔ v ∈ G.vertices := by
    intro v
    constructor
    · rintro ⟨u, hu, hr⟩
      induction hr with
      | refl => exact hu
      | tail _ hadj ih => obtain ⟨e, he, rfl⟩ := hadj; exact hG.tgt _ ih e he
    · exact fun h => ⟨v, h, Relation.ReflTransGen.refl⟩
  have hD : D' = {v | v ∈ G.vertices} := by
    ext v
    rw [hv.mem_iff, hR]
    rfl
  subst hD
  have hex := hv.explores hG (fun w hw => hw)
  refine ⟨hv, rfl, hi, ?_⟩
  have : (fun v => ∃ w ∈ G.vertices, G.Reach w v) = (· ∈ G.vertices) := by funext v; exact propext (hR v)
  rwa [this] at hex

/-- Depth-first search from a source with discovered flags: it terminates, explores just the vertices
reachable from the source, and leaves just these flagged. -/
theorem dfsFrom_explores [DecidableEq V] (hG : G.WF) (u : V) (hu : u ∈ G.vertices) (flags : V → Bool) :
    (∃ fuel r, dfsFrom G (discoveredFlag.fst logger) (fun _ => false) fuel u (flags, []) = some r) ∧
    ∀ fuel flags' l, dfsFrom G (discoveredFlag.fst logger) (fun _ => false) fuel u (flags, []) = some (flags', l) →
      Explores G (G.Reach u) l ∧ ∀ v ∈ G.vertices, (flags' v = true ↔ G.Reach u v) := by
  obtain ⟨h1, h2⟩ := dfsFrom_explores_of_tracks flag_tracks hG u hu flags (flag_init flags)
  exact ⟨h1, fun fuel flags' l h => ⟨(h2 fuel flags' l h).2.2.2, (h2 fuel flags' l h).2.2.1⟩⟩

/-- Depth-first search of the whole graph with discovered flags explores all vertices. -/
theorem dfsAll_explores [DecidableEq V] (hG : G.WF) (flags : V → Bool) :
    (∃ fuel r, dfsAll G (discoveredFlag.fst logger) (fun _ => false) fuel (flags, []) = some r) ∧
    ∀ fuel flags' l, dfsAll G (discoveredFlag.fst logger) (fun _ => false) fuel (flags, []) = some (flags', l) →
      Explores G (· ∈ G.vertices) l ∧ ∀ v ∈ G.vertices, flags' v = true := by
  obtain ⟨h1, h2⟩ := dfsAll_explores_of_tracks flag_tracks hG flags (flag_init flags)
  exact ⟨h1, fun fuel flags' l h =>
    ⟨(h2 fuel flags' l h).2.2.2, fun v hv => ((h2 fuel flags' l h).2.2.1 v hv).mpr hv⟩⟩

/-- The same with colours instead of flags; at the end the reachable vertices are not white. -/
theorem dfsFrom_color_explores [DecidableEq V] (hG : G.WF) (u : V) (hu : u ∈ G.vertices) (colors : V → Color) :
    (∃ fuel r, dfsFrom G (colorRecorder.fst logger) (fun _ => false) fuel u (colors, []) = some r) ∧
    ∀ fuel colors' l, dfsFrom G (colorRecorder.fst logger) (fun _ => false) fuel u (colors, []) = some (colors', l) →
      Explores G (G.Reach u) l ∧ ∀ v ∈ G.vertices, (colors' v ≠ .white ↔ G.Reach u v) := by
  obtain ⟨h1, h2⟩ := dfsFrom_explores_of_tracks color_tracks hG u hu colors (color_init colors)
  exact ⟨h1, fun fuel flags' l h => ⟨(h2 fuel flags' l h).2.2.2, (h2 fuel flags' l h).2.2.1⟩⟩

example : (dfsFrom sample (discoveredFlag.fst logger) (fun _ => false) 20 0 (fun _ => true, [])).map Prod.snd =
    some [.searchStart 0, .discover 0, .start 0, .treeStart (0, 1), .discover 1, .start 1, .nonTree (1, 0), .nonTree (1, 1),
      .finish 1, .treeFinish (0, 1), .treeStart (0, 2), .discover 2, .start 2, .nonTree (2, 1), .finish 2,
      .treeFinish (0, 2), .nonTree (0, 1), .finish 0, .searchFinish 0] := by rfl

/-! ### C44 -/

/-- The intervals of two vertices are nested or disjoint; one lies in the other just if it was
reached from it through tree edges. -/
theorem dfsAll_intervals [DecidableEq V] [DecidableEq E] (hG : G.WF) (flags : V → Bool) (fuel : Nat) (flags' : V → Bool)
    (l : List (Event V E))
    (h : dfsAll G (discoveredFlag.fst logger) (fun _ => false) fuel (flags, []) = some (flags', l))
    (u v : V) (hu : u ∈ G.vertices) (hv : v ∈ G.vertices) (huv : u ≠ v) :
    startAt l u < finishAt l u ∧
    (startAt l u < startAt l v ∧ finishAt l v < finishAt l u ∨
      startAt l v < startAt l u ∧ finishAt l u < finishAt l v ∨
      finishAt l u < startAt l v ∨ finishAt l v < startAt l u) ∧
    (startAt l u < startAt l v ∧ finishAt l v < finishAt l u ↔ Relation.TransGen (TreeAdj G l) u v) := by
  obtain ⟨hva, -, -, -⟩ := (dfsAll_explores_of_tracks flag_tracks hG flags (flag_init flags)).2 _ _ _ h
  obtain ⟨h1, h2⟩ := hva.intervals hG (fun w hw => hw) hu hv huv
  obtain ⟨h3, -⟩ := hva.intervals hG (fun w hw => hw) hv hu huv.symm
  refine ⟨h1, ?_, fun h => ?_, fun h => (hva.tree_interval hG (fun w hw => hw) hu h).2⟩
  · rcases h2 with h | h | h
    · exact Or.inl h.2
    · exact Or.inr (Or.inl h.2)
    · exact Or.inr (Or.inr h)
  · rcases h2 with h2 | h2 | h2 | h2
    · exact h2.1
    · omega
    · omega
    · omega

/-- The same for the search from a source. -/
theorem dfsFrom_intervals [DecidableEq V] [DecidableEq E] (hG : G.WF) (s : V) (hs : s ∈ G.vertices) (flags : V → Bool)
    (fuel : Nat) (flags' : V → Bool) (l : List (Event V E))
    (h : dfsFrom G (discoveredFlag.fst logger) (fun _ => false) fuel s (flags, []) = some (flags', l))
    (u v : V) (hu : G.Reach s u) (hv : G.Reach s v) (huv : u ≠ v) :
    startAt l u < finishAt l u ∧
    (startAt l u < startAt l v ∧ finishAt l v < finishAt l u ∨
      startAt l v < startAt l u ∧ finishAt l u < finishAt l v ∨
      finishAt l u < startAt l v ∨ finishAt l v < startAt l u) ∧
    (startAt l u < startAt l v ∧ finishAt l v < finishAt l u ↔ Relation.TransGen (TreeAdj G l) u v) := by
  obtain ⟨hva, -, -, -⟩ := (dfsFrom_explores_of_tracks flag_tracks hG s hs flags (flag_init flags)).2 _ _ _ h
  have hus : ∀ w ∈ [s], w ∈ G.vertices := fun w hw => by rw [List.mem_singleton.mp hw]; exact hs
  obtain ⟨h1, h2⟩ := hva.intervals hG hus hu hv huv
  obtain ⟨h3, -⟩ := hva.intervals hG hus hv hu huv.symm
  refine ⟨h1, ?_, fun h => ?_, fun h => (hva.tree_interval hG hus hu h).2⟩
  · rcases h2 with h | h | h
    · exact Or.inl h.2
    · exact Or.inr (Or.inl h.2)
    · exact Or.inr (Or.inr h)
  · rcases h2 with h2 | h2 | h2 | h2
    · exact h2.1
    · omega
    · omega
    · omega

/-- The time stamps: `[in, out)` of two vertices are nested or disjoint, and `v` is stamped in `u`'s
interval just if it was reached from `u` through tree edges. -/
theorem dfsAll_stamps [DecidableEq V] [DecidableEq E] (hG : G.WF) (s : Stamps V) (h0 : 0 ≤ s.now) (fuel : Nat)
    (t : Stamps V) (l : List (Event V E))
    (h : dfsAll G ((timeStamper (-1)).fst logger) (fun _ => false) fuel (s, []) = some (t, l))
    (u v : V) (hu : u ∈ G.vertices) (hv : v ∈ G.vertices) :
    s.now ≤ t.inTime u ∧ t.inTime u < t.outTime u ∧ t.outTime u ≤ s.now + G.vertices.length ∧
    (t.inTime u = t.inTime v → u = v) ∧
    (t.inTime u ≤ t.inTime v ∧ t.outTime v ≤ t.outTime u ∨ t.inTime v ≤ t.inTime u ∧ t.outTime u ≤ t.outTime v ∨
      t.outTime u ≤ t.inTime v ∨ t.outTime v ≤ t.inTime u) ∧
    (t.inTime u ≤ t.inTime v ∧ t.inTime v < t.outTime u ↔ Relation.ReflTransGen (TreeAdj G l) u v) := by
  obtain ⟨hva, ht, -, hex⟩ := (dfsAll_explores_of_tracks stamp_tracks hG s (stamp_init s h0)).2 _ _ _ h
  have hs : (starts l).Nodup := by rw [hva.starts_eq]; exact hva.discs_spec.1
  have hf : (finishes l).Nodup := hva.finishes_perm.nodup_iff.mpr hva.discs_spec.1
  have hnow : (initAll (timeStamper (-1) : Comp _ V E) G.vertices s).now = s.now :=
    initAll_of (timeStamper (-1) : Comp _ V E) (fun x => x.now = s.now) (fun _ _ h => h) _ _ rfl
  have hmem : ∀ w ∈ G.vertices, Event.start w ∈ l ∧ Event.finish w ∈ l := by
    intro w hw
    constructor
    · rw [← mem_starts, hva.starts_eq, hva.discs_spec.2]; exact ⟨hw, Set.notMem_empty w⟩
    · rw [← mem_finishes, hva.finishes_perm.mem_iff, hva.discs_spec.2]; exact ⟨hw, Set.notMem_empty w⟩
  have hin : ∀ w ∈ G.vertices, t.inTime w = s.now + startedBefore l (startAt l w) := by
    intro w hw
    rw [ht, stamps_in (-1) _ hs hva.no_init (hmem w hw).1, hnow]
  have hout : ∀ w ∈ G.vertices, t.outTime w = s.now + startedBefore l (finishAt l w) := by
    intro w hw
    rw [ht, stamps_out (-1) _ hf (hmem w hw).2, hnow]
  have hio : ∀ w ∈ G.vertices, startAt l w < finishAt l w := by
    intro w hw
    obtain ⟨a, b, c, B⟩ := hva.toBlock hG (fun w hw => hw) w hw
    obtain ⟨p1, p2, -⟩ := B.at hs hf
    omega
  have hlen : ∀ i, startedBefore l i ≤ G.vertices.length := by
    intro i
    have h1 : startedBefore l i ≤ (starts l).length := by
      have := startedBefore_mono l (Nat.le_max_left i l.length)
      refine Nat.le_trans this ?_
      unfold startedBefore
      rw [List.take_of_length_le (Nat.le_max_right _ _)]
    refine Nat.le_trans h1 ?_
    refine (List.subperm_of_subset hs (fun x hx => ?_)).length_le
    rw [hva.starts_eq] at hx
    exact ((hva.discs_spec.2 x).mp hx).1
  have hlt := startedBefore_lt l (hmem u hu).1 (hio u hu)
  have hltv := startedBefore_lt l (hmem v hv).1 (hio v hv)
  have hlu := hlen (finishAt l u)
  rw [hin u hu, hin v hv, hout u hu, hout v hv]
  by_cases huv : u = v
  · subst huv
    exact ⟨by omega, by omega, by omega, fun _ => rfl, Or.inl ⟨by omega, by omega⟩,
      fun _ => Relation.ReflTransGen.refl, fun _ => ⟨by omega, by omega⟩⟩
  obtain ⟨-, h2⟩ := hva.intervals hG (fun w hw => hw) hu hv huv
  refine ⟨by omega, by omega, by omega, ?_, ?_, ?_, ?_⟩
  · intro heq
    exfalso
    rcases Nat.lt_trichotomy (startAt l u) (startAt l v) with hc | hc | hc
    · have := startedBefore_lt l (hmem u hu).1 hc; omega
    · rcases h2 with h2 | h2 | h2 | h2
      · omega
      · omega
      · have := hio u hu; omega
      · have := hio v hv; omega
    · have := startedBefore_lt l (hmem v hv).1 hc; omega
  · rcases h2 with h2 | h2 | h2 | h2
    · have i1 := startedBefore_mono l (Nat.le_of_lt h2.2.1)
      have i2 := startedBefore_mono l (Nat.le_of_lt h2.2.2)
      exact Or.inl ⟨by omega, by omega⟩
    · have i1 := startedBefore_mono l (Nat.le_of_lt h2.2.1)
      have i2 := startedBefore_mono l (Nat.le_of_lt h2.2.2)
      exact Or.inr (Or.inl ⟨by omega, by omega⟩)
    · have i1 := startedBefore_mono l (Nat.le_of_lt h2)
      exact Or.inr (Or.inr (Or.inl (by omega)))
    · have i1 := startedBefore_mono l (Nat.le_of_lt h2)
      exact Or.inr (Or.inr (Or.inr (by omega)))
  · rintro ⟨g1, g2⟩
    rcases h2 with h2 | h2 | h2 | h2
    · exact h2.1.to_reflTransGen
    · have := startedBefore_lt l (hmem v hv).1 h2.2.1; omega
    · have := startedBefore_mono l (Nat.le_of_lt h2); omega
    · have := startedBefore_mono l (Nat.le_of_lt h2); omega
  · intro g
    rcases Relation.reflTransGen_iff_eq_or_transGen.mp g with g | g
    · exact absurd g.symm huv
    · obtain ⟨-, i1, i2⟩ := hva.tree_interval hG (fun w hw => hw) hu g
      have j1 := startedBefore_mono l (Nat.le_of_lt i1)
      have j2 := startedBefore_lt l (hmem v hv).1 (hio v hv)
      have j3 := startedBefore_mono l (Nat.le_of_lt i2)
      exact ⟨by omega, by omega⟩

example : (dfsAll sample ((timeStamper (-1)).fst logger) (fun _ => false) 20 (⟨fun _ => 7, fun _ => 7, 0⟩, [])).map
    (fun r => (sample.vertices.map r.1.inTime, sample.vertices.map r.1.outTime)) =
    some ([0, 1, 2, 3, 4], [3, 2, 3, 5, 5]) := by decide +kernel

/-! ### C45 -/

theorem fold_finishPrinter (l : List (Event V E)) (o : List V) :
    l.foldl (fun t ev => finishPrinter ev t) o = o ++ finishes l := by
  induction l generalizing o with
  | nil => simp
  | cons ev l ih =>
    rw [List.foldl_cons, ih]
    cases ev <;> simp [finishPrinter, finishes, List.filterMap_cons]

theorem fold_startPrinter (l : List (Event V E)) (o : List V) :
    l.foldl (fun t ev => startPrinter ev t) o = o ++ starts l := by
  induction l generalizing o with
  | nil => simp
  | cons ev l ih =>
    rw [List.foldl_cons, ih]
    cases ev <;> simp [startPrinter, starts, List.filterMap_cons]

/-- The order of finishing, as positions. -/
theorem finishes_idx [DecidableEq V] [DecidableEq E] {l : List (Event V E)} (hn : (finishes l).Nodup) {u v : V}
    (hu : Event.finish u ∈ l) (hv : Event.finish v ∈ l) (h : finishAt l v < finishAt l u) :
    (finishes l).idxOf v < (finishes l).idxOf u := by
  obtain ⟨p, q, rfl⟩ := List.append_of_mem hu
  have hp : Event.finish u ∉ p := fun h => finish_once hn h List.mem_cons_self
  unfold finishAt at h
  rw [idxOf_mid hp] at h
  have hvp : Event.finish v ∈ p := by
    by_contra hc
    have := idxOf_right (b := .finish u :: q) hc
    omega
  rw [finishes_append, finishes_finish, idxOf_mid (fun h => hp (mem_finishes.mp h))]
  exact idxOf_left (mem_finishes.mpr hvp)

/-- What the orders print: the vertices in the order they are started or finished by a search that
explores just the vertices reachable from the source. -/
theorem postorder_spec [DecidableEq V] (hG : G.WF) (s : V) (hs : s ∈ G.vertices) (flags : V → Bool) :
    ∃ l, Explores G (G.Reach s) l ∧ (∃ fuel, dfsFrom G (discoveredFlag.fst logger) (fun _ => false) fuel s (flags, []) =
        some (after discoveredFlag (initAll (discoveredFlag : Comp _ V E) G.vertices flags) l, l)) ∧
      (∃ fuel, postorder G fuel s flags = some (finishes l)) ∧ (∃ fuel, preorder G fuel s flags = some (starts l)) := by
  obtain ⟨l, D', hv, hi, fuel, hf⟩ := dfsFrom_ref (flag_tracks (G := G)) hG s hs flags (flag_init flags)
  have hva := VisitAll.one hv (Set.notMem_empty s)
  have hD : D' = {v | G.Reach s v} := by
    ext v
    rw [hva.mem_iff]
    simp
  have hex := hva.explores hG (fun w hw => by rw [List.mem_singleton.mp hw]; exact hs)
  have hR : (fun v => ∃ w ∈ [s], G.Reach w v) = G.Reach s := by funext v; simp
  rw [hR] at hex
  have same : ∀ {τ : Type} (b : Event V E → τ → τ) (hb : ∀ v t, b (.init v) t = t) (t : τ), ∃ fuel,
      dfsFrom G (discoveredFlag.fst b) (fun _ => false) fuel s (flags, t) =
        some (after discoveredFlag (initAll (discoveredFlag : Comp _ V E) G.vertices flags) l, l.foldl (fun t ev => b ev t) t) := by
    intro τ b hb t
    obtain ⟨l2, D2, hv2, hi2, fuel2, hf2⟩ := dfsFrom_ref (flag_tracks.fst b) hG s hs (flags, t)
      (by rw [initAll_fst]; exact flag_init flags)
    have : l2 = l := by
      obtain ⟨m1, r1, rfl⟩ := hv
      obtain ⟨m2, r2, rfl⟩ := hv2
      rw [(r1.det r2).1]
    subst this
    refine ⟨fuel2, ?_⟩
    rw [hf2, after_fst, initAll_snd _ hb]
  refine ⟨l, hex, ?_, ?_, ?_⟩
  · obtain ⟨f, h⟩ := same logger (fun _ _ => rfl) []
    refine ⟨f, ?_⟩
    rw [h, fold_logger _ _ hv.no_init, List.nil_append]
  · obtain ⟨f, h⟩ := same finishPrinter (fun _ _ => rfl) []
    refine ⟨f, ?_⟩
    unfold postorder
    rw [h, fold_finishPrinter, List.nil_append]
  · obtain ⟨f, h⟩ := same startPrinter (fun _ _ => rfl) []
    refine ⟨f, ?_⟩
    unfold preorder
    rw [h, fold_startPrinter, List.nil_append]

/-- Preorder and postorder list every vertex reachable from the source once, and nothing else. -/
theorem orders_perm [DecidableEq V] (hG : G.WF) (s : V) (hs : s ∈ G.vertices) (flags : V → Bool) :
    ∃ post pre, (∃ fuel, postorder G fuel s flags = some post) ∧ (∃ fuel, preorder G fuel s flags = some pre) ∧
      pre.Nodup ∧ (∀ v, v ∈ pre ↔ G.Reach s v) ∧ post.Perm pre := by
  obtain ⟨l, hex, -, h1, h2⟩ := postorder_spec hG s hs flags
  refine ⟨_, _, h1, h2, ?_, ?_, ?_⟩
  · rw [hex.starts_eq]; exact hex.once
  · intro v; rw [hex.starts_eq]; exact hex.exactly v
  · rw [hex.starts_eq]; exact hex.finishes_perm

/-- Of an acyclic graph the topological sort lists every vertex once, every edge going from a
later-listed vertex to an earlier-listed one. -/
theorem topologicalSort_spec [DecidableEq V] (hG : G.WF) (hac : G.Acyclic) (flags : V → Bool) :
    ∃ output, (∃ fuel, topologicalSort G fuel flags = some output) ∧ output.Perm G.vertices ∧
      ∀ u ∈ G.vertices, ∀ e ∈ G.out u, output.idxOf (G.tgt e) < output.idxOf u := by
  classical
  obtain ⟨l, D', hva, hi, fuel, hf⟩ := dfsAll_ref (flag_tracks.fst (finishPrinter (E := E))) hG (flags, [])
    (by rw [initAll_fst]; exact flag_init flags)
  have hs : (starts l).Nodup := by rw [hva.starts_eq]; exact hva.discs_spec.1
  have hfn : (finishes l).Nodup := hva.finishes_perm.nodup_iff.mpr hva.discs_spec.1
  have hmemD : ∀ v, v ∈ D' ↔ v ∈ G.vertices := by
    intro v
    rw [hva.mem_iff]
    constructor
    · rintro ⟨u, hu, hr⟩
      induction hr with
      | refl => exact hu
      | tail _ hadj ih => obtain ⟨e, he, rfl⟩ := hadj; exact hG.tgt _ ih e he
    · exact fun h => ⟨v, h, Relation.ReflTransGen.refl⟩
  have hmem : ∀ v, v ∈ finishes l ↔ v ∈ G.vertices := by
    intro v
    rw [hva.finishes_perm.mem_iff, hva.discs_spec.2, hmemD]
    simp
  refine ⟨finishes l, ⟨fuel, ?_⟩, ?_, ?_⟩
  · unfold topologicalSort
    rw [hf, after_fst, initAll_snd _ (fun _ _ => rfl), fold_finishPrinter, List.nil_append]
  · exact (List.perm_ext_iff_of_nodup hfn hG.nodup).mpr hmem
  · intro u hu e he
    have hv := hG.tgt u hu e he
    refine finishes_idx hfn (mem_finishes.mp ((hmem u).mpr hu)) (mem_finishes.mp ((hmem _).mpr hv)) ?_
    have hadj : G.Adj u (G.tgt e) := ⟨e, he, rfl⟩
    have huv : u ≠ G.tgt e := fun h => hac u hu (by
      have : G.Adj u u := ⟨e, he, h.symm⟩
      exact Relation.TransGen.single this)
    have h1 := hva.edge_order hG (fun w hw => hw) ((hmemD u).mpr hu) e he
    obtain ⟨h2, h3⟩ := hva.intervals hG (fun w hw => hw) ((hmemD u).mpr hu) ((hmemD _).mpr hv) huv
    rcases h3 with h3 | h3 | h3 | h3
    · exact h3.2.2
    · exfalso
      have : Relation.TransGen G.Adj (G.tgt e) u := by
        have := h3.1
        clear * - this hva hG
        induction this with
        | single h => exact Relation.TransGen.single (hva.tree_adj hG (fun w hw => hw) h)
        | tail _ h ih => exact ih.tail (hva.tree_adj hG (fun w hw => hw) h)
      exact hac u hu (Relation.TransGen.head hadj this)
    · omega
    · omega

/-- On a graph with a cycle no order would do (what is output then: `topologicalSort_any`). -/
theorem no_topological_order [DecidableEq V] (u : V) (hc : Relation.TransGen G.Adj u u) (output : List V) :
    ¬∀ v, ∀ e ∈ G.out v, output.idxOf (G.tgt e) < output.idxOf v := by
  intro h
  have key : ∀ v, Relation.TransGen G.Adj u v → output.idxOf v < output.idxOf u := by
    intro v hv
    induction hv with
    | single hadj => obtain ⟨e, he, rfl⟩ := hadj; exact h _ e he
    | tail _ hadj ih => obtain ⟨e, he, rfl⟩ := hadj; exact (h _ e he).trans ih
  exact absurd (key u hc) (Nat.lt_irrefl _)

example : sampleDag.WF ∧ topologicalSort sampleDag 20 (fun _ => true) = some [2, 1, 0, 3] := by
  refine ⟨⟨by decide, by decide, by decide⟩, by rfl⟩

example : sampleDag.Acyclic := by
  have key : ∀ u v, sampleDag.Adj u v → (fun n : Nat => if n = 2 then 0 else if n = 3 then 5 else 3 - 2 * n) v <
      (fun n : Nat => if n = 2 then 0 else if n = 3 then 5 else 3 - 2 * n) u := by
    rintro u v ⟨e, he, rfl⟩
    match u, he with
    | 0, he => rcases List.mem_cons.mp he with rfl | he
               · decide
               · rw [List.mem_singleton.mp he]; decide
    | 1, he => rw [List.mem_singleton.mp he]; decide
    | 2, he => cases he
    | 3, he => rcases List.mem_cons.mp he with rfl | he
               · decide
               · rw [List.mem_singleton.mp he]; decide
    | n + 4, he => cases he
  have key2 : ∀ u v, Relation.TransGen sampleDag.Adj u v →
      (fun n : Nat => if n = 2 then 0 else if n = 3 then 5 else 3 - 2 * n) v <
      (fun n : Nat => if n = 2 then 0 else if n = 3 then 5 else 3 - 2 * n) u := by
    intro u v h
    induction h with
    | single h => exact key _ _ h
    | tail _ h ih => exact (key _ _ h).trans ih
  exact fun u _ h => absurd (key2 u u h) (Nat.lt_irrefl _)

end Actl.Traversal
