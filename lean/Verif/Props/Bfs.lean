import Verif.Lemmas.Bfs
import Verif.Props.Dfs

/-!
C46 (breadth-first search computes shortest distances), C47 (predecessors describe a search tree).
-/

namespace Actl.Traversal

variable {σ τ V E : Type} {G : Graph V E} {c : Comp σ V E}

/-! ### Recorders that know the discovered vertices -/

theorem TracksB.fst {I : σ → Set V → Prop} (hT : TracksB G c I) (b : Event V E → τ → τ) :
    TracksB G (c.fst b) (fun s D => I s.1 D) where
  disc s D v := hT.disc s.1 D v
  nonTree s D e := hT.nonTree s.1 D e
  treeFinish s D e := hT.treeFinish s.1 D e
  start s D e := hT.start s.1 D e
  finish s D e := hT.finish s.1 D e
  tree s D e := hT.tree s.1 D e
  root s D e := hT.root s.1 D e

theorem flag_tracksB [DecidableEq V] : TracksB G (discoveredFlag : Comp _ V E) (FlagI G) where
  disc := flag_tracks.disc
  nonTree s D e h := h
  treeFinish s D e h := h
  start s D u h _ := h
  finish s D u h _ := h
  tree := flag_tracks.enterTree
  root := flag_tracks.enterRoot

theorem color_tracksB [DecidableEq V] : TracksB G (colorRecorder : Comp _ V E) (ColorI G) where
  disc := color_tracks.disc
  nonTree s D e h := h
  treeFinish s D e h := h
  start s D u h _ := h
  finish s D u h hu := color_tracks.finish s D u h hu
  tree := color_tracks.enterTree
  root := color_tracks.enterRoot

theorem pred_tracksB [DecidableEq V] : TracksB G (predecessorRecorder G) (PredI G) where
  disc := pred_tracks.disc
  nonTree s D e h := h
  treeFinish s D e h := h
  start s D u h _ := h
  finish s D u h _ := h
  tree := pred_tracks.enterTree
  root := pred_tracks.enterRoot

theorem dist_tracksB [DecidableEq V] : TracksB G (distanceRecorder G) (DistI G) where
  disc := dist_tracks.disc
  nonTree s D e h := h
  treeFinish s D e h := h
  start s D u h _ := h
  finish s D u h _ := h
  tree := dist_tracks.enterTree
  root := dist_tracks.enterRoot

theorem comp_tracksB [DecidableEq V] : TracksB G (componentRecorder : Comp _ V E) (CompI G) where
  disc := comp_tracks.disc
  nonTree s D e h := h
  treeFinish s D e h := h
  start s D u h _ := h
  finish s D u h _ := h
  tree := comp_tracks.enterTree
  root := comp_tracks.enterRoot

theorem initAll_pair (c' : Comp τ V E) (vs : List V) (s : σ × τ) :
    initAll (c.fst c'.on) vs s = (initAll c vs s.1, initAll c' vs s.2) := by
  induction vs generalizing s with
  | nil => rfl
  | cons v vs ih => rw [initAll, initAll, initAll, ih]; rfl

/-! ### C46 -/

theorem Story.no_init {R : V → Prop} {D : Set V} {l : List (Event V E)} (h : Story G R D l) (v : V) :
    Event.init v ∉ l := by
  induction h <;> simp_all

theorem BRun.examined_eq {D D' : Set V} {q : List V} {l : List (Event V E)} (h : BRun G D q l D') :
    examined l = (starts l).flatMap G.out := by
  have key : ∀ {D D' : Set V} {es : List E} {l : List (Event V E)} {new : List V}, BEdges G D es l new D' →
      examined l = es := by
    intro D D' es l new h
    induction h with
    | nil D => rfl
    | skip h r ih => simpa using ih
    | tree h r ih => simpa using ih
  induction h with
  | nil D => rfl
  | step h r ih =>
    have := h.no_vertex
    simp [key h, ih, this.1]

/-- The facts about the events of a breadth-first search. -/
theorem BRun.facts (hG : G.WF) {us : List V} (hus : ∀ u ∈ us, u ∈ G.vertices) (hn : us.Nodup) {l1 : List (Event V E)}
    {D' : Set V} (h : BRun G {v | v ∈ us} us l1 D') (null : V) :
    Story G (· ∈ us) ∅ (srcEvents us ++ l1 ++ [.searchFinish null]) ∧
    (∀ v, v ∈ D' ↔ ∃ u ∈ us, G.Reach u v) ∧
    (discs (srcEvents us ++ l1 ++ [.searchFinish null])).Nodup ∧
    (∀ v, v ∈ discs (srcEvents us ++ l1 ++ [.searchFinish null]) ↔ ∃ u ∈ us, G.Reach u v) ∧
    starts (srcEvents us ++ l1 ++ [.searchFinish null]) = discs (srcEvents us ++ l1 ++ [.searchFinish null]) ∧
    finishes (srcEvents us ++ l1 ++ [.searchFinish null]) = discs (srcEvents us ++ l1 ++ [.searchFinish null]) ∧
    examined (srcEvents us ++ l1 ++ [.searchFinish null]) =
      (discs (srcEvents us ++ l1 ++ [.searchFinish null])).flatMap G.out := by
  obtain ⟨h1, h2, h3, h4⟩ := h.discs_spec
  have hst : starts (srcEvents us : List (Event V E)) = [] ∧ finishes (srcEvents us : List (Event V E)) = [] ∧
      examined (srcEvents us : List (Event V E)) = [] := by
    clear * -
    induction us with
    | nil => exact ⟨rfl, rfl, rfl⟩
    | cons u us ih =>
      rw [show (srcEvents (u :: us) : List (Event V E)) = .searchStart u :: .discover u :: srcEvents us from rfl]
      simpa using ih
  have hD : ∀ v, v ∈ D' ↔ ∃ u ∈ us, G.Reach u v := by
    intro v
    constructor
    · intro hv
      by_cases hvu : v ∈ us
      · exact ⟨v, hvu, Relation.ReflTransGen.refl⟩
      · exact h.reach hG v hv hvu
    · rintro ⟨u, hu, hr⟩
      have hc := h.closed (fun v hv hvq => absurd hv hvq)
      have hu' : u ∈ D' := h.subset hu
      induction hr with
      | refl => exact hu'
      | tail _ hadj ih => obtain ⟨e, he, rfl⟩ := hadj; exact hc _ ih e he
  refine ⟨?_, hD, ?_, ?_, ?_, ?_, ?_⟩
  · rw [List.append_assoc]
    refine (srcEvents_story us hn _ (fun u hu => hu) ∅ (fun u _ => Set.notMem_empty u)).append ?_
    rw [discs_srcEvents, Set.empty_union]
    refine (h.story hG _ (fun u hu => ⟨hus u hu, hu⟩)).append (.searchFinish (.nil _))
  · simp only [discs_append, discs_srcEvents, discs_searchFinish, discs_nil, List.append_nil]
    exact List.nodup_append'.mpr ⟨hn, h1, fun v hv1 hv2 => ((h2 v).mp hv2).2 hv1⟩
  · intro v
    simp only [discs_append, discs_srcEvents, discs_searchFinish, discs_nil, List.append_nil, List.mem_append, h2]
    rw [← hD]
    constructor
    · rintro (hv | hv)
      · exact h.subset hv
      · exact hv.1
    · intro hv
      by_cases hvu : v ∈ us
      · exact Or.inl hvu
      · exact Or.inr ⟨hv, hvu⟩
  · simp [discs_srcEvents, hst.1, h3]
  · simp [discs_srcEvents, hst.2.1, h4]
  · simp only [examined_append, hst.2.2, List.nil_append, examined_searchFinish, examined_nil, List.append_nil,
      discs_append, discs_srcEvents, discs_searchFinish, discs_nil, h.examined_eq, h3]

/-- The recorded distances are the least numbers of edges. -/
theorem BRun.isDist [DecidableEq V] (hG : G.WF) {us : List V} (hus : ∀ u ∈ us, u ∈ G.vertices) (hn : us.Nodup)
    {l1 : List (Event V E)} {D' : Set V} (h : BRun G {v | v ∈ us} us l1 D') (null : V) (d : V → Int) (v : V)
    (hv : ∃ u ∈ us, G.Reach u v) :
    ∃ n : Nat, after (distanceRecorder G) d (srcEvents us ++ l1 ++ [.searchFinish null]) v = n ∧ G.IsDist us v n := by
  obtain ⟨hstory, hD, -, hdm, -⟩ := h.facts hG hus hn null
  have hF := hstory.forest (fun _ => none) d (Forest.empty _ _)
  rw [Set.empty_union] at hF
  have hsrc : ∀ u ∈ us, after (distanceRecorder G) d (srcEvents us) u = 0 := by
    clear * -
    intro u hu
    have same : ∀ (us : List V) (d : V → Int), d u = 0 → after (distanceRecorder G) d (srcEvents us) u = 0 := by
      intro us
      induction us with
      | nil => exact fun d hd => hd
      | cons w us ih =>
        intro d hd
        rw [show (srcEvents (w :: us) : List (Event V E)) = .searchStart w :: .discover w :: srcEvents us from rfl,
          after_cons, after_cons]
        refine ih _ ?_
        show put d w 0 u = 0
        by_cases h : u = w
        · simp [put, h]
        · simp [put, h, hd]
    induction us generalizing d with
    | nil => cases hu
    | cons w us ih =>
      rw [show (srcEvents (w :: us) : List (Event V E)) = .searchStart w :: .discover w :: srcEvents us from rfl,
        after_cons, after_cons]
      by_cases h : u = w
      · refine same us _ ?_
        show put d w 0 u = 0
        simp [put, h]
      · exact ih _ ((List.mem_cons.mp hu).resolve_left h)
  obtain ⟨hstep, hsame⟩ := h.dist hG (fun u hu => ⟨hus u hu, hu⟩) (after (distanceRecorder G) d (srcEvents us))
    (List.pairwise_of_forall_mem_list (fun x hx y hy => by rw [hsrc x hx, hsrc y hy]))
    (fun v hv x hx => by rw [hsrc v hv, hsrc x hx]; omega) (fun v hv hvq => absurd hv hvq)
  have hafter : after (distanceRecorder G) d (srcEvents us ++ l1 ++ [.searchFinish null]) =
      after (distanceRecorder G) (after (distanceRecorder G) d (srcEvents us)) l1 := by
    rw [after_append, after_append]; rfl
  rw [hafter] at hF ⊢
  generalize after (distanceRecorder G) (after (distanceRecorder G) d (srcEvents us)) l1 = f at hF hstep hsame
  have hwalk : ∀ (n : Nat) x, (∃ u ∈ us, G.Reach u x) → f x = n → ∃ s ∈ us, G.Walk n s x := by
    intro n
    induction n with
    | zero =>
      intro x hx hfx
      rcases hF x ((hdm x).mpr hx) with ⟨h1, _, _⟩ | ⟨w, _, _, _, h3, h4⟩
      · exact ⟨x, h1, .nil x⟩
      · omega
    | succ n ih =>
      intro x hx hfx
      rcases hF x ((hdm x).mpr hx) with ⟨_, _, h3⟩ | ⟨w, hw, _, hadj, h3, h4⟩
      · omega
      · obtain ⟨s, hs, hW⟩ := ih w ((hdm w).mp hw) (by omega)
        exact ⟨s, hs, .snoc hW hadj⟩
  have h0 := hF.nonneg v ((hdm v).mpr hv)
  refine ⟨(f v).toNat, by omega, hwalk _ v hv (by omega), fun m s hs hW => ?_⟩
  have key : v ∈ D' ∧ f v ≤ m := by
    clear h0 hv
    induction hW with
    | nil u => exact ⟨h.subset hs, by rw [hsame u hs, hsrc u hs]; simp⟩
    | snoc hW hadj ih =>
      obtain ⟨i1, i2⟩ := ih hs
      obtain ⟨e, he, rfl⟩ := hadj
      obtain ⟨j1, j2⟩ := hstep _ i1 e he
      exact ⟨j1, by push_cast; omega⟩
  omega

/-- Breadth-first search, with any component that knows the discovered vertices: it terminates; just
the vertices reachable from the sources are discovered, once; each is started and finished once, in
the order of discovery; their out-edges are examined in that order, once. -/
theorem bfs_explores_of_tracks [DecidableEq V] {I : σ → Set V → Prop} (hT : TracksB G c I) (hG : G.WF) (null : V)
    (us : List V) (hus : ∀ u ∈ us, u ∈ G.vertices) (hn : us.Nodup) (s : σ) (hI : I (initAll c G.vertices s) ∅) :
    (∃ fuel r, bfs G (c.fst logger) (fun _ => false) null fuel us (s, []) = some r) ∧
    ∀ fuel s' l, bfs G (c.fst logger) (fun _ => false) null fuel us (s, []) = some (s', l) →
      (discs l).Nodup ∧ (∀ v, v ∈ discs l ↔ ∃ u ∈ us, G.Reach u v) ∧ starts l = discs l ∧ finishes l = discs l ∧
      examined l = (discs l).flatMap G.out ∧ Story G (· ∈ us) ∅ l ∧ s' = after c (initAll c G.vertices s) l := by
  obtain ⟨l1, D', hr, hi, fuel, hf⟩ := bfs_ref (hT.fst logger) hG null us hus hn (s, []) (by rw [initAll_fst]; exact hI)
  obtain ⟨f1, f2, f3, f4, f5, f6, f7⟩ := hr.facts hG hus hn null
  refine ⟨⟨fuel, _, hf⟩, fun fuel' s' l h => ?_⟩
  have := bfs_det _ _ _ _ _ _ _ _ hf h
  rw [initAll_snd _ (fun _ _ => rfl), after_fst, fold_logger _ _ f1.no_init, List.nil_append] at this
  simp only [Prod.mk.injEq] at this
  obtain ⟨rfl, rfl⟩ := this
  exact ⟨f3, f4, f5, f6, f7, f1, rfl⟩

/-- Breadth-first search with the distance recorder, from any set of sources: it terminates, each
reachable vertex is discovered once and gets the least number of edges of a walk from a source; the
others keep -1. -/
theorem bfs_distances [DecidableEq V] (hG : G.WF) (null : V) (us : List V) (hus : ∀ u ∈ us, u ∈ G.vertices)
    (hn : us.Nodup) (d0 : V → Int) :
    (∃ fuel r, bfs G ((distanceRecorder G).fst logger) (fun _ => false) null fuel us (d0, []) = some r) ∧
    ∀ fuel d l, bfs G ((distanceRecorder G).fst logger) (fun _ => false) null fuel us (d0, []) = some (d, l) →
      (discs l).Nodup ∧ (∀ v, v ∈ discs l ↔ ∃ u ∈ us, G.Reach u v) ∧
      (∀ v, (∃ u ∈ us, G.Reach u v) → ∃ n : Nat, d v = n ∧ G.IsDist us v n) ∧
      (∀ v ∈ G.vertices, (¬∃ u ∈ us, G.Reach u v) → d v = -1) := by
  obtain ⟨l1, D', hr, hi, fuel, hf⟩ := bfs_ref (dist_tracksB.fst logger) hG null us hus hn (d0, [])
    (by rw [initAll_fst]; exact dist_init d0)
  obtain ⟨f1, f2, f3, f4, f5, f6, f7⟩ := hr.facts hG hus hn null
  refine ⟨⟨fuel, _, hf⟩, fun fuel' d l h => ?_⟩
  have := bfs_det _ _ _ _ _ _ _ _ hf h
  rw [initAll_snd _ (fun _ _ => rfl), after_fst] at this hi
  rw [fold_logger _ _ f1.no_init, List.nil_append] at this
  simp only [Prod.mk.injEq] at this
  obtain ⟨rfl, rfl⟩ := this
  refine ⟨f3, f4, fun v hv => hr.isDist hG hus hn null _ v hv, fun v hv hnr => ?_⟩
  rw [after_append]
  exact hi.2 v hv (fun h => hnr ((f2 v).mp h))

example : (bfs sample ((distanceRecorder sample).fst logger) (fun _ => false) 99 20 [3] (fun _ => 7, [])).map
    (fun r => (sample.vertices.map r.1, r.2)) = some ([1, 2, 2, 0, 1],
      [.searchStart 3, .discover 3, .start 3, .treeStart (3, 4), .discover 4, .treeFinish (3, 4), .treeStart (3, 0),
       .discover 0, .treeFinish (3, 0), .finish 3, .start 4, .finish 4, .start 0, .treeStart (0, 1), .discover 1,
       .treeFinish (0, 1), .treeStart (0, 2), .discover 2, .treeFinish (0, 2), .nonTree (0, 1), .finish 0, .start 1,
       .nonTree (1, 0), .nonTree (1, 1), .finish 1, .start 2, .nonTree (2, 1), .finish 2, .searchFinish 99]) := by
  decide +kernel

example : (bfs sample ((distanceRecorder sample).fst logger) (fun _ => false) 99 20 [2, 4] (fun _ => 7, [])).map
    (fun r => sample.vertices.map r.1) = some [2, 1, 0, -1, 0] := by decide +kernel

/-- A source listed twice is discovered twice: distinct sources are needed. -/
theorem bfs_repeated_source_fails [DecidableEq V] (u : V) (hu : u ∈ G.vertices) (hout : G.out u = []) (null : V)
    (flags : V → Bool) :
    (bfs G (discoveredFlag.fst logger) (fun _ => false) null 3 [u, u] (flags, [])).map (fun r => discs r.2) =
      some [u, u] := by
  unfold bfs
  rw [initAll_snd _ (fun _ _ => rfl)]
  simp [bfsSources, bfsDiscover, bfsLoop, hout, bfsEdges, Comp.fst, logger, discs]

/-! ### C47 -/

/-- Breadth-first search recording predecessors and distances: from a reachable vertex, following
the predecessors for the recorded distance walks edges backwards and ends in a source, which is its
own predecessor; that distance is the least number of edges.  Unreachable vertices have no
predecessor. -/
theorem bfs_predecessors [DecidableEq V] (hG : G.WF) (null : V) (us : List V) (hus : ∀ u ∈ us, u ∈ G.vertices)
    (hn : us.Nodup) (p0 : V → Option V) (d0 : V → Int) :
    (∃ fuel r, bfs G ((predecessorRecorder G).fst (distanceRecorder G).on) (fun _ => false) null fuel us (p0, d0) = some r) ∧
    ∀ fuel p d, bfs G ((predecessorRecorder G).fst (distanceRecorder G).on) (fun _ => false) null fuel us (p0, d0) =
        some (p, d) →
      (∀ u ∈ us, p u = some u) ∧
      (∀ v, (∃ u ∈ us, G.Reach u v) → ∃ n : Nat, d v = n ∧ G.IsDist us v n ∧
        (∃ r ∈ us, p r = some r ∧ follow p n v = some r) ∧
        ∀ k < n, ∃ x y, follow p k v = some x ∧ p x = some y ∧ x ≠ y ∧ G.Adj y x) ∧
      (∀ v ∈ G.vertices, (¬∃ u ∈ us, G.Reach u v) → p v = none) := by
  obtain ⟨l1, D', hr, hi, fuel, hf⟩ := bfs_ref (pred_tracksB.fst (distanceRecorder G).on) hG null us hus hn (p0, d0)
    (by rw [initAll_fst]; exact pred_init p0)
  obtain ⟨f1, f2, f3, f4, f5, f6, f7⟩ := hr.facts hG hus hn null
  refine ⟨⟨fuel, _, hf⟩, fun fuel' p d h => ?_⟩
  have := bfs_det _ _ _ _ _ _ _ _ hf h
  rw [initAll_pair, after_fst] at this hi
  simp only [Prod.mk.injEq] at this
  obtain ⟨hp, hd⟩ := this
  have hF := f1.forest (initAll (predecessorRecorder G) G.vertices p0) (initAll (distanceRecorder G) G.vertices d0)
    (Forest.empty _ _)
  rw [Set.empty_union] at hF
  have hd' : after (distanceRecorder G) (initAll (distanceRecorder G) G.vertices d0) (srcEvents us ++ l1 ++ [.searchFinish null]) =
      d := hd
  rw [hp, hd'] at hF
  have key : ∀ v, (∃ u ∈ us, G.Reach u v) → ∃ n : Nat, d v = n ∧ G.IsDist us v n := by
    intro v hv
    have := hr.isDist hG hus hn null (initAll (distanceRecorder G) G.vertices d0) v hv
    rwa [hd'] at this
  refine ⟨fun u hu => ?_, fun v hv => ?_, fun v hv hnr => ?_⟩
  · have hur : ∃ u' ∈ us, G.Reach u' u := ⟨u, hu, Relation.ReflTransGen.refl⟩
    obtain ⟨n, h1, h2⟩ := key u hur
    have hn0 : n = 0 := Nat.le_zero.mp (h2.2 0 u hu (.nil u))
    rcases hF u ((f4 u).mpr hur) with h3 | ⟨w, _, _, _, h3, h4⟩
    · exact h3.2.1
    · omega
  · obtain ⟨n, h1, h2⟩ := key v hv
    obtain ⟨⟨r, _, hR, hpr, hfo⟩, hk⟩ := hF.path n v ((f4 v).mpr hv) h1
    exact ⟨n, h1, h2, ⟨r, hR, hpr, hfo⟩, hk⟩
  · have : ¬(after (predecessorRecorder G) (initAll (predecessorRecorder G) G.vertices p0) (srcEvents us ++ l1) v).isSome :=
      fun h => hnr ((f2 v).mp ((hi v hv).mp h))
    rw [← hp, after_append]
    show after (predecessorRecorder G) (initAll (predecessorRecorder G) G.vertices p0) (srcEvents us ++ l1) v = none
    simpa using this

/-- Depth-first search from a source recording predecessors: following them from a reachable vertex
walks edges backwards and ends in the source, its own predecessor; unreachable vertices have none. -/
theorem dfsFrom_predecessors [DecidableEq V] (hG : G.WF) (s : V) (hs : s ∈ G.vertices) (p0 : V → Option V) :
    (∃ fuel r, dfsFrom G (predecessorRecorder G) (fun _ => false) fuel s p0 = some r) ∧
    ∀ fuel p, dfsFrom G (predecessorRecorder G) (fun _ => false) fuel s p0 = some p →
      p s = some s ∧
      (∀ v, G.Reach s v → ∃ n, follow p n v = some s ∧
        ∀ k < n, ∃ x y, follow p k v = some x ∧ p x = some y ∧ x ≠ y ∧ G.Adj y x) ∧
      (∀ v ∈ G.vertices, ¬G.Reach s v → p v = none) := by
  obtain ⟨l, D', hv, hi, fuel, hf⟩ := dfsFrom_ref (pred_tracks (G := G)) hG s hs p0 (pred_init p0)
  refine ⟨⟨fuel, _, hf⟩, fun fuel' p h => ?_⟩
  have hp := dfsFrom_det _ _ _ _ _ _ _ hf h
  have hva := VisitAll.one hv (Set.notMem_empty s)
  have hst := hva.story hG (fun w hw => by rw [List.mem_singleton.mp hw]; exact hs) (· = s) (fun w hw => List.mem_singleton.mp hw)
  have hF := hst.forest (initAll (predecessorRecorder G) G.vertices p0) (fun _ => 0) (Forest.empty _ _)
  have hD : ∀ v, v ∈ D' ↔ G.Reach s v := by intro v; rw [hva.mem_iff]; simp
  have hmem : ∀ v, v ∈ discs l ↔ G.Reach s v := by intro v; rw [hva.discs_spec.2, hD]; simp
  rw [Set.empty_union, hp] at hF
  generalize after (distanceRecorder G) (fun _ => 0) l = d at hF
  have root : ∀ v, G.Reach s v → ∃ n, follow p n v = some s ∧ p s = some s ∧
      ∀ k < n, ∃ x y, follow p k v = some x ∧ p x = some y ∧ x ≠ y ∧ G.Adj y x := by
    intro v hr
    have h0 := hF.nonneg v ((hmem v).mpr hr)
    obtain ⟨⟨r, _, rfl, h1, h2⟩, h3⟩ := hF.path (d v).toNat v ((hmem v).mpr hr) (by omega)
    exact ⟨_, h2, h1, h3⟩
  refine ⟨?_, fun v hr => ?_, fun v hv hnr => ?_⟩
  · obtain ⟨n, _, h, _⟩ := root s Relation.ReflTransGen.refl
    exact h
  · obtain ⟨n, h1, _, h2⟩ := root v hr
    exact ⟨n, h1, h2⟩
  · have := hi v hv
    rw [hp] at this
    cases hpv : p v with
    | none => rfl
    | some w => exact absurd ((hD v).mp (this.mp (by rw [hpv]; rfl))) hnr

/-- The same for the search of the whole graph: every vertex leads to a root, its own predecessor. -/
theorem dfsAll_predecessors [DecidableEq V] (hG : G.WF) (p0 : V → Option V) :
    (∃ fuel r, dfsAll G (predecessorRecorder G) (fun _ => false) fuel p0 = some r) ∧
    ∀ fuel p, dfsAll G (predecessorRecorder G) (fun _ => false) fuel p0 = some p →
      ∀ v ∈ G.vertices, ∃ n, ∃ r ∈ G.vertices, p r = some r ∧ follow p n v = some r ∧
        ∀ k < n, ∃ x y, follow p k v = some x ∧ p x = some y ∧ x ≠ y ∧ G.Adj y x := by
  obtain ⟨l, D', hva, hi, fuel, hf⟩ := dfsAll_ref (pred_tracks (G := G)) hG p0 (pred_init p0)
  refine ⟨⟨fuel, _, hf⟩, fun fuel' p h v hv => ?_⟩
  have hp := dfsAll_det _ _ _ _ _ _ hf h
  have hst := hva.story hG (fun w hw => hw) (· ∈ G.vertices) (fun w hw => hw)
  have hF := hst.forest (initAll (predecessorRecorder G) G.vertices p0) (fun _ => 0) (Forest.empty _ _)
  have hmem : v ∈ discs l := by
    rw [hva.discs_spec.2, hva.mem_iff]
    exact ⟨⟨v, hv, Relation.ReflTransGen.refl⟩, Set.notMem_empty v⟩
  rw [Set.empty_union, hp] at hF
  generalize after (distanceRecorder G) (fun _ => 0) l = d at hF
  have h0 := hF.nonneg v hmem
  obtain ⟨⟨r, _, h1, h2, h3⟩, h4⟩ := hF.path (d v).toNat v hmem (by omega)
  exact ⟨_, r, h1, h2, h3, h4⟩

example : (bfs sample ((predecessorRecorder sample).fst (distanceRecorder sample).on) (fun _ => false) 99 20 [0]
      (fun _ => some 7, fun _ => 7)).map (fun r => (sample.vertices.map r.1, sample.vertices.map r.2)) =
    some ([some 0, some 0, some 0, none, none], [0, 1, 1, -1, -1]) ∧
    (dfsFrom sample (predecessorRecorder sample) (fun _ => false) 20 2 (fun _ => some 7)).map (sample.vertices.map ·) =
    some [some 1, some 2, some 2, none, none] := by decide +kernel

end Actl.Traversal
