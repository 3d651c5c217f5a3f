import Verif.Lemmas.Linear

/-!
C113: the searches take a linear number of steps, and memory for no more than the vertices reached.

The fuel of the models counts the iterations of the loops of the code: one for every edge examined
and one for every vertex finished in depth-first search, one for every vertex taken from the queue
and one more to see it empty in breadth-first search.
-/

namespace Actl.Traversal

variable {σ V E : Type} {G : Graph V E} {c : Comp σ V E} [DecidableEq V]

/-- Depth-first search from a source makes exactly as many iterations as there are vertices that can be
reached and edges that leave them, and calls of components in proportion. -/
theorem dfsFrom_linear (hG : G.WF) (s : V) (hs : s ∈ G.vertices) (flags : V → Bool) (vs : List V) (hvs : vs.Nodup)
    (hR : ∀ v, v ∈ vs ↔ G.Reach s v) :
    (∀ fuel, (dfsFrom G (discoveredFlag.fst logger) (fun _ => false) fuel s (flags, [])).isSome ↔
      vs.length + (vs.map (fun v => (G.out v).length)).sum ≤ fuel) ∧
    ∀ fuel flags' l, dfsFrom G (discoveredFlag.fst logger) (fun _ => false) fuel s (flags, []) = some (flags', l) →
      l.length = 4 * vs.length + (vs.map (fun v => (G.out v).length)).sum + 1 := by
  have hT := (flag_tracks (G := G)).fst (logger (V := V) (E := E))
  have hI : FlagI G (initAll (discoveredFlag.fst logger : Comp _ V E) G.vertices (flags, [])).1 ∅ := by
    rw [initAll_fst]; exact flag_init flags
  obtain ⟨l1, D', hr⟩ := Run.exists hG (insert s ∅) (G.out s) (fun e he => hG.tgt s hs e he)
  have hv : Visit G ∅ s _ D' := ⟨l1, hr, rfl⟩
  have hva := VisitAll.one hv (Set.notMem_empty s)
  have hperm : vs.Perm (s :: discs l1) := by
    have h1 : discs ([.searchStart s, .discover s, .start s] ++ l1 ++ [.finish s, .searchFinish s]) = s :: discs l1 := by
      simp
    rw [← h1]
    refine (List.perm_ext_iff_of_nodup hvs hva.discs_spec.1).mpr fun v => ?_
    rw [hva.discs_spec.2, hva.mem_iff, hR]
    simp
  have hlen := hperm.length_eq
  have hdeg : (vs.map (fun v => (G.out v).length)).sum = (G.out s).length + outDegrees G (discs l1) := by
    have := outDegrees_perm (G := G) hperm
    rw [outDegrees_cons] at this
    exact this
  obtain ⟨hc1, hc2⟩ := hr.count
  have hI1 := hT.enterRoot _ _ s hI (Set.notMem_empty s) hs
  have hes : ∀ e ∈ G.out s, G.tgt e ∈ G.vertices ∧ G.src e ∈ (insert s ∅ : Set V) :=
    fun e he => ⟨hG.tgt s hs e he, by rw [hG.src s hs e he]; exact Set.mem_insert _ _⟩
  have hrun := fun f => (loop_run hT hG (fun _ => false) hr s [] f _ hI1 hes).1
  simp only [cut_false] at hrun
  have hcost : cost l1 + 1 = vs.length + (vs.map (fun v => (G.out v).length)).sum := by
    rw [hdeg, hlen, List.length_cons]
    unfold cost
    omega
  have hsome : ∀ fuel, cost l1 + 1 ≤ fuel → dfsFrom G (discoveredFlag.fst logger) (fun _ => false) fuel s (flags, []) =
      some (after (discoveredFlag.fst logger) (initAll (discoveredFlag.fst logger) G.vertices (flags, []))
        ([.searchStart s, .discover s, .start s] ++ l1 ++ [.finish s, .searchFinish s])) := by
    intro fuel hf
    obtain ⟨k, rfl⟩ : ∃ k, fuel = cost l1 + (k + 1) := ⟨fuel - cost l1 - 1, by omega⟩
    unfold dfsFrom visit
    simp only [Bool.false_eq_true, if_false]
    rw [hrun, loop]
    simp only [after_append]
    rfl
  refine ⟨fun fuel => ⟨fun h => ?_, fun h => ?_⟩, fun fuel flags' l h => ?_⟩
  · by_contra hlt
    have hle : fuel ≤ cost l1 + 0 := by omega
    unfold dfsFrom visit at h
    simp only [Bool.false_eq_true, if_false] at h
    cases hl : loop G (discoveredFlag.fst logger) (fun _ => false) fuel s (G.out s) []
        ((discoveredFlag.fst logger).on (.start s) ((discoveredFlag.fst logger).on (.discover s)
          ((discoveredFlag.fst logger).on (.searchStart s)
            (initAll (discoveredFlag.fst logger : Comp _ V E) G.vertices (flags, []))))) with
    | none => rw [hl] at h; cases h
    | some r =>
      have := loop_mono (fun _ => false) _ _ hle _ _ _ _ _ hl
      rw [hrun, loop] at this
      cases this
  · rw [hsome fuel (by omega)]; rfl
  · have h2 := dfsFrom_det _ _ _ _ _ _ _ (hsome _ le_rfl) h
    rw [initAll_snd _ (fun _ _ => rfl), after_fst, fold_logger _ _ hv.no_init, List.nil_append] at h2
    simp only [Prod.mk.injEq] at h2
    rw [← h2.2]
    simp only [List.length_append, List.length_cons, List.length_nil, hc2, hc1, hlen, hdeg]
    omega

/-- Its stack never holds as many contexts as there are vertices that can be reached. -/
theorem dfs_depth (hG : G.WF) (term : V → Bool) (s : V) (hs : s ∈ G.vertices) (flags : V → Bool) (vs : List V)
    (hvs : vs.Nodup) (hR : ∀ v, v ∈ vs ↔ G.Reach s v) (fuel : Nat) :
    (visitDepth G (discoveredFlag.fst logger) term fuel s
      (initAll (discoveredFlag.fst logger) G.vertices (flags, []))).map Prod.fst =
      dfsFrom G (discoveredFlag.fst logger) term fuel s (flags, []) ∧
    ∀ r n, visitDepth G (discoveredFlag.fst logger) term fuel s
      (initAll (discoveredFlag.fst logger) G.vertices (flags, [])) = some (r, n) → n < vs.length := by
  refine ⟨visitDepth_fst _ _ _ _, fun r n h => ?_⟩
  have hT := (flag_tracks (G := G)).fst (logger (V := V) (E := E))
  have hI : FlagI G (initAll (discoveredFlag.fst logger : Comp _ V E) G.vertices (flags, [])).1 ∅ := by
    rw [initAll_fst]; exact flag_init flags
  obtain ⟨l1, D', hr⟩ := Run.exists hG (insert s ∅) (G.out s) (fun e he => hG.tgt s hs e he)
  have hv : Visit G ∅ s _ D' := ⟨l1, hr, rfl⟩
  have hva := VisitAll.one hv (Set.notMem_empty s)
  have hperm : vs.Perm (s :: discs l1) := by
    have h1 : discs ([.searchStart s, .discover s, .start s] ++ l1 ++ [.finish s, .searchFinish s]) = s :: discs l1 := by
      simp
    rw [← h1]
    refine (List.perm_ext_iff_of_nodup hvs hva.discs_spec.1).mpr fun v => ?_
    rw [hva.discs_spec.2, hva.mem_iff, hR]
    simp
  have hlen := hperm.length_eq
  rw [List.length_cons] at hlen
  have hI1 := hT.enterRoot _ _ s hI (Set.notMem_empty s) hs
  have hes : ∀ e ∈ G.out s, G.tgt e ∈ G.vertices ∧ G.src e ∈ (insert s ∅ : Set V) :=
    fun e he => ⟨hG.tgt s hs e he, by rw [hG.src s hs e he]; exact Set.mem_insert _ _⟩
  unfold visitDepth at h
  by_cases ht : term s = true
  · simp only [if_pos ht, Option.some.injEq, Prod.mk.injEq] at h
    omega
  · simp only [if_neg ht] at h
    cases hl : loopDepth G (discoveredFlag.fst logger) term fuel s (G.out s) []
        ((discoveredFlag.fst logger).on (.start s) ((discoveredFlag.fst logger).on (.discover s)
          ((discoveredFlag.fst logger).on (.searchStart s)
            (initAll (discoveredFlag.fst logger : Comp _ V E) G.vertices (flags, []))))) with
    | none => rw [hl] at h; cases h
    | some x =>
      rw [hl] at h
      obtain ⟨⟨x1, x2⟩, m⟩ := x
      simp only [Option.some.injEq, Prod.mk.injEq] at h
      have hl' := loopDepth_mono term _ _ (Nat.le_add_left fuel (cost l1)) _ _ _ _ _ hl
      have := loopDepth_run hT hG term hr s [] fuel _ hI1 hes (discs l1).length (by simp) (fun x n _ hx => by
        cases fuel with
        | zero => cases hx
        | succ fuel => simp only [loopDepth, Option.some.injEq, Prod.mk.injEq] at hx; omega) _ _ hl'
      omega

/-- Depth-first search of the whole graph calls components in proportion to the vertices and edges: `r`
is the number of trees. -/
theorem dfsAll_linear (hG : G.WF) (flags : V → Bool) (fuel : Nat) (flags' : V → Bool) (l : List (Event V E))
    (h : dfsAll G (discoveredFlag.fst logger) (fun _ => false) fuel (flags, []) = some (flags', l)) :
    ∃ r ≤ G.vertices.length, l.length = 4 * G.vertices.length + (G.vertices.map (fun v => (G.out v).length)).sum + r := by
  obtain ⟨hva, -, -, hex⟩ := (dfsAll_explores_of_tracks flag_tracks hG flags (flag_init flags)).2 _ _ _ h
  have key : ∀ {D D' : Set V} {us : List V} {l : List (Event V E)}, VisitAll G D us l D' →
      ∃ r ≤ (discs l).length, l.length = 4 * (discs l).length + outDegrees G (discs l) + r := by
    intro D D' us l hva
    induction hva with
    | nil D => exact ⟨0, by simp, by simp [outDegrees]⟩
    | skip h r ih => exact ih
    | visit h hv r ih =>
      obtain ⟨l1, hr, rfl⟩ := hv
      obtain ⟨k, hk1, hk2⟩ := ih
      obtain ⟨h1, h2⟩ := hr.count
      refine ⟨k + 1, ?_, ?_⟩
      · simp only [discs_append, discs_searchStart, discs_discover, discs_start, discs_finish,
          discs_searchFinish, discs_nil, List.length_append, List.length_cons, List.length_nil]
        omega
      · simp only [discs_append, discs_searchStart, discs_discover, discs_start, discs_finish,
          discs_searchFinish, discs_nil, List.length_append, List.length_cons, List.length_nil, outDegrees_append,
          outDegrees_cons, outDegrees_nil, h2, hk2, h1]
        omega
  obtain ⟨r, h1, h2⟩ := key hva
  have hperm : (discs l).Perm G.vertices := (List.perm_ext_iff_of_nodup hex.once hG.nodup).mpr hex.exactly
  rw [hperm.length_eq] at h1
  rw [hperm.length_eq, outDegrees_perm hperm] at h2
  exact ⟨r, h1, h2⟩

/-- Breadth-first search takes every vertex that can be reached from the queue once, and calls components in
proportion to these vertices and the edges that leave them; the queue never holds more. -/
theorem bfs_linear (hG : G.WF) (null : V) (us : List V) (hus : ∀ u ∈ us, u ∈ G.vertices) (hn : us.Nodup)
    (flags : V → Bool) (vs : List V) (hvs : vs.Nodup) (hR : ∀ v, v ∈ vs ↔ ∃ u ∈ us, G.Reach u v) :
    (∀ fuel, (bfs G (discoveredFlag.fst logger) (fun _ => false) null fuel us (flags, [])).isSome ↔
      vs.length + 1 ≤ fuel) ∧
    (∀ fuel flags' l, bfs G (discoveredFlag.fst logger) (fun _ => false) null fuel us (flags, []) = some (flags', l) →
      l.length = 4 * vs.length + (vs.map (fun v => (G.out v).length)).sum + 1) ∧
    ∀ fuel, (bfsWidth G (discoveredFlag.fst logger) (fun _ => false) null fuel us (flags, [])).map Prod.fst =
        bfs G (discoveredFlag.fst logger) (fun _ => false) null fuel us (flags, []) ∧
      ∀ r n, bfsWidth G (discoveredFlag.fst logger) (fun _ => false) null fuel us (flags, []) = some (r, n) →
        n ≤ vs.length := by
  have hT := (flag_tracksB (G := G)).fst (logger (V := V) (E := E))
  have hI : FlagI G (initAll (discoveredFlag.fst logger : Comp _ V E) G.vertices (flags, [])).1 ∅ := by
    rw [initAll_fst]; exact flag_init flags
  obtain ⟨l1, D', hr⟩ := BRun.exists hG {v | v ∈ us} us hus
  obtain ⟨f1, f2, f3, f4, f5, f6, f7⟩ := hr.facts hG hus hn null
  have hd : discs (srcEvents us ++ l1 ++ [.searchFinish null]) = us ++ discs l1 := by simp [discs_srcEvents]
  have hperm : vs.Perm (us ++ discs l1) := by
    rw [hd] at f3 f4
    exact (List.perm_ext_iff_of_nodup hvs f3).mpr fun v => by rw [hR, f4]
  have hlen := hperm.length_eq
  rw [List.length_append] at hlen
  have hdeg : (vs.map (fun v => (G.out v).length)).sum = outDegrees G (us ++ discs l1) := outDegrees_perm hperm
  obtain ⟨hc1, hc2⟩ := hr.count
  obtain ⟨h1, h2⟩ := bfsSources_ref hT us hus hn ∅ (fun u _ => Set.notMem_empty u) [] _ hI
  rw [Set.empty_union] at h2
  have hq : ∀ u ∈ us, u ∈ G.vertices ∧ u ∈ {v | v ∈ us} := fun u hu => ⟨hus u hu, hu⟩
  have hrun := fun f => bfsLoop_steps hT hG null hr hq f _ h2
  have hsome : ∀ fuel, vs.length + 1 ≤ fuel → bfs G (discoveredFlag.fst logger) (fun _ => false) null fuel us (flags, []) =
      some (after (discoveredFlag.fst logger) (initAll (discoveredFlag.fst logger) G.vertices (flags, []))
        (srcEvents us ++ l1 ++ [.searchFinish null])) := by
    intro fuel hf
    obtain ⟨k, rfl⟩ : ∃ k, fuel = us.length + (discs l1).length + (k + 1) :=
      ⟨fuel - us.length - (discs l1).length - 1, by omega⟩
    unfold bfs
    rw [h1]
    simp only [List.nil_append]
    rw [hrun, bfsLoop, after_append, after_append]
    rfl
  refine ⟨fun fuel => ⟨fun h => ?_, fun h => ?_⟩, fun fuel flags' l h => ?_, fun fuel => ⟨bfsWidth_fst _ _ _ _ _, fun r n h => ?_⟩⟩
  · by_contra hlt
    have hle : fuel ≤ us.length + (discs l1).length + 0 := by omega
    unfold bfs at h
    rw [h1] at h
    simp only [List.nil_append] at h
    obtain ⟨r, hl⟩ := Option.isSome_iff_exists.mp h
    have := bfsLoop_mono (fun _ => false) null _ _ hle _ _ _ hl
    rw [hrun] at this
    cases this
  · rw [hsome fuel h]; rfl
  · have h2 := bfs_det _ _ _ _ _ _ _ _ (hsome _ le_rfl) h
    rw [initAll_snd _ (fun _ _ => rfl), after_fst, fold_logger _ _ f1.no_init, List.nil_append] at h2
    simp only [Prod.mk.injEq] at h2
    have hsrc : (srcEvents us : List (Event V E)).length = 2 * us.length := by
      clear * -
      induction us with
      | nil => rfl
      | cons u us ih =>
        rw [show (srcEvents (u :: us) : List (Event V E)) = .searchStart u :: .discover u :: srcEvents us from rfl]
        simp only [List.length_cons, ih]; omega
    rw [← h2.2]
    simp only [List.length_append, List.length_cons, List.length_nil, hsrc, hc2, hc1, hlen, hdeg]
    omega
  · unfold bfsWidth at h
    rw [h1] at h
    simp only [List.nil_append] at h
    exact bfsLoopWidth_run hT hG null hr hq fuel _ h2 vs.length (by omega) _ _ h

/-- Five vertices can be reached from 3, eight edges leave them. -/
example : (dfsFrom sample (discoveredFlag.fst logger) (fun _ => false) 13 3 (fun _ => false, [])).map (fun r => r.2.length) =
      some 29 ∧
    (dfsFrom sample (discoveredFlag.fst logger) (fun _ => false) 12 3 (fun _ => false, [])).isNone := by decide +kernel

example : (visitDepth sample (discoveredFlag.fst logger) (fun _ => false) 13 3
    (initAll (discoveredFlag.fst logger) sample.vertices (fun _ => false, []))).map Prod.snd = some 2 := by decide +kernel

example : (bfs sample (discoveredFlag.fst logger) (fun _ => false) 99 6 [3] (fun _ => false, [])).map (fun r => r.2.length) =
      some 29 ∧
    (bfs sample (discoveredFlag.fst logger) (fun _ => false) 99 5 [3] (fun _ => false, [])).isNone ∧
    (bfsWidth sample (discoveredFlag.fst logger) (fun _ => false) 99 6 [3] (fun _ => false, [])).map Prod.snd = some 2 := by
  decide +kernel

end Actl.Traversal
