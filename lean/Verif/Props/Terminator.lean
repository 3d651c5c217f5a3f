import Verif.Lemmas.Terminator

/-!
C112: searching for a vertex.  Breadth-first and depth-first search with a terminator.
-/

namespace Actl.Traversal

variable {σ τ V E : Type} {G : Graph V E} {c : Comp σ V E} [DecidableEq V]

/-- Breadth-first search for a vertex, with predecessors and distances.  It ends.  If a vertex that
satisfies the predicate can be reached from a source, then the search ends at such a vertex `w`, the
last vertex discovered and the only one discovered that satisfies the predicate; no vertex that
satisfies it is closer to the sources; the recorded distance of `w` is its distance `n`, and `n`
predecessors lead back along edges to a source, past no other vertex that satisfies the predicate.
The events before that are those of the search without predicate.  Otherwise the search ends with
the null vertex after discovering all that can be reached. -/
theorem bfs_finds (hG : G.WF) (term : V → Bool) (null : V) (us : List V) (hus : ∀ u ∈ us, u ∈ G.vertices)
    (hn : us.Nodup) (p0 : V → Option V) (d0 : V → Int) :
    (∃ fuel r, bfs G ((predecessorRecorder G).fst ((distanceRecorder G).fst logger).on) term null fuel us (p0, d0, []) =
      some r) ∧
    ∀ fuel p d l, bfs G ((predecessorRecorder G).fst ((distanceRecorder G).fst logger).on) term null fuel us
        (p0, d0, []) = some (p, d, l) →
      (discs l).Nodup ∧
      ((∃ v, term v = true ∧ ∃ u ∈ us, G.Reach u v) →
        ∃ w a, ∃ n : Nat, l = a ++ [.discover w, .searchFinish w] ∧
          term w = true ∧ (∀ v ∈ discs a, term v = false) ∧
          (∀ v, term v = true → ∀ u ∈ us, ∀ m, G.Walk m u v → n ≤ m) ∧
          d w = n ∧ G.IsDist us w n ∧
          (∃ r ∈ us, follow p n w = some r) ∧
          (∀ k < n, ∃ x y, follow p k w = some x ∧ p x = some y ∧ x ≠ y ∧ G.Adj y x) ∧
          (∀ k x, 0 < k → k ≤ n → follow p k w = some x → term x = false) ∧
          ∀ fuel' p' d' l', bfs G ((predecessorRecorder G).fst ((distanceRecorder G).fst logger).on) (fun _ => false)
            null fuel' us (p0, d0, []) = some (p', d', l') → ∃ b, l' = a ++ .discover w :: b) ∧
      ((¬∃ v, term v = true ∧ ∃ u ∈ us, G.Reach u v) →
        (∃ a, l = a ++ [.searchFinish null]) ∧ ∀ v, v ∈ discs l ↔ ∃ u ∈ us, G.Reach u v) := by
  obtain ⟨l1, D', hr⟩ := BRun.exists hG {v | v ∈ us} us hus
  have hT := (pred_tracksB (G := G)).fst ((distanceRecorder G).fst logger).on
  have hI : PredI G (initAll ((predecessorRecorder G).fst ((distanceRecorder G).fst logger).on) G.vertices
      (p0, d0, [])).1 ∅ := by rw [initAll_fst]; exact pred_init p0
  have hinit : initAll ((predecessorRecorder G).fst ((distanceRecorder G).fst logger).on) G.vertices (p0, d0, []) =
      (initAll (predecessorRecorder G) G.vertices p0, initAll (distanceRecorder G) G.vertices d0, []) := by
    rw [initAll_pair, initAll_snd _ (fun _ _ => rfl)]
  have hafter : ∀ m : List (Event V E), (∀ u, Event.init u ∉ m) →
      after ((predecessorRecorder G).fst ((distanceRecorder G).fst logger).on)
        (initAll ((predecessorRecorder G).fst ((distanceRecorder G).fst logger).on) G.vertices (p0, d0, [])) m =
      (after (predecessorRecorder G) (initAll (predecessorRecorder G) G.vertices p0) m,
        after (distanceRecorder G) (initAll (distanceRecorder G) G.vertices d0) m, m) := by
    intro m hm
    rw [hinit, after_fst]
    refine Prod.ext rfl ?_
    show after ((distanceRecorder G).fst logger) (initAll (distanceRecorder G) G.vertices d0, []) m = _
    rw [after_fst, fold_logger _ _ hm, List.nil_append]
  obtain ⟨fuel, hf⟩ := bfs_stop hT hG term null us hus hn (p0, d0, []) hI hr
  refine ⟨⟨fuel, _, hf⟩, fun fuel' p d l h => ?_⟩
  have hres := bfs_det _ _ _ _ _ _ _ _ hf h
  obtain ⟨f1, f2, f3, f4, f5, f6, f7⟩ := hr.facts hG hus hn null
  have hnoinit : ∀ u, Event.init u ∉ srcEvents us ++ l1 := fun u hu =>
    f1.no_init u (List.mem_append_left _ hu)
  cases hc : (bcut term (srcEvents us ++ l1)).2 with
  | none =>
    rw [hc] at hres
    simp only at hres
    rw [hafter _ f1.no_init] at hres
    simp only [Prod.mk.injEq] at hres
    obtain ⟨-, -, rfl⟩ := hres
    have hno := (bcut_none _ _ hc).2
    refine ⟨f3, fun ⟨v, hv, hvr⟩ => ?_, fun _ => ⟨⟨_, rfl⟩, f4⟩⟩
    have hm := (f4 v).mpr hvr
    rw [discs_append, discs_searchFinish, discs_nil, List.append_nil] at hm
    rw [hno v hm] at hv
    cases hv
  | some w =>
    rw [hc] at hres
    simp only at hres
    obtain ⟨a, b, h1, h2, h3, h4⟩ := bcut_some _ _ _ hc
    rw [h1] at hres
    have hnoa : ∀ u, Event.init u ∉ a ++ [.discover w] ++ [.searchFinish w] := by
      intro u hu
      simp only [List.append_assoc, List.mem_append, List.mem_cons, reduceCtorEq, List.not_mem_nil, or_false] at hu
      exact hnoinit u (by rw [h2]; exact List.mem_append_left _ hu)
    rw [hafter _ hnoa] at hres
    simp only [Prod.mk.injEq] at hres
    obtain ⟨hp, hd, rfl⟩ := hres
    have hdiscs : us ++ discs l1 = discs a ++ w :: discs b := by
      have := congrArg discs h2
      simpa [discs_srcEvents] using this
    have hfull : discs (srcEvents us ++ l1 ++ [.searchFinish null]) = discs a ++ w :: discs b := by
      simp [discs_srcEvents, hdiscs]
    have hwm : ∃ u ∈ us, G.Reach u w := (f4 w).mp (by rw [hfull]; simp)
    have hst0 : Story G (· ∈ us) ∅ (a ++ .discover w :: (b ++ [.searchFinish null])) := by
      have := f1
      rw [h2, List.append_assoc] at this
      simpa using this
    have hstp : Story G (· ∈ us) ∅ (a ++ [.discover w]) := by
      refine Story.take (l' := b ++ [.searchFinish null]) (by simpa using hst0) ?_ ?_ <;> simp
    have hF := hstp.forest (initAll (predecessorRecorder G) G.vertices p0) (initAll (distanceRecorder G) G.vertices d0)
      (Forest.empty _ _)
    have hp' : after (predecessorRecorder G) (initAll (predecessorRecorder G) G.vertices p0) (a ++ [.discover w]) = p := by
      rw [← hp, after_append _ _ (a ++ [_])]; rfl
    have hd' : after (distanceRecorder G) (initAll (distanceRecorder G) G.vertices d0) (a ++ [.discover w]) = d := by
      rw [← hd, after_append _ _ (a ++ [_])]; rfl
    rw [hp', hd', Set.empty_union] at hF
    -- the distances of the whole search
    have hkeep : after (distanceRecorder G) (initAll (distanceRecorder G) G.vertices d0)
        (srcEvents us ++ l1 ++ [.searchFinish null]) w = d w := by
      rw [h2, List.append_assoc, List.cons_append,
        show a ++ .discover w :: (b ++ [.searchFinish null]) = a ++ [.discover w] ++ (b ++ [.searchFinish null]) by simp,
        after_append _ _ (a ++ [_]), hd']
      exact hst0.drop_discover.keep_dist d w (Or.inr rfl)
    obtain ⟨n, hn1, hn2⟩ := hr.isDist hG hus hn null (initAll (distanceRecorder G) G.vertices d0) w hwm
    rw [hkeep] at hn1
    have hsorted := (hr.sorted hG (fun u hu => ⟨hus u hu, hu⟩)
      (after (distanceRecorder G) (initAll (distanceRecorder G) G.vertices d0) (srcEvents us))
      (List.pairwise_of_forall_mem_list (fun x hx y hy => by rw [dist_srcEvents us _ x hx, dist_srcEvents us _ y hy]))
      (fun v hv x hx => by rw [dist_srcEvents us _ v hv, dist_srcEvents us _ x hx]; omega)).1
    rw [hdiscs, List.pairwise_append, List.pairwise_cons] at hsorted
    have hall : after (distanceRecorder G) (initAll (distanceRecorder G) G.vertices d0)
        (srcEvents us ++ l1 ++ [.searchFinish null]) =
        after (distanceRecorder G) (after (distanceRecorder G) (initAll (distanceRecorder G) G.vertices d0) (srcEvents us)) l1 := by
      rw [after_append, after_append]; rfl
    have hwF : w ∈ {v | v ∈ discs (a ++ [Event.discover w] : List (Event V E))} := by simp
    obtain ⟨⟨r, _, hR, _, hfo⟩, hk⟩ := hF.path n w hwF hn1
    refine ⟨?_, fun _ => ⟨w, a, n, by simp, h3, h4, ?_, hn1, hn2, ⟨r, hR, hfo⟩, hk, ?_, ?_⟩, fun hno => ?_⟩
    · rw [hfull] at f3
      have : discs (a ++ [.discover w] ++ [.searchFinish w]) = discs a ++ [w] := by simp
      rw [this]
      refine f3.sublist ?_
      simp
    · intro v hv u hu m hW
      have hvr : ∃ u ∈ us, G.Reach u v := by
        refine ⟨u, hu, ?_⟩
        clear * - hW
        induction hW with
        | nil u => exact Relation.ReflTransGen.refl
        | snoc _ hadj ih => exact Relation.ReflTransGen.tail ih hadj
      obtain ⟨k, hk1, hk2⟩ := hr.isDist hG hus hn null (initAll (distanceRecorder G) G.vertices d0) v hvr
      have hkm := hk2.2 m u hu hW
      have hvm := (f4 v).mpr hvr
      rw [hfull, List.mem_append, List.mem_cons] at hvm
      rcases hvm with hvm | rfl | hvm
      · rw [h4 v hvm] at hv; cases hv
      · rw [hkeep] at hk1; omega
      · have := hsorted.2.1.1 v hvm
        rw [← hall, hkeep, hk1, hn1] at this
        omega
    · intro k x hk0 hkn hx
      obtain ⟨hxm, hxd⟩ := hF.follow_mem n w hwF hn1 k hkn x hx
      simp only [discs_append, discs_discover, discs_nil, Set.mem_setOf_eq, List.mem_append, List.mem_singleton] at hxm
      rcases hxm with hxm | rfl
      · exact h4 x hxm
      · omega
    · intro fuel' p' d' l' h'
      obtain ⟨fuel2, hf2⟩ := bfs_stop hT hG (fun _ => false) null us hus hn (p0, d0, []) hI hr
      have h5 := bfs_det _ _ _ _ _ _ _ _ hf2 h'
      rw [bcut_false] at h5
      simp only at h5
      rw [hafter _ f1.no_init] at h5
      simp only [Prod.mk.injEq] at h5
      exact ⟨b ++ [.searchFinish null], by rw [← h5.2.2, h2]; simp⟩
    · exact absurd ⟨w, h3, hwm⟩ hno

/-- Depth-first search for a vertex from a source, with predecessors.  It ends.  If a vertex that
satisfies the predicate can be reached, then the search ends at such a vertex `w`, the last vertex
discovered and started and the only one discovered that satisfies the predicate; the predecessors
lead from it back along edges to the source, past no other vertex that satisfies the predicate; the
events before that are those of the search without predicate.  Otherwise the search ends at the
source after discovering all that can be reached. -/
theorem dfsFrom_finds (hG : G.WF) (term : V → Bool) (s : V) (hs : s ∈ G.vertices) (p0 : V → Option V) :
    (∃ fuel r, dfsFrom G ((predecessorRecorder G).fst logger) term fuel s (p0, []) = some r) ∧
    ∀ fuel p l, dfsFrom G ((predecessorRecorder G).fst logger) term fuel s (p0, []) = some (p, l) →
      (discs l).Nodup ∧
      ((∃ v, term v = true ∧ G.Reach s v) →
        ∃ w a, l = a ++ [.discover w, .start w, .searchFinish w] ∧ G.Reach s w ∧
          term w = true ∧ (∀ v ∈ discs a, term v = false) ∧
          (∃ n : Nat, follow p n w = some s ∧
            (∀ k < n, ∃ x y, follow p k w = some x ∧ p x = some y ∧ x ≠ y ∧ G.Adj y x) ∧
            (∀ k x, 0 < k → k ≤ n → follow p k w = some x → term x = false)) ∧
          ∀ fuel' p' l', dfsFrom G ((predecessorRecorder G).fst logger) (fun _ => false) fuel' s (p0, []) =
            some (p', l') → ∃ b, l' = a ++ .discover w :: .start w :: b) ∧
      ((¬∃ v, term v = true ∧ G.Reach s v) →
        (∃ a, l = a ++ [.searchFinish s]) ∧ ∀ v, v ∈ discs l ↔ G.Reach s v) := by
  have hT := (pred_tracks (G := G)).fst (logger (V := V) (E := E))
  have hI : PredI G (initAll ((predecessorRecorder G).fst logger) G.vertices (p0, [])).1 ∅ := by
    rw [initAll_fst]; exact pred_init p0
  have hinit : initAll ((predecessorRecorder G).fst logger) G.vertices (p0, []) =
      (initAll (predecessorRecorder G) G.vertices p0, []) := initAll_snd _ (fun _ _ => rfl) _ _
  have hafter : ∀ m : List (Event V E), (∀ u, Event.init u ∉ m) →
      after ((predecessorRecorder G).fst logger) (initAll ((predecessorRecorder G).fst logger) G.vertices (p0, [])) m =
      (after (predecessorRecorder G) (initAll (predecessorRecorder G) G.vertices p0) m, m) := by
    intro m hm
    rw [hinit, after_fst, fold_logger _ _ hm, List.nil_append]
  obtain ⟨l0, D', hv, fuel, hf⟩ := dfsFrom_terminates hT hG term s hs (p0, []) hI
  refine ⟨⟨fuel, _, hf⟩, fun fuel' p l h => ?_⟩
  have hres := dfsFrom_det _ _ _ _ _ _ _ hf h
  have hva := VisitAll.one hv (Set.notMem_empty s)
  have hst := hva.story hG (fun w hw => by rw [List.mem_singleton.mp hw]; exact hs) (· = s)
    (fun w hw => List.mem_singleton.mp hw)
  have hmem : ∀ v, v ∈ discs l0 ↔ G.Reach s v := by
    intro v; rw [hva.discs_spec.2, hva.mem_iff]; simp
  have hse := hva.starts_eq
  cases hc : (cut term l0).2 with
  | none =>
    rw [hc] at hres
    simp only at hres
    rw [hafter _ hst.no_init] at hres
    simp only [Prod.mk.injEq] at hres
    obtain ⟨-, rfl⟩ := hres
    have hno := cut_none _ _ hc
    refine ⟨hva.discs_spec.1, fun ⟨v, hv1, hv2⟩ => ?_, fun _ => ⟨?_, hmem⟩⟩
    · have := hno v (by rw [hse]; exact (hmem v).mpr hv2)
      rw [this] at hv1
      cases hv1
    · obtain ⟨l1, _, rfl⟩ := hv
      exact ⟨[.searchStart s, .discover s, .start s] ++ l1 ++ [.finish s], by simp⟩
  | some w =>
    rw [hc] at hres
    simp only at hres
    obtain ⟨a', b, h1, h2, h3, h4⟩ := cut_some _ _ _ hc
    -- the terminator is discovered just before
    have hw0 : G.Reach s w := (hmem w).mp (by rw [← hse, h2]; simp)
    obtain ⟨a, rfl⟩ : ∃ a, a' = a ++ [.discover w] := by
      have hex := hva.explores hG (fun w hw => by rw [List.mem_singleton.mp hw]; exact hs)
      obtain ⟨x, y, z, hxyz⟩ := hex.order w ⟨s, List.mem_singleton_self s, hw0⟩
      have hn1 : (starts l0).Nodup := by rw [hse]; exact hva.discs_spec.1
      have e1 : x ++ .discover w :: .start w :: y ++ .finish w :: z = x ++ [.discover w] ++ .start w :: (y ++ .finish w :: z) := by
        simp
      rw [e1, h2] at hxyz
      have hnw1 : Event.start w ∉ a' := fun hm => by
        rw [h2, starts_append, starts_start, List.nodup_append'] at hn1
        exact hn1.2.2 (mem_starts.mpr hm) List.mem_cons_self
      have hnw2 : Event.start w ∉ x ++ [.discover w] := fun hm => by
        rw [h2, hxyz, starts_append, starts_start, List.nodup_append'] at hn1
        exact hn1.2.2 (mem_starts.mpr hm) List.mem_cons_self
      refine ⟨x, ?_⟩
      rcases List.append_eq_append_iff.mp hxyz with ⟨t, ht1, ht2⟩ | ⟨t, ht1, ht2⟩
      · cases t with
        | nil => rw [ht1]; simp
        | cons ev t =>
          simp only [List.cons_append, List.cons.injEq] at ht2
          exact absurd (by rw [ht1, ht2.1]; simp) hnw2
      · cases t with
        | nil => simpa using ht1
        | cons ev t =>
          simp only [List.cons_append, List.cons.injEq] at ht2
          exact absurd (by rw [ht1, ht2.1]; simp) hnw1
    have h4' : ∀ v ∈ discs a, term v = false := by
      intro v hv
      have hvD : v ∈ discs l0 := by rw [h2]; simp [hv]
      have hn := hva.discs_spec.1
      have hne : v ≠ w := by
        rintro rfl
        rw [h2] at hn
        simp only [discs_append, discs_discover, discs_nil, List.append_assoc, List.nodup_append'] at hn
        exact hn.2.2 hv (by simp)
      have hnext := Visit.nextStart ‹Visit G ∅ s l0 D'›
      rw [h2] at hnext
      rcases hnext.before (v := v) (by simp [hv]) with h | h
      · exact h4 v h
      · exact absurd h.1 hne
    have hstp : Story G (· = s) ∅ (a ++ [.discover w] ++ [.start w]) := by
      refine Story.take (l' := b) (by rw [List.append_assoc _ [_] b, List.singleton_append, ← h2]; exact hst) ?_ ?_ <;> simp
    have hnoa : ∀ u, Event.init u ∉ a ++ [.discover w] ++ [.start w] ++ [.searchFinish w] := by
      intro u hu
      rcases List.mem_append.mp hu with hu | hu
      · exact hstp.no_init u hu
      · simp at hu
    have hres' : after ((predecessorRecorder G).fst logger)
        (initAll ((predecessorRecorder G).fst logger) G.vertices (p0, [])) (a ++ [.discover w] ++ [.start w] ++ [.searchFinish w]) =
        (p, l) := by
      rw [after_append, ← h1]; exact hres
    rw [hafter _ hnoa] at hres'
    simp only [Prod.mk.injEq] at hres'
    obtain ⟨hp, rfl⟩ := hres'
    have hF := hstp.forest (initAll (predecessorRecorder G) G.vertices p0) (fun _ => 0) (Forest.empty _ _)
    have hp' : after (predecessorRecorder G) (initAll (predecessorRecorder G) G.vertices p0) (a ++ [.discover w] ++ [.start w]) = p := by
      rw [← hp, after_append _ _ (a ++ [_] ++ [_])]; rfl
    rw [hp', Set.empty_union] at hF
    generalize after (distanceRecorder G) (fun _ => 0) (a ++ [.discover w] ++ [.start w]) = d at hF
    have hwF : w ∈ {v | v ∈ discs (a ++ [.discover w] ++ [.start w] : List (Event V E))} := by simp
    have h0 := hF.nonneg w hwF
    have hdn : d w = ((d w).toNat : Int) := by omega
    obtain ⟨⟨r, _, rfl, _, hfo⟩, hk⟩ := hF.path (d w).toNat w hwF hdn
    refine ⟨?_, fun _ => ⟨w, a, by simp, hw0, h3, h4', ⟨(d w).toNat, hfo, hk, ?_⟩, ?_⟩, fun hno => ?_⟩
    · have hn1 := hva.discs_spec.1
      rw [h2] at hn1
      have : discs (a ++ [.discover w] ++ [.start w] ++ [.searchFinish w]) = discs a ++ [w] := by simp
      rw [this]
      refine hn1.sublist ?_
      simp
    · intro k x hk0 hkn hx
      obtain ⟨hxm, hxd⟩ := hF.follow_mem _ w hwF hdn k hkn x hx
      simp only [discs_append, discs_discover, discs_start, discs_nil, Set.mem_setOf_eq, List.mem_append,
        List.mem_singleton, List.append_nil] at hxm
      rcases hxm with hxm | rfl
      · exact h4' x hxm
      · omega
    · intro fuel' p' l' h'
      obtain ⟨l2, D2, hv2, _, fuel2, hf2⟩ := dfsFrom_ref hT hG r hs (p0, []) hI
      have h5 := dfsFrom_det _ _ _ _ _ _ _ hf2 h'
      rw [hafter _ hv2.no_init] at h5
      simp only [Prod.mk.injEq] at h5
      obtain ⟨m1, hm1, e1⟩ := hv
      obtain ⟨m2, hm2, e2⟩ := hv2
      obtain ⟨rfl, rfl⟩ := hm1.det hm2
      exact ⟨b, by rw [← h5.2, e2, ← e1, h2]; simp⟩
    · exact absurd ⟨w, h3, hw0⟩ hno

/-- Depth-first search of the whole graph with a terminator does not stop at it: it ends, every vertex
is discovered, once, and every vertex that satisfies the predicate ends the search of its tree. -/
theorem dfsAll_terminator (hG : G.WF) (term : V → Bool) (flags : V → Bool) :
    (∃ fuel r, dfsAll G (discoveredFlag.fst logger) term fuel (flags, []) = some r) ∧
    ∀ fuel flags' l, dfsAll G (discoveredFlag.fst logger) term fuel (flags, []) = some (flags', l) →
      (discs l).Nodup ∧ (∀ v, v ∈ discs l ↔ v ∈ G.vertices) ∧ (∀ v ∈ G.vertices, flags' v = true) ∧
      ∀ v ∈ G.vertices, term v = true → Event.searchFinish v ∈ l := by
  have hT := (flag_tracks (G := G)).fst (logger (V := V) (E := E))
  have key : ∀ us : List V, (∀ u ∈ us, u ∈ G.vertices) → ∀ (D : Set V) (s : (V → Bool) × List (Event V E)), FlagI G s.1 D →
      ∃ l fuel, visitAll G (discoveredFlag.fst logger) term fuel us s = some (after (discoveredFlag.fst logger) s l) ∧
        (∀ u, Event.init u ∉ l) ∧ (discs l).Nodup ∧ (∀ v ∈ discs l, v ∉ D ∧ v ∈ G.vertices) ∧
        (∀ u ∈ us, u ∈ D ∨ u ∈ discs l) ∧ ∀ v ∈ discs l, term v = true → Event.searchFinish v ∈ l := by
    intro us
    induction us with
    | nil =>
      intro _ D s _
      exact ⟨[], 0, rfl, by simp, by simp, by simp, by simp, by simp⟩
    | cons u us ih =>
      intro hus D s hI
      have hu := hus u List.mem_cons_self
      have hus' : ∀ u ∈ us, u ∈ G.vertices := fun v hv => hus v (List.mem_cons_of_mem _ hv)
      by_cases hd : u ∈ D
      · obtain ⟨l, fuel, h1, h2, h3, h4, h5, h6⟩ := ih hus' D s hI
        refine ⟨l, fuel, ?_, h2, h3, h4, fun v hv => ?_, h6⟩
        · rw [visitAll, if_neg (by simpa using (hT.disc s D u hI hu).mpr hd), h1]
        · rcases List.mem_cons.mp hv with rfl | hv
          · exact Or.inl hd
          · exact h5 v hv
      · obtain ⟨l0, D0, hv, ⟨f1, hf1⟩, -⟩ := visit_of_ref hT hG term s hI hu hd
        have hdf : (discoveredFlag.fst logger : Comp _ V E).disc s u = false := by
          rw [← Bool.not_eq_true]
          exact fun h => hd ((hT.disc s D u hI hu).mp h)
        have hva := VisitAll.one hv hd
        have hvert : ∀ v ∈ discs l0, v ∈ G.vertices := by
          intro v hv'
          obtain ⟨g1, g2⟩ := (hva.discs_spec.2 v).mp hv'
          obtain ⟨x, hx, hreach⟩ := hva.reach v g1 g2
          rw [List.mem_singleton.mp hx] at hreach
          clear * - hreach hu hG
          induction hreach with
          | refl => exact hu
          | tail _ hadj ih => obtain ⟨e, he, rfl⟩ := hadj; exact hG.tgt _ ih e he
        -- the events of this search
        obtain ⟨l1, hl1, hpre, hsub, huin, hfin⟩ : ∃ l1, visit G (discoveredFlag.fst logger) term f1 u s =
            some (after (discoveredFlag.fst logger) s l1) ∧ (∀ x, Event.init x ∉ l1) ∧ (discs l1).Sublist (discs l0) ∧
            u ∈ discs l1 ∧ ∀ v ∈ discs l1, term v = true → Event.searchFinish v ∈ l1 := by
          have hse : starts l0 = discs l0 := hva.starts_eq
          have hn0 : (discs l0).Nodup := hva.discs_spec.1
          have hu0 : ∃ m, l0 = [.searchStart u, .discover u, .start u] ++ m := by
            obtain ⟨m, _, rfl⟩ := hv
            exact ⟨m ++ [.finish u, .searchFinish u], by simp⟩
          cases hc : (cut term l0).2 with
          | none =>
            rw [hc] at hf1
            refine ⟨l0, hf1, hv.no_init, List.Sublist.refl _, ?_, fun v hv' ht => ?_⟩
            · obtain ⟨m, rfl⟩ := hu0; simp
            · have := cut_none _ _ hc v (by rw [hse]; exact hv')
              rw [this] at ht; cases ht
          | some w =>
            rw [hc] at hf1
            obtain ⟨a, b, h1, h2, h3, h4⟩ := cut_some _ _ _ hc
            rw [h1] at hf1
            refine ⟨a ++ [.start w] ++ [.searchFinish w], by rw [hf1, after_append _ _ (a ++ [_])]; rfl, ?_, ?_, ?_, ?_⟩
            · intro x hx
              simp only [List.append_assoc, List.mem_append, List.mem_cons, reduceCtorEq, List.not_mem_nil, or_false] at hx
              exact hv.no_init x (by rw [h2]; exact List.mem_append_left _ hx)
            · rw [h2]; simp
            · obtain ⟨m, hm⟩ := hu0
              rw [hm] at h2
              cases a with
              | nil => simp at h2
              | cons e1 a =>
                cases a with
                | nil => simp at h2
                | cons e2 a =>
                  simp only [List.cons_append, List.nil_append, List.cons.injEq] at h2
                  rw [← h2.1, ← h2.2.1]; simp
            · intro v hv' ht
              simp only [discs_append, discs_start, discs_searchFinish, discs_nil, List.append_nil] at hv'
              have hnext := hv.nextStart
              rw [h2] at hnext
              rcases hnext.before hv' with h | h
              · rw [h4 v h] at ht; cases ht
              · rw [h.1]; simp
        have hI1 : FlagI G (after (discoveredFlag.fst logger) s l1).1 (D ∪ {v | v ∈ discs l1}) := by
          intro v hv'
          rw [after_fst]
          show after (discoveredFlag : Comp _ V E) s.1 l1 v = true ↔ _
          rw [after_flag _ _ hpre, hI v hv']
          rfl
        obtain ⟨l2, f2, h1, h2, h3, h4, h5, h6⟩ := ih hus' _ _ hI1
        refine ⟨l1 ++ l2, max f1 f2, ?_, ?_, ?_, ?_, ?_, ?_⟩
        · rw [visitAll, if_pos (by rw [hdf]; rfl), visit_mono _ f1 _ (Nat.le_max_left _ _) _ _ _ hl1]
          simp only
          rw [after_append]
          exact visitAll_mono _ f2 _ (Nat.le_max_right _ _) _ _ _ h1
        · intro x hx
          rcases List.mem_append.mp hx with hx | hx
          · exact hpre x hx
          · exact h2 x hx
        · rw [discs_append]
          exact List.nodup_append'.mpr ⟨hva.discs_spec.1.sublist hsub, h3, fun v hv1 hv2 => (h4 v hv2).1 (Or.inr hv1)⟩
        · intro v hv'
          rw [discs_append, List.mem_append] at hv'
          rcases hv' with hv' | hv'
          · exact ⟨((hva.discs_spec.2 v).mp (hsub.subset hv')).2, hvert v (hsub.subset hv')⟩
          · exact ⟨fun h => (h4 v hv').1 (Or.inl h), (h4 v hv').2⟩
        · intro v hv'
          rw [discs_append, List.mem_append]
          rcases List.mem_cons.mp hv' with rfl | hv'
          · exact Or.inr (Or.inl huin)
          · rcases h5 v hv' with (h | h) | h
            · exact Or.inl h
            · exact Or.inr (Or.inl h)
            · exact Or.inr (Or.inr h)
        · intro v hv' ht
          rw [discs_append, List.mem_append] at hv'
          rw [List.mem_append]
          rcases hv' with hv' | hv'
          · exact Or.inl (hfin v hv' ht)
          · exact Or.inr (h6 v hv' ht)
  obtain ⟨l, fuel, h1, h2, h3, h4, h5, h6⟩ := key G.vertices (fun _ h => h) ∅ (initAll (discoveredFlag.fst logger) G.vertices (flags, []))
    (by rw [initAll_fst]; exact flag_init flags)
  refine ⟨⟨fuel, _, h1⟩, fun fuel' flags' l' h => ?_⟩
  have hres := dfsAll_det _ _ _ _ _ _ h1 h
  rw [initAll_snd _ (fun _ _ => rfl), after_fst, fold_logger _ _ h2, List.nil_append] at hres
  simp only [Prod.mk.injEq] at hres
  obtain ⟨hfl, rfl⟩ := hres
  have hall : ∀ v, v ∈ discs l ↔ v ∈ G.vertices := fun v =>
    ⟨fun hv => (h4 v hv).2, fun hv => (h5 v hv).resolve_left (Set.notMem_empty v)⟩
  refine ⟨h3, hall, fun v hv => ?_, fun v hv => h6 v ((hall v).mpr hv)⟩
  rw [← hfl]
  exact (after_flag _ _ h2 v).mpr (Or.inr ((hall v).mpr hv))

/-- Looking for 1 or 2 from 3: 1 is discovered first, at distance two. -/
example : (bfs sample ((predecessorRecorder sample).fst ((distanceRecorder sample).fst logger).on)
      (fun v => v == 1 || v == 2) 99 20 [3] (fun _ => some 7, fun _ => 7, [])).map
      (fun r => (sample.vertices.map r.1, sample.vertices.map r.2.1, r.2.2.drop 12)) =
    some ([some 3, some 0, none, some 3, some 3], [1, 2, -1, 0, 1],
      [.start 0, .treeStart (0, 1), .discover 1, .searchFinish 1]) := by decide +kernel

example : sample.Reach 3 1 :=
  Relation.ReflTransGen.tail (Relation.ReflTransGen.tail Relation.ReflTransGen.refl ⟨(3, 0), by decide, rfl⟩)
    ⟨(0, 1), by decide, rfl⟩

/-- Nothing found. -/
example : (bfs sample ((predecessorRecorder sample).fst ((distanceRecorder sample).fst logger).on)
      (fun v => v == 3) 99 20 [2, 4] (fun _ => some 7, fun _ => 7, [])).map (fun r => (discs r.2.2, r.2.2.getLast?)) =
    some ([2, 4, 1, 0], some (.searchFinish 99)) := by decide +kernel

example : (dfsFrom sample ((predecessorRecorder sample).fst logger) (fun v => v == 1 || v == 2) 20 3
      (fun _ => some 7, [])).map (fun r => (sample.vertices.map r.1, discs r.2, r.2.getLast?)) =
    some ([some 3, some 0, none, some 3, some 3], [3, 4, 0, 1], some (.searchFinish 1)) := by decide +kernel

/-- The search of the whole graph goes on after 1 was found. -/
example : (dfsAll sample (discoveredFlag.fst logger) (fun v => v == 1) 20 (fun _ => true, [])).map
      (fun r => (sample.vertices.map r.1, discs r.2, finishes r.2)) =
    some ([true, true, true, true, true], [0, 1, 2, 3, 4], [2, 4, 3]) := by decide +kernel

end Actl.Traversal
