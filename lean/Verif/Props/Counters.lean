import Verif.Props.Linear

/-!
C114: the numbers kept by the components of the searches do not exceed the number of vertices, at every
moment, so that `int` suffices for fewer than 2^31 vertices.

`after c s l` is the state of a component after a list of events; the claims are about every prefix
of the events of a search.
-/

namespace Actl.Traversal

variable {σ V E : Type} {G : Graph V E} {c : Comp σ V E} [DecidableEq V]

/-! ### Lemmas -/

omit [DecidableEq V] in
theorem prefix_cons_cases {ev : Event V E} {l l' : List (Event V E)} (h : l' <+: ev :: l) :
    l' = [] ∨ ∃ l'', l' = ev :: l'' ∧ l'' <+: l := by
  cases l' with
  | nil => exact Or.inl rfl
  | cons x l'' =>
    obtain ⟨h1, h2⟩ := List.cons_prefix_cons.mp h
    exact Or.inr ⟨l'', by rw [h1], h2⟩

/-- Distances along a story. -/
theorem Story.dist_bound {R : V → Prop} {D : Set V} {l : List (Event V E)} (h : Story G R D l) (d : V → Int) (n : Int)
    (hn : 0 ≤ n) (h1 : ∀ v ∈ D, 0 ≤ d v ∧ d v < n) (h2 : ∀ v, v ∈ G.vertices → v ∉ D → d v = -1) (l' : List (Event V E))
    (hl : l' <+: l) (v : V) (hv : v ∈ G.vertices) :
    -1 ≤ after (distanceRecorder G) d l' v ∧ after (distanceRecorder G) d l' v < n + (discs l).length := by
  have base : ∀ {D : Set V} {d : V → Int} {n : Int}, 0 ≤ n → (∀ v ∈ D, 0 ≤ d v ∧ d v < n) →
      (∀ v, v ∈ G.vertices → v ∉ D → d v = -1) → ∀ k : Nat, -1 ≤ d v ∧ d v < n + k := by
    intro D d n hn h1 h2 k
    by_cases hd : v ∈ D
    · have := h1 v hd; omega
    · have := h2 v hv hd; omega
  have new : ∀ {D : Set V} {d : V → Int} {n : Int} (w : V) (x : Int), (∀ v ∈ D, 0 ≤ d v ∧ d v < n) →
      (∀ v, v ∈ G.vertices → v ∉ D → d v = -1) → 0 ≤ x → x < n + 1 →
      (∀ v ∈ (insert w D : Set V), 0 ≤ put d w x v ∧ put d w x v < n + 1) ∧
      (∀ v, v ∈ G.vertices → v ∉ (insert w D : Set V) → put d w x v = -1) := by
    intro D d n w x h1 h2 hx hx'
    constructor
    · intro v hv
      by_cases h : v = w
      · simp [put, h, hx, hx']
      · have := h1 v (Set.mem_of_mem_insert_of_ne hv h)
        simp only [put, h, if_false]
        omega
    · intro v hv hd
      have h : v ≠ w := fun h => hd (by rw [h]; exact Set.mem_insert _ _)
      simp only [put, h, if_false]
      exact h2 v hv (fun h => hd (Set.mem_insert_of_mem _ h))
  induction h generalizing d n l' with
  | nil D =>
    rw [List.prefix_nil.mp hl]
    exact base hn h1 h2 _
  | @root D u l hR h r ih =>
    obtain ⟨n1, n2⟩ := new u 0 h1 h2 le_rfl (by omega)
    have hlen : (discs (.searchStart u :: .discover u :: l)).length = (discs l).length + 1 := by simp
    rw [hlen]
    rcases prefix_cons_cases hl with rfl | ⟨l2, rfl, hl2⟩
    · exact base hn h1 h2 _
    rcases prefix_cons_cases hl2 with rfl | ⟨l3, rfl, hl3⟩
    · have := base (by omega) n1 n2 (discs l).length
      simp only [after_cons, after_nil]
      show -1 ≤ put d u 0 v ∧ put d u 0 v < _
      omega
    · have := ih (put d u 0) (n + 1) (by omega) n1 n2 l3 hl3
      simp only [after_cons]
      show -1 ≤ after (distanceRecorder G) (put d u 0) l3 v ∧ after (distanceRecorder G) (put d u 0) l3 v < _
      omega
  | @tree D e l he hs ht r ih =>
    have hsrc := h1 _ hs
    obtain ⟨n1, n2⟩ := new (G.tgt e) (d (G.src e) + 1) h1 h2 (by omega) (by omega)
    have hlen : (discs (.treeStart e :: .discover (G.tgt e) :: l)).length = (discs l).length + 1 := by simp
    rw [hlen]
    rcases prefix_cons_cases hl with rfl | ⟨l2, rfl, hl2⟩
    · exact base hn h1 h2 _
    rcases prefix_cons_cases hl2 with rfl | ⟨l3, rfl, hl3⟩
    · have := base (by omega) n1 n2 (discs l).length
      simp only [after_cons, after_nil]
      show -1 ≤ put d (G.tgt e) (d (G.src e) + 1) v ∧ put d (G.tgt e) (d (G.src e) + 1) v < _
      omega
    · have := ih (put d (G.tgt e) (d (G.src e) + 1)) (n + 1) (by omega) n1 n2 l3 hl3
      simp only [after_cons]
      show -1 ≤ after (distanceRecorder G) (put d (G.tgt e) (d (G.src e) + 1)) l3 v ∧
        after (distanceRecorder G) (put d (G.tgt e) (d (G.src e) + 1)) l3 v < _
      omega
  | nonTree _ _ _ r ih | treeFinish _ _ r ih | start _ r ih | finish _ r ih | searchFinish r ih =>
    rcases prefix_cons_cases hl with rfl | ⟨l2, rfl, hl2⟩
    · exact base hn h1 h2 _
    · simpa [after_cons, distanceRecorder] using ih d n hn h1 h2 l2 hl2

/-- Times after any events. -/
theorem stamps_after (s : Stamps V) (l : List (Event V E)) (hl : ∀ u, Event.init u ∉ l) :
    (after (timeStamper (-1) : Comp _ V E) s l).now = s.now + (starts l).length ∧
    ∀ v, (after (timeStamper (-1) : Comp _ V E) s l).inTime v = s.inTime v ∨
      s.now ≤ (after (timeStamper (-1) : Comp _ V E) s l).inTime v ∧
        (after (timeStamper (-1) : Comp _ V E) s l).inTime v < s.now + (starts l).length := by
  induction l generalizing s with
  | nil => exact ⟨by simp [after_nil], fun v => Or.inl rfl⟩
  | cons ev l ih =>
    have hl' : ∀ u, Event.init u ∉ l := fun u hu => hl u (List.mem_cons_of_mem _ hu)
    rw [after_cons]
    cases ev with
    | init u => exact absurd List.mem_cons_self (hl u)
    | start u =>
      obtain ⟨h1, h2⟩ := ih ((timeStamper (-1) : Comp _ V E).on (.start u) s) hl'
      rw [starts_start, List.length_cons]
      refine ⟨by rw [h1]; show s.now + 1 + _ = _; omega, fun v => ?_⟩
      rcases h2 v with h2 | h2
      · rw [h2]
        show put s.inTime u s.now v = _ ∨ _ ≤ put s.inTime u s.now v ∧ put s.inTime u s.now v < _
        by_cases hv : v = u
        · right; simp only [put, hv, if_true]; omega
        · left; simp [put, hv]
      · right
        have e : ((timeStamper (-1) : Comp _ V E).on (.start u) s).now = s.now + 1 := rfl
        rw [e] at h2
        omega
    | finish u =>
      obtain ⟨h1, h2⟩ := ih ((timeStamper (-1) : Comp _ V E).on (.finish u) s) hl'
      rw [starts_finish]
      exact ⟨h1, h2⟩
    | _ =>
      obtain ⟨h1, h2⟩ := ih s hl'
      simp only [starts_discover, starts_treeStart, starts_nonTree, starts_treeFinish, starts_searchStart,
        starts_searchFinish]
      exact ⟨h1, h2⟩

theorem stamps_after_out (s : Stamps V) (l : List (Event V E)) (hl : ∀ u, Event.init u ∉ l) (v : V) :
    (after (timeStamper (-1) : Comp _ V E) s l).outTime v = s.outTime v ∨
      s.now ≤ (after (timeStamper (-1) : Comp _ V E) s l).outTime v ∧
        (after (timeStamper (-1) : Comp _ V E) s l).outTime v ≤ s.now + (starts l).length := by
  induction l generalizing s with
  | nil => exact Or.inl rfl
  | cons ev l ih =>
    have hl' : ∀ u, Event.init u ∉ l := fun u hu => hl u (List.mem_cons_of_mem _ hu)
    rw [after_cons]
    cases ev with
    | init u => exact absurd List.mem_cons_self (hl u)
    | start u =>
      rw [starts_start, List.length_cons]
      rcases ih ((timeStamper (-1) : Comp _ V E).on (.start u) s) hl' with h | h
      · exact Or.inl h
      · right
        have e : ((timeStamper (-1) : Comp _ V E).on (.start u) s).now = s.now + 1 := rfl
        rw [e] at h
        omega
    | finish u =>
      rw [starts_finish]
      rcases ih ((timeStamper (-1) : Comp _ V E).on (.finish u) s) hl' with h | h
      · rw [h]
        show put s.outTime u s.now v = _ ∨ _ ≤ put s.outTime u s.now v ∧ put s.outTime u s.now v ≤ _
        by_cases hv : v = u
        · right; simp [put, hv]
        · left; simp [put, hv]
      · exact Or.inr h
    | _ =>
      simp only [starts_discover, starts_treeStart, starts_nonTree, starts_treeFinish, starts_searchStart,
        starts_searchFinish]
      exact ih s hl'

/-- The searches finished. -/
def searchFinishes (l : List (Event V E)) : Nat :=
  (l.filter (fun ev => match ev with | .searchFinish _ => true | _ => false)).length

/-- Component numbers after any events. -/
theorem comps_after (s : (V → Int) × Int) (l : List (Event V E)) (hl : ∀ u, Event.init u ∉ l) :
    (after (componentRecorder : Comp _ V E) s l).2 = s.2 + searchFinishes l ∧
    ∀ v, (after (componentRecorder : Comp _ V E) s l).1 v = s.1 v ∨
      s.2 ≤ (after (componentRecorder : Comp _ V E) s l).1 v ∧
        (after (componentRecorder : Comp _ V E) s l).1 v ≤ s.2 + searchFinishes l := by
  induction l generalizing s with
  | nil => exact ⟨by simp [after_nil, searchFinishes], fun v => Or.inl rfl⟩
  | cons ev l ih =>
    have hl' : ∀ u, Event.init u ∉ l := fun u hu => hl u (List.mem_cons_of_mem _ hu)
    rw [after_cons]
    cases ev with
    | init u => exact absurd List.mem_cons_self (hl u)
    | searchFinish u =>
      obtain ⟨h1, h2⟩ := ih ((componentRecorder : Comp _ V E).on (.searchFinish u) s) hl'
      have hc : searchFinishes (.searchFinish u :: l) = searchFinishes l + 1 := by simp [searchFinishes]
      have e : ((componentRecorder : Comp _ V E).on (.searchFinish u) s).2 = s.2 + 1 := rfl
      rw [hc, h1, e]
      refine ⟨by omega, fun v => ?_⟩
      rcases h2 v with h2 | h2
      · exact Or.inl h2
      · rw [e] at h2
        right; omega
    | discover u =>
      obtain ⟨h1, h2⟩ := ih ((componentRecorder : Comp _ V E).on (.discover u) s) hl'
      have hc : searchFinishes (.discover u :: l) = searchFinishes l := by simp [searchFinishes]
      rw [hc]
      refine ⟨h1, fun v => ?_⟩
      rcases h2 v with h2 | h2
      · rw [h2]
        show put s.1 u s.2 v = _ ∨ _ ≤ put s.1 u s.2 v ∧ put s.1 u s.2 v ≤ _
        by_cases hv : v = u
        · right; simp [put, hv]
        · left; simp [put, hv]
      · exact Or.inr h2
    | _ =>
      obtain ⟨h1, h2⟩ := ih s hl'
      exact ⟨h1, h2⟩

/-! ### C114 -/

/-- Distances recorded by breadth-first search. -/
theorem bfs_distances_fit (hG : G.WF) (null : V) (us : List V) (hus : ∀ u ∈ us, u ∈ G.vertices) (hn : us.Nodup)
    (d0 : V → Int) (fuel : Nat) (d : V → Int) (l : List (Event V E))
    (h : bfs G ((distanceRecorder G).fst logger) (fun _ => false) null fuel us (d0, []) = some (d, l)) :
    d = after (distanceRecorder G) (initAll (distanceRecorder G) G.vertices d0) l ∧
    ∀ l', l' <+: l → ∀ v ∈ G.vertices,
      -1 ≤ after (distanceRecorder G) (initAll (distanceRecorder G) G.vertices d0) l' v ∧
      after (distanceRecorder G) (initAll (distanceRecorder G) G.vertices d0) l' v < G.vertices.length := by
  obtain ⟨l1, D', hr, hi, fuel', hf⟩ := bfs_ref (dist_tracksB.fst logger) hG null us hus hn (d0, [])
    (by rw [initAll_fst]; exact dist_init d0)
  obtain ⟨f1, f2, f3, f4, f5, f6, f7⟩ := hr.facts hG hus hn null
  have h2 := bfs_det _ _ _ _ _ _ _ _ hf h
  rw [initAll_snd _ (fun _ _ => rfl), after_fst, fold_logger _ _ f1.no_init, List.nil_append] at h2
  simp only [Prod.mk.injEq] at h2
  obtain ⟨h2, rfl⟩ := h2
  refine ⟨h2.symm, fun l' hl v hv => ?_⟩
  have hd := dist_init (G := G) d0
  have hb := f1.dist_bound _ 0 le_rfl (fun v hv => absurd hv (Set.notMem_empty v)) hd.2 l' hl v hv
  have hsub : (discs (srcEvents us ++ l1 ++ [.searchFinish null])).length ≤ G.vertices.length := by
    refine (List.subperm_of_subset f3 fun v hv => ?_).length_le
    obtain ⟨u, hu, hr⟩ := (f4 v).mp hv
    clear * - hr hu hus hG
    induction hr with
    | refl => exact hus _ hu
    | tail _ hadj ih => obtain ⟨e, he, rfl⟩ := hadj; exact hG.tgt _ ih e he
  omega

/-- Distances recorded by depth-first search. -/
theorem dfsAll_distances_fit (hG : G.WF) (d0 : V → Int) (fuel : Nat) (d : V → Int) (l : List (Event V E))
    (h : dfsAll G ((distanceRecorder G).fst logger) (fun _ => false) fuel (d0, []) = some (d, l)) :
    d = after (distanceRecorder G) (initAll (distanceRecorder G) G.vertices d0) l ∧
    ∀ l', l' <+: l → ∀ v ∈ G.vertices,
      -1 ≤ after (distanceRecorder G) (initAll (distanceRecorder G) G.vertices d0) l' v ∧
      after (distanceRecorder G) (initAll (distanceRecorder G) G.vertices d0) l' v < G.vertices.length := by
  obtain ⟨hva, h2, -, hex⟩ := (dfsAll_explores_of_tracks dist_tracks hG d0 (dist_init d0)).2 _ _ _ h
  refine ⟨h2, fun l' hl v hv => ?_⟩
  have hst := hva.story hG (fun _ h => h) (fun _ => True) (fun _ _ => trivial)
  have hb := hst.dist_bound _ 0 le_rfl (fun v hv => absurd hv (Set.notMem_empty v)) (dist_init (G := G) d0).2 l' hl v hv
  have hperm : (discs l).Perm G.vertices := (List.perm_ext_iff_of_nodup hex.once hG.nodup).mpr hex.exactly
  rw [hperm.length_eq] at hb
  omega

/-- Times recorded by depth-first search from time zero: entry times are below the number of vertices, the
clock and the exit times do not exceed it. -/
theorem dfsAll_times_fit (hG : G.WF) (in0 out0 : V → Int) (fuel : Nat) (t : Stamps V) (l : List (Event V E))
    (h : dfsAll G ((timeStamper (-1)).fst logger) (fun _ => false) fuel (⟨in0, out0, 0⟩, []) = some (t, l)) :
    t = after (timeStamper (-1)) (initAll (timeStamper (-1) : Comp _ V E) G.vertices ⟨in0, out0, 0⟩) l ∧
    t.now = G.vertices.length ∧
    ∀ l', l' <+: l → ∀ x, x = after (timeStamper (-1)) (initAll (timeStamper (-1) : Comp _ V E) G.vertices ⟨in0, out0, 0⟩) l' →
      0 ≤ x.now ∧ x.now ≤ G.vertices.length ∧
      (∀ v ∈ G.vertices, -1 ≤ x.inTime v ∧ x.inTime v < G.vertices.length) ∧
      ∀ v, x.outTime v = out0 v ∨ 0 ≤ x.outTime v ∧ x.outTime v ≤ G.vertices.length := by
  obtain ⟨hva, h2, -, hex⟩ := (dfsAll_explores_of_tracks stamp_tracks hG _ (stamp_init ⟨in0, out0, 0⟩ le_rfl)).2 _ _ _ h
  have hinit : (initAll (timeStamper (-1) : Comp _ V E) G.vertices ⟨in0, out0, 0⟩).now = 0 ∧
      (initAll (timeStamper (-1) : Comp _ V E) G.vertices ⟨in0, out0, 0⟩).outTime = out0 :=
    initAll_of (timeStamper (-1) : Comp _ V E) (fun s => s.now = 0 ∧ s.outTime = out0) (fun _ _ h => h) _ _ ⟨rfl, rfl⟩
  have hin : ∀ v ∈ G.vertices, (initAll (timeStamper (-1) : Comp _ V E) G.vertices ⟨in0, out0, 0⟩).inTime v = -1 := by
    intro v hv
    have := initAll_put (timeStamper (-1) : Comp _ V E) (fun s => s.inTime) (-1) (fun _ _ => rfl) G.vertices ⟨in0, out0, 0⟩ v
    rwa [if_pos hv] at this
  have hperm : (starts l).Perm G.vertices := by
    rw [hex.starts_eq]; exact (List.perm_ext_iff_of_nodup hex.once hG.nodup).mpr hex.exactly
  refine ⟨h2, ?_, ?_⟩
  · rw [h2, (stamps_after _ l hva.no_init).1, hinit.1, hperm.length_eq]; omega
  · rintro l' ⟨b, rfl⟩ x rfl
    have hno : ∀ u, Event.init u ∉ l' := fun u hu => hva.no_init u (List.mem_append_left _ hu)
    obtain ⟨h3, h4⟩ := stamps_after (initAll (timeStamper (-1) : Comp _ V E) G.vertices ⟨in0, out0, 0⟩) l' hno
    have h5 := stamps_after_out (initAll (timeStamper (-1) : Comp _ V E) G.vertices ⟨in0, out0, 0⟩) l' hno
    have hlen : (starts l').length ≤ G.vertices.length := by
      rw [← hperm.length_eq, starts_append, List.length_append]; omega
    rw [hinit.1] at h3 h4
    refine ⟨by omega, by omega, fun v hv => ?_, fun v => ?_⟩
    · rcases h4 v with h | h
      · rw [h, hin v hv]; omega
      · omega
    · rcases h5 v with h | h
      · exact Or.inl (by rw [h, hinit.2])
      · rw [hinit.1] at h; right; omega

/-- Component numbers and their count do not exceed the number of vertices. -/
theorem dfsAll_components_fit (hG : G.WF) (m0 : V → Int) (fuel : Nat) (m : (V → Int) × Int) (l : List (Event V E))
    (h : dfsAll G (componentRecorder.fst logger) (fun _ => false) fuel ((m0, 0), []) = some (m, l)) :
    m = after componentRecorder (initAll (componentRecorder : Comp _ V E) G.vertices (m0, 0)) l ∧
    ∀ l', l' <+: l → ∀ x, x = after componentRecorder (initAll (componentRecorder : Comp _ V E) G.vertices (m0, 0)) l' →
      0 ≤ x.2 ∧ x.2 ≤ G.vertices.length ∧
      ∀ v ∈ G.vertices, -1 ≤ x.1 v ∧ x.1 v ≤ G.vertices.length := by
  obtain ⟨hva, h2, -, hex⟩ := (dfsAll_explores_of_tracks comp_tracks hG _ (comp_init (m0, 0) le_rfl)).2 _ _ _ h
  have hinit : (initAll (componentRecorder : Comp _ V E) G.vertices (m0, 0)).2 = 0 :=
    initAll_of (componentRecorder : Comp _ V E) (fun s => s.2 = 0) (fun _ _ h => h) _ _ rfl
  have hin : ∀ v ∈ G.vertices, (initAll (componentRecorder : Comp _ V E) G.vertices (m0, 0)).1 v = -1 := by
    intro v hv
    have := initAll_put (componentRecorder : Comp _ V E) (fun s => s.1) (-1) (fun _ _ => rfl) G.vertices (m0, 0) v
    rwa [if_pos hv] at this
  have hfin : ∀ {D D' : Set V} {us : List V} {l : List (Event V E)}, VisitAll G D us l D' →
      searchFinishes l ≤ (discs l).length := by
    have hrun : ∀ {D D' : Set V} {es : List E} {l : List (Event V E)}, Run G D es l D' → searchFinishes l = 0 := by
      intro D D' es l hr
      induction hr with
      | nil D => rfl
      | skip h r ih => simpa [searchFinishes] using ih
      | tree h r1 r2 ih1 ih2 =>
        simp only [searchFinishes, List.filter_append, List.length_append] at ih1 ih2 ⊢
        simp [ih1, ih2]
    intro D D' us l hva
    induction hva with
    | nil D => simp [searchFinishes]
    | skip h r ih => exact ih
    | visit h hv r ih =>
      obtain ⟨l1, hr, rfl⟩ := hv
      have := hrun hr
      simp only [searchFinishes, List.filter_append, List.length_append] at this ih ⊢
      simp [this]
      omega
  have hperm : (discs l).Perm G.vertices := (List.perm_ext_iff_of_nodup hex.once hG.nodup).mpr hex.exactly
  have hall := hfin hva
  rw [hperm.length_eq] at hall
  refine ⟨h2, ?_⟩
  rintro l' ⟨b, rfl⟩ x rfl
  have hno : ∀ u, Event.init u ∉ l' := fun u hu => hva.no_init u (List.mem_append_left _ hu)
  obtain ⟨h3, h4⟩ := comps_after (initAll (componentRecorder : Comp _ V E) G.vertices (m0, 0)) l' hno
  have hlen : searchFinishes l' ≤ searchFinishes (l' ++ b) := by simp [searchFinishes]
  rw [hinit] at h3 h4
  refine ⟨by omega, by omega, fun v hv => ?_⟩
  rcases h4 v with h | h
  · rw [h, hin v hv]; omega
  · omega

/-- The graph of the examples: the clock reaches five, the number of its vertices. -/
example : (dfsAll sample ((timeStamper (-1)).fst logger) (fun _ => false) 20 (⟨fun _ => 9, fun _ => 9, 0⟩, [])).map
    (fun r => (r.1.now, sample.vertices.map r.1.inTime, sample.vertices.map r.1.outTime)) =
    some (5, [0, 1, 2, 3, 4], [3, 2, 3, 5, 5]) := by decide +kernel

example : (dfsAll sample ((distanceRecorder sample).fst logger) (fun _ => false) 20 (fun _ => 9, [])).map
    (fun r => sample.vertices.map r.1) = some [0, 1, 1, 0, 1] := by decide +kernel

example : (dfsAll sample (componentRecorder.fst logger) (fun _ => false) 20 ((fun _ => 9, 0), [])).map
    (fun r => (r.1.2, sample.vertices.map r.1.1)) = some (2, [0, 0, 0, 1, 1]) := by decide +kernel

end Actl.Traversal
