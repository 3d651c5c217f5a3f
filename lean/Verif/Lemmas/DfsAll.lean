import Verif.Lemmas.DfsFacts
import Verif.Model.Recorders

/-!
The search of the whole graph; components that track the discovered vertices.
-/

namespace Actl.Traversal

variable {σ τ V E : Type} {G : Graph V E} {c : Comp σ V E}

/-! ### Fuel -/

theorem loop_mono (term : V → Bool) (n m : Nat) (hnm : n ≤ m) (u : V) (es : List E) (st : List (V × List E)) (s : σ)
    (r : σ × V) (h : loop G c term n u es st s = some r) : loop G c term m u es st s = some r := by
  induction n generalizing m u es st s with
  | zero => cases h
  | succ n ih =>
    obtain ⟨m, rfl⟩ : ∃ k, m = k + 1 := ⟨m - 1, by omega⟩
    cases es with
    | nil =>
      cases st with
      | nil => exact h
      | cons f st =>
        obtain ⟨u', es'⟩ := f
        cases es' with
        | nil => cases h
        | cons e es' => exact ih m (by omega) _ _ _ _ h
    | cons e es =>
      rw [loop] at h ⊢
      by_cases hd : c.disc s (G.tgt e) = true
      · rw [if_pos hd] at h ⊢; exact ih m (by omega) _ _ _ _ h
      · rw [if_neg hd] at h ⊢
        by_cases ht : term (G.tgt e) = true
        · simp only [ht, if_true] at h ⊢; exact h
        · simp only [ht, if_false, Bool.false_eq_true] at h ⊢
          exact ih m (by omega) _ _ _ _ h

theorem visit_mono (term : V → Bool) (n m : Nat) (hnm : n ≤ m) (u : V) (s t : σ)
    (h : visit G c term n u s = some t) : visit G c term m u s = some t := by
  unfold visit at h ⊢
  by_cases ht : term u = true
  · simp only [ht, if_true] at h ⊢; exact h
  · simp only [ht, if_false, Bool.false_eq_true] at h ⊢
    cases hl : loop G c term n u (G.out u) [] (c.on (.start u) (c.on (.discover u) (c.on (.searchStart u) s))) with
    | none => rw [hl] at h; cases h
    | some r => rw [loop_mono term n m hnm _ _ _ _ _ hl]; rw [hl] at h; exact h

theorem visitAll_mono (term : V → Bool) (n m : Nat) (hnm : n ≤ m) (us : List V) (s t : σ)
    (h : visitAll G c term n us s = some t) : visitAll G c term m us s = some t := by
  induction us generalizing s with
  | nil => exact h
  | cons u us ih =>
    rw [visitAll] at h ⊢
    split
    · rename_i hd
      rw [if_pos hd] at h
      cases hv : visit G c term n u s with
      | none => rw [hv] at h; cases h
      | some s' => rw [visit_mono term n m hnm _ _ _ hv]; rw [hv] at h; exact ih _ h
    · rename_i hd
      rw [if_neg hd] at h
      exact ih _ h

/-- The result does not depend on the fuel. -/
theorem dfsAll_det (term : V → Bool) (n m : Nat) (s t t' : σ) (h : dfsAll G c term n s = some t)
    (h' : dfsAll G c term m s = some t') : t = t' := by
  unfold dfsAll at h h'
  have h1 := visitAll_mono term n (max n m) (Nat.le_max_left _ _) _ _ _ h
  have h2 := visitAll_mono term m (max n m) (Nat.le_max_right _ _) _ _ _ h'
  rw [h1] at h2
  injection h2

theorem dfsFrom_det (term : V → Bool) (n m : Nat) (u : V) (s t t' : σ) (h : dfsFrom G c term n u s = some t)
    (h' : dfsFrom G c term m u s = some t') : t = t' := by
  unfold dfsFrom at h h'
  have h1 := visit_mono term n (max n m) (Nat.le_max_left _ _) _ _ _ h
  have h2 := visit_mono term m (max n m) (Nat.le_max_right _ _) _ _ _ h'
  rw [h1] at h2
  injection h2

/-! ### Searches follow the reference -/

theorem dfsFrom_ref {I : σ → Set V → Prop} (hT : Tracks G c I) (hG : G.WF) (u : V) (hu : u ∈ G.vertices) (s : σ)
    (hI : I (initAll c G.vertices s) ∅) :
    ∃ l D', Visit G ∅ u l D' ∧ I (after c (initAll c G.vertices s) l) D' ∧
      ∃ fuel, dfsFrom G c (fun _ => false) fuel u s = some (after c (initAll c G.vertices s) l) := by
  obtain ⟨l, D', hv, ⟨fuel, hf⟩, hi⟩ := visit_of_ref hT hG (fun _ => false) (initAll c G.vertices s) hI hu
    (Set.notMem_empty u)
  rw [cut_false] at hf hi
  exact ⟨l, D', hv, hi rfl, fuel, hf⟩

theorem visitAll_ref {I : σ → Set V → Prop} (hT : Tracks G c I) (hG : G.WF) (us : List V)
    (hus : ∀ u ∈ us, u ∈ G.vertices) (D : Set V) (s : σ) (hI : I s D) :
    ∃ l D', VisitAll G D us l D' ∧ I (after c s l) D' ∧
      ∃ fuel, visitAll G c (fun _ => false) fuel us s = some (after c s l) := by
  induction us generalizing D s with
  | nil => exact ⟨[], D, .nil D, hI, 0, rfl⟩
  | cons u us ih =>
    have hu := hus u List.mem_cons_self
    have hus' : ∀ u ∈ us, u ∈ G.vertices := fun v hv => hus v (List.mem_cons_of_mem _ hv)
    by_cases hd : u ∈ D
    · obtain ⟨l, D', h1, h2, fuel, h3⟩ := ih hus' D s hI
      refine ⟨l, D', .skip hd h1, h2, fuel, ?_⟩
      rw [visitAll, if_neg (by simpa using (hT.disc s D u hI hu).mpr hd), h3]
    · obtain ⟨l1, D1, hv, ⟨f1, hf1⟩, hi⟩ := visit_of_ref hT hG (fun _ => false) s hI hu hd
      rw [cut_false] at hf1 hi
      obtain ⟨l2, D2, h1, h2, f2, h3⟩ := ih hus' D1 _ (hi rfl)
      refine ⟨l1 ++ l2, D2, .visit hd hv h1, by rw [after_append]; exact h2, max f1 f2, ?_⟩
      have hdf : c.disc s u = false := by
        rw [← Bool.not_eq_true]
        exact fun h => hd ((hT.disc s D u hI hu).mp h)
      rw [visitAll, if_pos (by rw [hdf]; rfl), visit_mono _ f1 _ (Nat.le_max_left _ _) _ _ _ hf1]
      simp only
      rw [after_append]
      exact visitAll_mono _ f2 _ (Nat.le_max_right _ _) _ _ _ h3

theorem dfsAll_ref {I : σ → Set V → Prop} (hT : Tracks G c I) (hG : G.WF) (s : σ)
    (hI : I (initAll c G.vertices s) ∅) :
    ∃ l D', VisitAll G ∅ G.vertices l D' ∧ I (after c (initAll c G.vertices s) l) D' ∧
      ∃ fuel, dfsAll G c (fun _ => false) fuel s = some (after c (initAll c G.vertices s) l) :=
  visitAll_ref hT hG G.vertices (fun _ h => h) ∅ _ hI

/-! ### Several components -/

theorem initAll_fst (b : Event V E → τ → τ) (vs : List V) (s : σ × τ) :
    (initAll (c.fst b) vs s).1 = initAll c vs s.1 := by
  induction vs generalizing s with
  | nil => rfl
  | cons v vs ih => rw [initAll, initAll, ih]; rfl

theorem after_fst (b : Event V E → τ → τ) (l : List (Event V E)) (s : σ × τ) :
    after (c.fst b) s l = (after c s.1 l, l.foldl (fun t ev => b ev t) s.2) := by
  induction l generalizing s with
  | nil => rfl
  | cons ev l ih => rw [after_cons, ih, after_cons]; rfl

theorem Tracks.fst {I : σ → Set V → Prop} (hT : Tracks G c I) (b : Event V E → τ → τ) :
    Tracks G (c.fst b) (fun s D => I s.1 D) where
  disc s D v := hT.disc s.1 D v
  nonTree s D e := hT.nonTree s.1 D e
  treeFinish s D e := hT.treeFinish s.1 D e
  finish s D e := hT.finish s.1 D e
  searchFinish s D e := hT.searchFinish s.1 D e
  enterTree s D e := hT.enterTree s.1 D e
  enterRoot s D e := hT.enterRoot s.1 D e

/-- The listener keeps its state while the vertices are initialized. -/
theorem initAll_snd (b : Event V E → τ → τ) (hb : ∀ v t, b (.init v) t = t) (vs : List V) (s : σ × τ) :
    initAll (c.fst b) vs s = (initAll c vs s.1, s.2) := by
  induction vs generalizing s with
  | nil => rfl
  | cons v vs ih =>
    rw [initAll, initAll, ih]
    show (initAll c vs (c.on (.init v) s.1), b (.init v) s.2) = _
    rw [hb]

/-- Runs have no initialization events. -/
theorem Run.no_init {D D' : Set V} {es : List E} {l : List (Event V E)} (h : Run G D es l D') (v : V) :
    Event.init v ∉ l := by
  induction h with
  | nil D => simp
  | skip h r ih => simp [ih]
  | tree h r1 r2 ih1 ih2 => simp [ih1, ih2]

theorem Visit.no_init {D D' : Set V} {u : V} {l : List (Event V E)} (h : Visit G D u l D') (v : V) :
    Event.init v ∉ l := by
  obtain ⟨l1, hr, rfl⟩ := h
  simp [hr.no_init v]

theorem VisitAll.no_init {D D' : Set V} {us : List V} {l : List (Event V E)} (h : VisitAll G D us l D') (v : V) :
    Event.init v ∉ l := by
  induction h with
  | nil D => simp
  | skip h r ih => exact ih
  | visit h hv r ih => simp [ih, hv.no_init v]

theorem fold_logger (l l0 : List (Event V E)) (h : ∀ v, Event.init v ∉ l) :
    l.foldl (fun t ev => logger ev t) l0 = l0 ++ l := by
  induction l generalizing l0 with
  | nil => simp
  | cons ev l ih =>
    rw [List.foldl_cons, ih _ (fun v hv => h v (List.mem_cons_of_mem _ hv))]
    cases ev with
    | init v => exact absurd List.mem_cons_self (h v)
    | _ => simp [logger]

/-! ### Facts on the search of several sources -/

variable {D D' : Set V} {us : List V} {l : List (Event V E)}

theorem VisitAll.one {u : V} (h : Visit G D u l D') (hu : u ∉ D) : VisitAll G D [u] l D' := by
  have := VisitAll.visit hu h (.nil D')
  rwa [List.append_nil] at this

theorem Visit.subset {u : V} (h : Visit G D u l D') : D ⊆ D' := by
  obtain ⟨l1, hr, rfl⟩ := h
  exact fun x hx => hr.subset (Set.mem_insert_of_mem _ hx)

theorem VisitAll.subset (h : VisitAll G D us l D') : D ⊆ D' := by
  induction h with
  | nil D => exact subset_rfl
  | skip h r ih => exact ih
  | visit h hv r ih => exact hv.subset.trans ih

theorem Visit.starts_eq {u : V} (h : Visit G D u l D') : starts l = discs l := by
  obtain ⟨l1, hr, rfl⟩ := h
  simp [hr.starts_eq]

theorem VisitAll.starts_eq (h : VisitAll G D us l D') : starts l = discs l := by
  induction h with
  | nil D => rfl
  | skip h r ih => exact ih
  | visit h hv r ih => simp [hv.starts_eq, ih]

theorem Visit.finishes_perm {u : V} (h : Visit G D u l D') : (finishes l).Perm (discs l) := by
  obtain ⟨l1, hr, rfl⟩ := h
  simp only [finishes_append, finishes_searchStart, finishes_discover, finishes_start, finishes_finish,
    finishes_searchFinish, finishes_nil, discs_append, discs_searchStart, discs_discover, discs_start,
    discs_finish, discs_searchFinish, discs_nil, List.append_nil, List.nil_append]
  exact (List.perm_append_comm).trans (List.Perm.cons _ hr.finishes_perm)

theorem VisitAll.finishes_perm (h : VisitAll G D us l D') : (finishes l).Perm (discs l) := by
  induction h with
  | nil D => simp
  | skip h r ih => exact ih
  | visit h hv r ih => simpa using List.Perm.append hv.finishes_perm ih

theorem Visit.discs_spec {u : V} (hu : u ∉ D) (h : Visit G D u l D') :
    (discs l).Nodup ∧ ∀ v, v ∈ discs l ↔ v ∈ D' ∧ v ∉ D := by
  obtain ⟨l1, hr, rfl⟩ := h
  obtain ⟨h1, h2⟩ := hr.discs_spec
  simp only [discs_append, discs_searchStart, discs_discover, discs_start,
    discs_finish, discs_searchFinish, discs_nil, List.append_nil, List.singleton_append]
  refine ⟨List.nodup_cons.mpr ⟨fun h => ((h2 u).mp h).2 (Set.mem_insert _ _), h1⟩, fun v => ?_⟩
  rw [List.mem_cons, h2]
  constructor
  · rintro (rfl | ⟨h3, h4⟩)
    · exact ⟨hr.subset (Set.mem_insert _ _), hu⟩
    · exact ⟨h3, fun h => h4 (Set.mem_insert_of_mem _ h)⟩
  · rintro ⟨h3, h4⟩
    by_cases hvu : v = u
    · exact Or.inl hvu
    · exact Or.inr ⟨h3, fun h => by
        rcases Set.mem_insert_iff.mp h with h | h
        · exact hvu h
        · exact h4 h⟩

theorem VisitAll.discs_spec (h : VisitAll G D us l D') :
    (discs l).Nodup ∧ ∀ v, v ∈ discs l ↔ v ∈ D' ∧ v ∉ D := by
  induction h with
  | nil D => exact ⟨by simp, fun v => by simp⟩
  | skip h r ih => exact ih
  | @visit D D1 D2 u us l1 l2 h hv r ih =>
    obtain ⟨a1, a2⟩ := hv.discs_spec h
    have s1 := hv.subset
    have s2 := r.subset
    rw [discs_append]
    refine ⟨List.nodup_append'.mpr ⟨a1, ih.1, fun v h1 h2 => ((ih.2 v).mp h2).2 ((a2 v).mp h1).1⟩, fun v => ?_⟩
    rw [List.mem_append, a2, ih.2]
    constructor
    · rintro (⟨h1, h2⟩ | ⟨h1, h2⟩)
      · exact ⟨s2 h1, h2⟩
      · exact ⟨h1, fun h => h2 (s1 h)⟩
    · rintro ⟨h1, h2⟩
      by_cases h3 : v ∈ D1
      · exact Or.inl ⟨h3, h2⟩
      · exact Or.inr ⟨h1, h3⟩

theorem VisitAll.mem (h : VisitAll G D us l D') (u : V) (hu : u ∈ us) : u ∈ D' := by
  induction h with
  | nil D => cases hu
  | skip h r ih =>
    rcases List.mem_cons.mp hu with rfl | hu
    · exact r.subset h
    · exact ih hu
  | visit h hv r ih =>
    rcases List.mem_cons.mp hu with rfl | hu
    · obtain ⟨l1, hr, rfl⟩ := hv
      exact r.subset (hr.subset (Set.mem_insert _ _))
    · exact ih hu

theorem VisitAll.reach (h : VisitAll G D us l D') (v : V) (h1 : v ∈ D') (h2 : v ∉ D) : ∃ u ∈ us, G.Reach u v := by
  induction h with
  | nil D => exact absurd h1 h2
  | skip h r ih =>
    obtain ⟨u, hu, hr⟩ := ih h1 h2
    exact ⟨u, List.mem_cons_of_mem _ hu, hr⟩
  | @visit D D1 D2 u us l1 l2 h hv r ih =>
    by_cases h3 : v ∈ D1
    · obtain ⟨l1, hr, rfl⟩ := hv
      refine ⟨u, List.mem_cons_self, ?_⟩
      by_cases hvu : v = u
      · rw [hvu]; exact Relation.ReflTransGen.refl
      · obtain ⟨e, he, hre⟩ := hr.reach v h3 (fun h => by
          rcases Set.mem_insert_iff.mp h with h | h
          · exact hvu h
          · exact h2 h)
        exact Relation.ReflTransGen.head ⟨e, he, rfl⟩ hre
    · obtain ⟨u', hu', hr⟩ := ih h1 h3
      exact ⟨u', List.mem_cons_of_mem _ hu', hr⟩

theorem VisitAll.closed (h : VisitAll G D us l D') : ∀ v ∈ D', v ∉ D → ∀ e ∈ G.out v, G.tgt e ∈ D' := by
  induction h with
  | nil D => exact fun v h1 h2 => absurd h1 h2
  | skip h r ih => exact ih
  | @visit D D1 D2 u us l1 l2 h hv r ih =>
    intro v h1 h2 e he
    by_cases h3 : v ∈ D1
    · obtain ⟨l1, hr, rfl⟩ := hv
      apply r.subset
      by_cases hvu : v = u
      · subst hvu; exact hr.closed.1 e he
      · exact hr.closed.2 v h3 (fun h => by
          rcases Set.mem_insert_iff.mp h with h | h
          · exact hvu h
          · exact h2 h) e he
    · exact ih v h1 h3 e he

/-- From no discovered vertices, exactly the vertices reachable from the sources are discovered. -/
theorem VisitAll.mem_iff (h : VisitAll G ∅ us l D') (v : V) : v ∈ D' ↔ ∃ u ∈ us, G.Reach u v := by
  constructor
  · intro hv; exact h.reach v hv (Set.notMem_empty v)
  · rintro ⟨u, hu, hr⟩
    have := h.mem u hu
    induction hr with
    | refl => exact this
    | tail _ hadj ih => obtain ⟨e, he, rfl⟩ := hadj; exact h.closed _ ih (Set.notMem_empty _) e he

theorem VisitAll.examined_spec [DecidableEq V] (hG : G.WF) (h : VisitAll G D us l D')
    (hus : ∀ u ∈ us, u ∈ G.vertices) (v : V) :
    (v ∈ D' → v ∉ D → (examined l).filter (fun e => G.src e = v) = G.out v) ∧
    (v ∈ D ∨ v ∉ D' → (examined l).filter (fun e => G.src e = v) = []) := by
  induction h with
  | nil D => exact ⟨fun h1 h2 => absurd h1 h2, fun _ => rfl⟩
  | skip h r ih => exact ih (fun u hu => hus u (List.mem_cons_of_mem _ hu))
  | @visit D D1 D2 u us l1 l2 h hv r ih =>
    obtain ⟨i1, i2⟩ := ih (fun u hu => hus u (List.mem_cons_of_mem _ hu))
    have s1 := hv.subset
    have s2 := r.subset
    obtain ⟨l1, hr, rfl⟩ := hv
    have hu := hus u List.mem_cons_self
    have huD1 : u ∈ D1 := hr.subset (Set.mem_insert _ _)
    obtain ⟨a1, a2⟩ := hr.examined_spec hG (fun e he => ⟨hG.tgt u hu e he, by rw [hG.src u hu e he]; exact Set.mem_insert _ _⟩) v
    have hself : (G.out u).filter (fun e' => G.src e' = u) = G.out u :=
      List.filter_eq_self.mpr (fun e' he' => by simpa using hG.src _ hu e' he')
    have hother : ∀ w, w ≠ u → (G.out u).filter (fun e' => G.src e' = w) = [] := fun w hw =>
      List.filter_eq_nil_iff.mpr (fun e' he' => by
        simp only [decide_eq_true_eq]; rw [hG.src _ hu e' he']; exact fun h => hw h.symm)
    simp only [examined_append, examined_searchStart, examined_discover, examined_start, examined_finish,
      examined_searchFinish, examined_nil, List.nil_append, List.append_nil, List.filter_append]
    refine ⟨fun h1 h2 => ?_, fun h1 => ?_⟩
    · by_cases h3 : v ∈ D1
      · rw [i2 (Or.inl h3), List.append_nil]
        by_cases hvu : v = u
        · subst hvu; rw [a2 (Or.inl (Set.mem_insert _ _)), hself]
        · exact a1 h3 (fun h => by
            rcases Set.mem_insert_iff.mp h with h | h
            · exact hvu h
            · exact h2 h)
      · rw [i1 h1 h3, a2 (Or.inr h3), hother v (fun h => h3 (by rw [h]; exact huD1)), List.nil_append]
    · have hvu : v ≠ u := by
        rintro rfl
        rcases h1 with h1 | h1
        · exact h h1
        · exact h1 (s2 huD1)
      rw [i2, List.append_nil, a2, hother v hvu]
      · rcases h1 with h1 | h1
        · exact Or.inl (Set.mem_insert_of_mem _ h1)
        · exact Or.inr (fun h => h1 (s2 h))
      · rcases h1 with h1 | h1
        · exact Or.inl (s1 h1)
        · exact Or.inr h1

/-- The part of the events between the start and the finish of a vertex is a run over its
out-edges. -/
theorem VisitAll.block (h : VisitAll G D us l D') (v : V) (h1 : v ∈ D') (h2 : v ∉ D) :
    ∃ a b c Dv Dv', l = a ++ .discover v :: .start v :: b ++ .finish v :: c ∧ Run G Dv (G.out v) b Dv' ∧
      v ∈ Dv ∧ D ⊆ Dv ∧ Dv' ⊆ D' ∧ ∀ x ∈ Dv, x ∈ D ∨ x = v ∨ Event.start x ∈ a := by
  induction h with
  | nil D => exact absurd h1 h2
  | skip h r ih => exact ih h1 h2
  | @visit D D1 D2 u us l1 l2 h hv r ih =>
    have s1 := hv.subset
    have s2 := r.subset
    by_cases h3 : v ∈ D1
    · obtain ⟨l1, hr, rfl⟩ := hv
      by_cases hvu : v = u
      · subst hvu
        refine ⟨[.searchStart v], l1, .searchFinish v :: l2, _, _, by simp, hr, Set.mem_insert _ _,
          fun x hx => Set.mem_insert_of_mem _ hx, s2, fun x hx => ?_⟩
        rcases Set.mem_insert_iff.mp hx with hx | hx
        · exact Or.inr (Or.inl hx)
        · exact Or.inl hx
      · obtain ⟨a, b, c, Dv, Dv', rfl, hr', hv', hs, hs', hx⟩ := hr.block v h3 (fun h => by
          rcases Set.mem_insert_iff.mp h with h | h
          · exact hvu h
          · exact h2 h)
        refine ⟨[.searchStart u, .discover u, .start u] ++ a, b, c ++ [.finish u, .searchFinish u] ++ l2, Dv, Dv',
          by simp, hr', hv', fun x hx => hs (Set.mem_insert_of_mem _ hx), hs'.trans s2, fun x hxx => ?_⟩
        rcases hx x hxx with h | h | h
        · rcases Set.mem_insert_iff.mp h with h | h
          · subst h; exact Or.inr (Or.inr (by simp))
          · exact Or.inl h
        · exact Or.inr (Or.inl h)
        · exact Or.inr (Or.inr (List.mem_append_right _ h))
    · obtain ⟨a, b, c, Dv, Dv', rfl, hr', hv', hs, hs', hx⟩ := ih h1 h3
      refine ⟨l1 ++ a, b, c, Dv, Dv', by simp, hr', hv', s1.trans hs, hs', fun x hxx => ?_⟩
      rcases hx x hxx with hx | hx | hx
      · by_cases hxD : x ∈ D
        · exact Or.inl hxD
        · have : x ∈ discs l1 := ((hv.discs_spec h).2 x).mpr ⟨hx, hxD⟩
          rw [← hv.starts_eq, mem_starts] at this
          exact Or.inr (Or.inr (List.mem_append_left _ this))
      · exact Or.inr (Or.inl hx)
      · exact Or.inr (Or.inr (List.mem_append_right _ hx))

/-! ### Events in order -/

/-- The events make sense: edges are examined from discovered vertices, tree edges lead to new
vertices and non-tree edges to discovered ones; vertices are discovered where a search starts or at
the end of a tree edge, once. -/
def Legal (G : Graph V E) : Set V → List (Event V E) → Prop
  | _, [] => True
  | D, .treeStart e :: l => G.src e ∈ D ∧ G.tgt e ∉ D ∧ (∃ l', l = .discover (G.tgt e) :: l') ∧ Legal G D l
  | D, .nonTree e :: l => G.src e ∈ D ∧ G.tgt e ∈ D ∧ Legal G D l
  | D, .searchStart u :: l => u ∉ D ∧ (∃ l', l = .discover u :: l') ∧ Legal G D l
  | D, .discover v :: l => v ∉ D ∧ Legal G (insert v D) l
  | D, _ :: l => Legal G D l

theorem Story.append {G : Graph V E} {R : V → Prop} {D : Set V} {l l' : List (Event V E)} (h : Story G R D l)
    (h' : Story G R (D ∪ {v | v ∈ discs l}) l') : Story G R D (l ++ l') := by
  have ins : ∀ (D : Set V) (v : V) (m : List (Event V E)),
      D ∪ {x | x ∈ v :: discs m} = insert v D ∪ {x | x ∈ discs m} := by
    intro D v m
    ext x
    simp only [Set.mem_union, Set.mem_insert_iff, Set.mem_setOf_eq, List.mem_cons]
    tauto
  induction h with
  | nil D => simpa using h'
  | root hR h r ih =>
    simp only [discs_searchStart, discs_discover, ins] at h'
    exact .root hR h (ih h')
  | tree he hs ht r ih =>
    simp only [discs_treeStart, discs_discover, ins] at h'
    exact .tree he hs ht (ih h')
  | nonTree he hs ht r ih => exact .nonTree he hs ht (ih (by simpa using h'))
  | treeFinish hs ht r ih => exact .treeFinish hs ht (ih (by simpa using h'))
  | start h r ih => exact .start h (ih (by simpa using h'))
  | finish h r ih => exact .finish h (ih (by simpa using h'))
  | searchFinish r ih => exact .searchFinish (ih (by simpa using h'))

theorem Story.legal {R : V → Prop} (h : Story G R D l) : Legal G D l := by
  induction h with
  | nil D => trivial
  | root hR h r ih => exact ⟨h, ⟨_, rfl⟩, h, ih⟩
  | tree he hs ht r ih => exact ⟨hs, ht, ⟨_, rfl⟩, ht, ih⟩
  | nonTree he hs ht r ih => exact ⟨hs, ht, ih⟩
  | treeFinish hs ht r ih => exact ih
  | start h r ih => exact ih
  | finish h r ih => exact ih
  | searchFinish r ih => exact ih

theorem union_discs {D D' : Set V} {l : List (Event V E)} (hs : D ⊆ D') (h : ∀ v, v ∈ discs l ↔ v ∈ D' ∧ v ∉ D) :
    D ∪ {v | v ∈ discs l} = D' := by
  ext x
  simp only [Set.mem_union, Set.mem_setOf_eq, h]
  constructor
  · rintro (hx | hx)
    · exact hs hx
    · exact hx.1
  · intro hx
    by_cases hD : x ∈ D
    · exact Or.inl hD
    · exact Or.inr ⟨hx, hD⟩

theorem Run.story (hG : G.WF) (R : V → Prop) {es : List E} (h : Run G D es l D')
    (hes : ∀ e ∈ es, G.tgt e ∈ G.vertices ∧ G.src e ∈ D ∧ e ∈ G.out (G.src e)) : Story G R D l := by
  induction h with
  | nil D => exact .nil D
  | skip h r ih =>
    have he := hes _ List.mem_cons_self
    exact .nonTree he.2.2 he.2.1 h (ih (fun e he => hes e (List.mem_cons_of_mem _ he)))
  | @tree D D1 D2 e es l1 l2 h r1 r2 ih1 ih2 =>
    have he := hes e List.mem_cons_self
    have hl1 := ih1 (fun e' he' => by
      rw [hG.src _ he.1 e' he']
      exact ⟨hG.tgt _ he.1 e' he', Set.mem_insert _ _, he'⟩)
    have hl2 := ih2 (fun e' he' => ⟨(hes e' (List.mem_cons_of_mem _ he')).1,
        r1.subset (Set.mem_insert_of_mem _ (hes e' (List.mem_cons_of_mem _ he')).2.1),
        (hes e' (List.mem_cons_of_mem _ he')).2.2⟩)
    rw [List.append_assoc, List.append_assoc]
    refine .tree he.2.2 he.2.1 h (.start (Set.mem_insert _ _) (hl1.append ?_))
    rw [union_discs r1.subset r1.discs_spec.2]
    exact .finish (r1.subset (Set.mem_insert _ _)) (.treeFinish (r1.subset (Set.mem_insert_of_mem _ he.2.1))
      (r1.subset (Set.mem_insert _ _)) hl2)

theorem VisitAll.story (hG : G.WF) (h : VisitAll G D us l D') (hus : ∀ u ∈ us, u ∈ G.vertices) (R : V → Prop)
    (hR : ∀ u ∈ us, R u) : Story G R D l := by
  induction h with
  | nil D => exact .nil D
  | skip h r ih =>
    exact ih (fun u hu => hus u (List.mem_cons_of_mem _ hu)) (fun u hu => hR u (List.mem_cons_of_mem _ hu))
  | @visit D D1 D2 u us l1 l2 h hv r ih =>
    refine Story.append ?_ (by
      rw [union_discs hv.subset (hv.discs_spec h).2]
      exact ih (fun u hu => hus u (List.mem_cons_of_mem _ hu)) (fun u hu => hR u (List.mem_cons_of_mem _ hu)))
    have hu := hus u List.mem_cons_self
    obtain ⟨l1, hr, rfl⟩ := hv
    refine .root (hR u List.mem_cons_self) h (.start (Set.mem_insert _ _) ?_)
    refine (hr.story hG R (fun e he => ?_)).append ?_
    · rw [hG.src u hu e he]
      exact ⟨hG.tgt u hu e he, Set.mem_insert _ _, he⟩
    · rw [union_discs hr.subset hr.discs_spec.2]
      exact .finish (hr.subset (Set.mem_insert _ _)) (.searchFinish (.nil _))

theorem VisitAll.legal (hG : G.WF) (h : VisitAll G D us l D') (hus : ∀ u ∈ us, u ∈ G.vertices) : Legal G D l :=
  (h.story hG hus (fun _ => True) (fun _ _ => trivial)).legal

end Actl.Traversal
