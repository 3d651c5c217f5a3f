import Verif.Lemmas.Dfs
import Mathlib.Data.List.Nodup
import Mathlib.Data.List.Perm.Basic

/-!
Facts on the reference for depth-first searches.
-/

namespace Actl.Traversal

variable {V E : Type} {G : Graph V E}

theorem rtg_mono {α : Type} {r p : α → α → Prop} {a b : α} (h : ∀ x y, r x y → p x y)
    (hab : Relation.ReflTransGen r a b) : Relation.ReflTransGen p a b := by
  induction hab with
  | refl => exact .refl
  | tail _ h1 ih => exact ih.tail (h _ _ h1)

section Lists

variable (l l' : List (Event V E))

@[simp] theorem discs_append : discs (l ++ l') = discs l ++ discs l' := by unfold discs; rw [List.filterMap_append]
@[simp] theorem starts_append : starts (l ++ l') = starts l ++ starts l' := by unfold starts; rw [List.filterMap_append]
@[simp] theorem finishes_append : finishes (l ++ l') = finishes l ++ finishes l' := by unfold finishes; rw [List.filterMap_append]
@[simp] theorem examined_append : examined (l ++ l') = examined l ++ examined l' := by unfold examined; rw [List.filterMap_append]

@[simp] theorem discs_nil : discs ([] : List (Event V E)) = [] := rfl
@[simp] theorem starts_nil : starts ([] : List (Event V E)) = [] := rfl
@[simp] theorem finishes_nil : finishes ([] : List (Event V E)) = [] := rfl
@[simp] theorem examined_nil : examined ([] : List (Event V E)) = [] := rfl

@[simp] theorem discs_discover (v : V) : discs (.discover v :: l) = v :: discs l := rfl
@[simp] theorem discs_start (v : V) : discs (.start v :: l) = discs l := rfl
@[simp] theorem discs_finish (v : V) : discs (.finish v :: l) = discs l := rfl
@[simp] theorem discs_searchStart (v : V) : discs (.searchStart v :: l) = discs l := rfl
@[simp] theorem discs_searchFinish (v : V) : discs (.searchFinish v :: l) = discs l := rfl
@[simp] theorem discs_init (v : V) : discs (.init v :: l) = discs l := rfl
@[simp] theorem discs_treeStart (e : E) : discs (.treeStart e :: l) = discs l := rfl
@[simp] theorem discs_treeFinish (e : E) : discs (.treeFinish e :: l) = discs l := rfl
@[simp] theorem discs_nonTree (e : E) : discs (.nonTree e :: l) = discs l := rfl

@[simp] theorem starts_discover (v : V) : starts (.discover v :: l) = starts l := rfl
@[simp] theorem starts_start (v : V) : starts (.start v :: l) = v :: starts l := rfl
@[simp] theorem starts_finish (v : V) : starts (.finish v :: l) = starts l := rfl
@[simp] theorem starts_searchStart (v : V) : starts (.searchStart v :: l) = starts l := rfl
@[simp] theorem starts_searchFinish (v : V) : starts (.searchFinish v :: l) = starts l := rfl
@[simp] theorem starts_init (v : V) : starts (.init v :: l) = starts l := rfl
@[simp] theorem starts_treeStart (e : E) : starts (.treeStart e :: l) = starts l := rfl
@[simp] theorem starts_treeFinish (e : E) : starts (.treeFinish e :: l) = starts l := rfl
@[simp] theorem starts_nonTree (e : E) : starts (.nonTree e :: l) = starts l := rfl

@[simp] theorem finishes_discover (v : V) : finishes (.discover v :: l) = finishes l := rfl
@[simp] theorem finishes_start (v : V) : finishes (.start v :: l) = finishes l := rfl
@[simp] theorem finishes_finish (v : V) : finishes (.finish v :: l) = v :: finishes l := rfl
@[simp] theorem finishes_searchStart (v : V) : finishes (.searchStart v :: l) = finishes l := rfl
@[simp] theorem finishes_searchFinish (v : V) : finishes (.searchFinish v :: l) = finishes l := rfl
@[simp] theorem finishes_init (v : V) : finishes (.init v :: l) = finishes l := rfl
@[simp] theorem finishes_treeStart (e : E) : finishes (.treeStart e :: l) = finishes l := rfl
@[simp] theorem finishes_treeFinish (e : E) : finishes (.treeFinish e :: l) = finishes l := rfl
@[simp] theorem finishes_nonTree (e : E) : finishes (.nonTree e :: l) = finishes l := rfl

@[simp] theorem examined_discover (v : V) : examined (.discover v :: l) = examined l := rfl
@[simp] theorem examined_start (v : V) : examined (.start v :: l) = examined l := rfl
@[simp] theorem examined_finish (v : V) : examined (.finish v :: l) = examined l := rfl
@[simp] theorem examined_searchStart (v : V) : examined (.searchStart v :: l) = examined l := rfl
@[simp] theorem examined_searchFinish (v : V) : examined (.searchFinish v :: l) = examined l := rfl
@[simp] theorem examined_init (v : V) : examined (.init v :: l) = examined l := rfl
@[simp] theorem examined_treeStart (e : E) : examined (.treeStart e :: l) = e :: examined l := rfl
@[simp] theorem examined_treeFinish (e : E) : examined (.treeFinish e :: l) = examined l := rfl
@[simp] theorem examined_nonTree (e : E) : examined (.nonTree e :: l) = e :: examined l := rfl

variable {l}

theorem mem_discs {v : V} : v ∈ discs l ↔ Event.discover v ∈ l := by
  unfold discs
  rw [List.mem_filterMap]
  constructor
  · rintro ⟨ev, h1, h2⟩
    cases ev <;> simp at h2
    subst h2; exact h1
  · intro h; exact ⟨_, h, rfl⟩

theorem mem_starts {v : V} : v ∈ starts l ↔ Event.start v ∈ l := by
  unfold starts
  rw [List.mem_filterMap]
  constructor
  · rintro ⟨ev, h1, h2⟩
    cases ev <;> simp at h2
    subst h2; exact h1
  · intro h; exact ⟨_, h, rfl⟩

theorem mem_finishes {v : V} : v ∈ finishes l ↔ Event.finish v ∈ l := by
  unfold finishes
  rw [List.mem_filterMap]
  constructor
  · rintro ⟨ev, h1, h2⟩
    cases ev <;> simp at h2
    subst h2; exact h1
  · intro h; exact ⟨_, h, rfl⟩

theorem mem_examined {e : E} : e ∈ examined l ↔ Event.treeStart e ∈ l ∨ Event.nonTree e ∈ l := by
  unfold examined
  rw [List.mem_filterMap]
  constructor
  · rintro ⟨ev, h1, h2⟩
    cases ev <;> simp at h2
    · subst h2; exact Or.inl h1
    · subst h2; exact Or.inr h1
  · rintro (h | h)
    · exact ⟨_, h, rfl⟩
    · exact ⟨_, h, rfl⟩

end Lists

variable {D D' : Set V} {es : List E} {l : List (Event V E)}

theorem Run.starts_eq (h : Run G D es l D') : starts l = discs l := by
  induction h with
  | nil D => rfl
  | skip h r ih => simpa using ih
  | tree h r1 r2 ih1 ih2 => simp [ih1, ih2]

theorem Run.finishes_perm (h : Run G D es l D') : (finishes l).Perm (discs l) := by
  induction h with
  | nil D => simp
  | skip h r ih => simpa using ih
  | @tree D D1 D2 e es l1 l2 h r1 r2 ih1 ih2 =>
    simp only [finishes_append, finishes_treeStart, finishes_discover, finishes_start, finishes_finish,
      finishes_treeFinish, finishes_nil, discs_append, discs_treeStart, discs_discover, discs_start,
      discs_finish, discs_treeFinish, discs_nil, List.append_nil, List.nil_append]
    refine List.Perm.append ?_ ih2
    exact (List.perm_append_comm).trans (List.Perm.cons _ ih1)

/-- The vertices discovered by a run are those it adds, once each. -/
theorem Run.discs_spec (h : Run G D es l D') : (discs l).Nodup ∧ ∀ v, v ∈ discs l ↔ v ∈ D' ∧ v ∉ D := by
  induction h with
  | nil D => exact ⟨by simp, fun v => by simp⟩
  | skip h r ih => simpa using ih
  | @tree D D1 D2 e es l1 l2 h r1 r2 ih1 ih2 =>
    have s1 := r1.subset
    have s2 := r2.subset
    simp only [discs_append, discs_treeStart, discs_discover, discs_start,
      discs_finish, discs_treeFinish, discs_nil, List.append_nil]
    refine ⟨?_, fun v => ?_⟩
    · rw [List.nodup_append']
      refine ⟨?_, ih2.1, ?_⟩
      · rw [List.singleton_append, List.nodup_cons]
        exact ⟨fun hm => ((ih1.2 _).mp hm).2 (Set.mem_insert _ _), ih1.1⟩
      · intro v hv hv2
        have h2 := ((ih2.2 v).mp hv2).2
        rcases List.mem_append.mp hv with hv | hv
        · rw [List.mem_singleton] at hv
          subst hv
          exact h2 (s1 (Set.mem_insert _ _))
        · exact h2 ((ih1.2 v).mp hv).1
    · simp only [List.mem_append, List.mem_singleton]
      rw [ih1.2, ih2.2]
      constructor
      · rintro ((rfl | ⟨h1, h2⟩) | ⟨h1, h2⟩)
        · exact ⟨s2 (s1 (Set.mem_insert _ _)), h⟩
        · exact ⟨s2 h1, fun hD => h2 (Set.mem_insert_of_mem _ hD)⟩
        · exact ⟨h1, fun hD => h2 (s1 (Set.mem_insert_of_mem _ hD))⟩
      · rintro ⟨h1, h2⟩
        by_cases hv1 : v ∈ D1
        · left
          by_cases hvt : v = G.tgt e
          · exact Or.inl hvt
          · exact Or.inr ⟨hv1, fun hi => by
              rcases Set.mem_insert_iff.mp hi with hi | hi
              · exact hvt hi
              · exact h2 hi⟩
        · exact Or.inr ⟨h1, hv1⟩

theorem Run.finishes_spec (h : Run G D es l D') :
    (finishes l).Nodup ∧ ∀ v, v ∈ finishes l ↔ v ∈ D' ∧ v ∉ D :=
  ⟨h.finishes_perm.nodup_iff.mpr h.discs_spec.1, fun v => h.finishes_perm.mem_iff.trans (h.discs_spec.2 v)⟩

/-- The new vertices have all their neighbours discovered. -/
theorem Run.closed (h : Run G D es l D') :
    (∀ e ∈ es, G.tgt e ∈ D') ∧ ∀ v ∈ D', v ∉ D → ∀ e ∈ G.out v, G.tgt e ∈ D' := by
  induction h with
  | nil D => exact ⟨by simp, fun v h1 h2 => absurd h1 h2⟩
  | @skip D D' e es l h r ih =>
    refine ⟨fun e' he' => ?_, ih.2⟩
    rcases List.mem_cons.mp he' with rfl | he'
    · exact r.subset h
    · exact ih.1 e' he'
  | @tree D D1 D2 e es l1 l2 h r1 r2 ih1 ih2 =>
    have s1 := r1.subset
    have s2 := r2.subset
    refine ⟨fun e' he' => ?_, fun v h1 h2 e' he' => ?_⟩
    · rcases List.mem_cons.mp he' with rfl | he'
      · exact s2 (s1 (Set.mem_insert _ _))
      · exact ih2.1 e' he'
    · by_cases hv1 : v ∈ D1
      · by_cases hvt : v = G.tgt e
        · subst hvt; exact s2 (ih1.1 e' he')
        · refine s2 (ih1.2 v hv1 (fun hi => ?_) e' he')
          rcases Set.mem_insert_iff.mp hi with hi | hi
          · exact hvt hi
          · exact h2 hi
      · exact ih2.2 v h1 hv1 e' he'

/-- The new vertices are reachable through the edges of the run. -/
theorem Run.reach (h : Run G D es l D') (v : V) (h1 : v ∈ D') (h2 : v ∉ D) : ∃ e ∈ es, G.Reach (G.tgt e) v := by
  induction h with
  | nil D => exact absurd h1 h2
  | @skip D D' e es l h r ih =>
    obtain ⟨e', he', hr⟩ := ih h1 h2
    exact ⟨e', List.mem_cons_of_mem _ he', hr⟩
  | @tree D D1 D2 e es l1 l2 h r1 r2 ih1 ih2 =>
    by_cases hv1 : v ∈ D1
    · by_cases hvt : v = G.tgt e
      · exact ⟨e, List.mem_cons_self, by rw [hvt]; exact Relation.ReflTransGen.refl⟩
      · obtain ⟨e', he', hr⟩ := ih1 hv1 (fun hi => by
          rcases Set.mem_insert_iff.mp hi with hi | hi
          · exact hvt hi
          · exact h2 hi)
        exact ⟨e, List.mem_cons_self, Relation.ReflTransGen.head ⟨e', he', rfl⟩ hr⟩
    · obtain ⟨e', he', hr⟩ := ih2 h1 hv1
      exact ⟨e', List.mem_cons_of_mem _ he', hr⟩

theorem Run.mem_vertices (hG : G.WF) (h : Run G D es l D') (hes : ∀ e ∈ es, G.tgt e ∈ G.vertices) (v : V)
    (h1 : v ∈ D') (h2 : v ∉ D) : v ∈ G.vertices := by
  obtain ⟨e, he, hr⟩ := h.reach v h1 h2
  have := hes e he
  clear he h1 h2
  induction hr with
  | refl => exact this
  | tail _ hadj ih => obtain ⟨e', he', rfl⟩ := hadj; exact hG.tgt _ ih e' he'

/-- Every out-edge of a new vertex is examined once, in order. -/
theorem Run.examined_spec [DecidableEq V] (hG : G.WF) (h : Run G D es l D')
    (hes : ∀ e ∈ es, G.tgt e ∈ G.vertices ∧ G.src e ∈ D) (v : V) :
    (v ∈ D' → v ∉ D → (examined l).filter (fun e => G.src e = v) = G.out v) ∧
    (v ∈ D ∨ v ∉ D' → (examined l).filter (fun e => G.src e = v) = es.filter (fun e => G.src e = v)) := by
  induction h with
  | nil D => exact ⟨fun h1 h2 => absurd h1 h2, fun _ => rfl⟩
  | @skip D D' e es l h r ih =>
    have hsrc := (hes e List.mem_cons_self).2
    obtain ⟨i1, i2⟩ := ih (fun e' he' => hes e' (List.mem_cons_of_mem _ he'))
    refine ⟨fun h1 h2 => ?_, fun h1 => ?_⟩
    · rw [examined_nonTree, List.filter_cons, if_neg]
      · exact i1 h1 h2
      · simp only [decide_eq_true_eq]; rintro rfl; exact h2 hsrc
    · rw [examined_nonTree, List.filter_cons, List.filter_cons, i2 h1]
  | @tree D D1 D2 e es l1 l2 h r1 r2 ih1 ih2 =>
    have s1 := r1.subset
    have s2 := r2.subset
    have he := hes e List.mem_cons_self
    obtain ⟨a1, a2⟩ := ih1 (fun e' he' => ⟨hG.tgt _ he.1 e' he', by rw [hG.src _ he.1 e' he']; exact Set.mem_insert _ _⟩)
    obtain ⟨b1, b2⟩ := ih2 (fun e' he' => ⟨(hes e' (List.mem_cons_of_mem _ he')).1,
      s1 (Set.mem_insert_of_mem _ (hes e' (List.mem_cons_of_mem _ he')).2)⟩)
    simp only [examined_append, examined_treeStart, examined_discover, examined_start, examined_nil,
      examined_finish, examined_treeFinish, List.append_nil, List.nil_append, List.cons_append]
    -- edges out of the new vertex
    have hself : (G.out (G.tgt e)).filter (fun e' => G.src e' = G.tgt e) = G.out (G.tgt e) :=
      List.filter_eq_self.mpr (fun e' he' => by simpa using hG.src _ he.1 e' he')
    have hother : ∀ w, w ≠ G.tgt e → (G.out (G.tgt e)).filter (fun e' => G.src e' = w) = [] := fun w hw =>
      List.filter_eq_nil_iff.mpr (fun e' he' => by
        simp only [decide_eq_true_eq]; rw [hG.src _ he.1 e' he']; exact fun h => hw h.symm)
    have hsrcne : ∀ w, w ∉ D → es.filter (fun e' => G.src e' = w) = [] := fun w hw =>
      List.filter_eq_nil_iff.mpr (fun e' he' => by
        simp only [decide_eq_true_eq]; rintro rfl; exact hw (hes e' (List.mem_cons_of_mem _ he')).2)
    refine ⟨fun h1 h2 => ?_, fun h1 => ?_⟩
    · rw [List.filter_cons, if_neg (by simp only [decide_eq_true_eq]; rintro rfl; exact h2 he.2), List.filter_append]
      by_cases hv1 : v ∈ D1
      · rw [b2 (Or.inl hv1), hsrcne v h2, List.append_nil]
        by_cases hvt : v = G.tgt e
        · subst hvt; rw [a2 (Or.inl (Set.mem_insert _ _)), hself]
        · exact a1 hv1 (fun hi => by
            rcases Set.mem_insert_iff.mp hi with hi | hi
            · exact hvt hi
            · exact h2 hi)
      · rw [b1 h1 hv1, a2 (Or.inr hv1), hother v (fun h => hv1 (by rw [h]; exact s1 (Set.mem_insert _ _))),
          List.nil_append]
    · rw [List.filter_cons, List.filter_append, List.filter_cons]
      have hnt : v ≠ G.tgt e := by
        rintro rfl
        rcases h1 with h1 | h1
        · exact h h1
        · exact h1 (s2 (s1 (Set.mem_insert _ _)))
      have e1 : (examined l1).filter (fun e => G.src e = v) = [] := by
        rw [a2, hother v hnt]
        rcases h1 with h1 | h1
        · exact Or.inl (Set.mem_insert_of_mem _ h1)
        · exact Or.inr (fun h => h1 (s2 h))
      have e2 : (examined l2).filter (fun e => G.src e = v) = es.filter (fun e => G.src e = v) := by
        apply b2
        rcases h1 with h1 | h1
        · exact Or.inl (s1 (Set.mem_insert_of_mem _ h1))
        · exact Or.inr h1
      rw [e1, e2, List.nil_append]

/-- The part of a run between the start and the finish of a vertex is a run over its out-edges. -/
theorem Run.block (h : Run G D es l D') (v : V) (h1 : v ∈ D') (h2 : v ∉ D) :
    ∃ a b c Dv Dv', l = a ++ .discover v :: .start v :: b ++ .finish v :: c ∧ Run G Dv (G.out v) b Dv' ∧
      v ∈ Dv ∧ D ⊆ Dv ∧ Dv' ⊆ D' ∧ ∀ x ∈ Dv, x ∈ D ∨ x = v ∨ Event.start x ∈ a := by
  induction h with
  | nil D => exact absurd h1 h2
  | @skip D D' e es l h r ih =>
    obtain ⟨a, b, c, Dv, Dv', rfl, hr, hv, hs, hs', hx⟩ := ih h1 h2
    refine ⟨.nonTree e :: a, b, c, Dv, Dv', by simp, hr, hv, hs, hs', fun x hxx => ?_⟩
    rcases hx x hxx with h | h | h
    · exact Or.inl h
    · exact Or.inr (Or.inl h)
    · exact Or.inr (Or.inr (List.mem_cons_of_mem _ h))
  | @tree D D1 D2 e es l1 l2 h r1 r2 ih1 ih2 =>
    have s1 := r1.subset
    have s2 := r2.subset
    by_cases hv1 : v ∈ D1
    · by_cases hvt : v = G.tgt e
      · subst hvt
        refine ⟨[.treeStart e], l1, .treeFinish e :: l2, _, _, by simp, r1, Set.mem_insert _ _,
          fun x hx => Set.mem_insert_of_mem _ hx, s2, fun x hx => ?_⟩
        rcases Set.mem_insert_iff.mp hx with hx | hx
        · exact Or.inr (Or.inl hx)
        · exact Or.inl hx
      · obtain ⟨a, b, c, Dv, Dv', rfl, hr, hv, hs, hs', hx⟩ := ih1 hv1 (fun hi => by
          rcases Set.mem_insert_iff.mp hi with hi | hi
          · exact hvt hi
          · exact h2 hi)
        refine ⟨[.treeStart e, .discover (G.tgt e), .start (G.tgt e)] ++ a, b,
          c ++ [.finish (G.tgt e), .treeFinish e] ++ l2, Dv, Dv', by simp, hr, hv,
          fun x hx => hs (Set.mem_insert_of_mem _ hx), hs'.trans s2, fun x hxx => ?_⟩
        rcases hx x hxx with h | h | h
        · rcases Set.mem_insert_iff.mp h with h | h
          · subst h; exact Or.inr (Or.inr (by simp))
          · exact Or.inl h
        · exact Or.inr (Or.inl h)
        · exact Or.inr (Or.inr (List.mem_append_right _ h))
    · obtain ⟨a, b, c, Dv, Dv', rfl, hr, hv, hs, hs', hx⟩ := ih2 h1 hv1
      refine ⟨[.treeStart e, .discover (G.tgt e), .start (G.tgt e)] ++ l1 ++ [.finish (G.tgt e), .treeFinish e] ++ a,
        b, c, Dv, Dv', by simp, hr, hv, fun x hx => hs (s1 (Set.mem_insert_of_mem _ hx)), hs', fun x hxx => ?_⟩
      rcases hx x hxx with h | h | h
      · by_cases hxD : x ∈ D
        · exact Or.inl hxD
        · refine Or.inr (Or.inr ?_)
          by_cases hxt : x = G.tgt e
          · subst hxt; simp
          · have : x ∈ discs l1 := (r1.discs_spec.2 x).mpr ⟨h, fun hi => by
              rcases Set.mem_insert_iff.mp hi with hi | hi
              · exact hxt hi
              · exact hxD hi⟩
            rw [← r1.starts_eq, mem_starts] at this
            simp [this]
      · exact Or.inr (Or.inl h)
      · exact Or.inr (Or.inr (List.mem_append_right _ h))

/-- The new vertices are those in trees hanging from the edges of the run. -/
theorem Run.tree_reach (hG : G.WF) (h : Run G D es l D') (hes : ∀ e ∈ es, G.tgt e ∈ G.vertices ∧ G.src e ∈ D) (v : V)
    (h1 : v ∈ D') (h2 : v ∉ D) :
    ∃ e ∈ es, Event.treeStart e ∈ l ∧ Relation.ReflTransGen (TreeAdj G l) (G.tgt e) v := by
  induction h with
  | nil D => exact absurd h1 h2
  | @skip D D' e es l h r ih =>
    obtain ⟨e', he', hm, hr⟩ := ih (fun e' he' => hes e' (List.mem_cons_of_mem _ he')) h1 h2
    refine ⟨e', List.mem_cons_of_mem _ he', List.mem_cons_of_mem _ hm, rtg_mono ?_ hr⟩
    rintro x y ⟨e, h1, h2⟩
    exact ⟨e, List.mem_cons_of_mem _ h1, h2⟩
  | @tree D D1 D2 e es l1 l2 h r1 r2 ih1 ih2 =>
    have he := hes e List.mem_cons_self
    by_cases hv1 : v ∈ D1
    · by_cases hvt : v = G.tgt e
      · exact ⟨e, List.mem_cons_self, by simp, by rw [hvt]⟩
      · obtain ⟨e', he', hm, hr⟩ := ih1
          (fun e' he' => ⟨hG.tgt _ he.1 e' he', by rw [hG.src _ he.1 e' he']; exact Set.mem_insert _ _⟩) hv1
          (fun hi => by
            rcases Set.mem_insert_iff.mp hi with hi | hi
            · exact hvt hi
            · exact h2 hi)
        refine ⟨e, List.mem_cons_self, by simp, Relation.ReflTransGen.head ⟨e', ?_, hG.src _ he.1 e' he', rfl⟩ (rtg_mono ?_ hr)⟩
        · simp [hm]
        · rintro x y ⟨e'', g1, g2⟩
          exact ⟨e'', by simp [g1], g2⟩
    · obtain ⟨e', he', hm, hr⟩ := ih2 (fun e' he' => ⟨(hes e' (List.mem_cons_of_mem _ he')).1,
        r1.subset (Set.mem_insert_of_mem _ (hes e' (List.mem_cons_of_mem _ he')).2)⟩) h1 hv1
      refine ⟨e', List.mem_cons_of_mem _ he', by simp [hm], rtg_mono ?_ hr⟩
      rintro x y ⟨e'', g1, g2⟩
      exact ⟨e'', by simp [g1], g2⟩

/-- Tree edges lead to new vertices, from old ones or new ones. -/
theorem Run.tree_tgt (h : Run G D es l D') (e : E) (he : Event.treeStart e ∈ l) : G.tgt e ∈ D' ∧ G.tgt e ∉ D := by
  induction h with
  | nil D => cases he
  | skip h r ih =>
    rcases List.mem_cons.mp he with he | he
    · cases he
    · exact ih he
  | @tree D D1 D2 e' es l1 l2 h r1 r2 ih1 ih2 =>
    have s1 := r1.subset
    have s2 := r2.subset
    simp only [List.cons_append, List.nil_append, List.mem_cons, List.mem_append, reduceCtorEq, false_or,
      Event.treeStart.injEq, List.not_mem_nil, or_false, List.append_assoc] at he
    rcases he with rfl | he | he
    · exact ⟨s2 (s1 (Set.mem_insert _ _)), h⟩
    · obtain ⟨h1, h2⟩ := ih1 he
      exact ⟨s2 h1, fun hD => h2 (Set.mem_insert_of_mem _ hD)⟩
    · obtain ⟨h1, h2⟩ := ih2 he
      exact ⟨h1, fun hD => h2 (s1 (Set.mem_insert_of_mem _ hD))⟩

end Actl.Traversal
