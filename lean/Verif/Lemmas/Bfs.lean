import Verif.Model.Bfs
import Verif.Spec.Bfs
import Verif.Lemmas.Story
import Mathlib.Data.Finset.Card
import Mathlib.Data.Finset.Dedup

/-!
Breadth-first search without terminator: a reference for its events, and their properties.
-/

namespace Actl.Traversal

variable {σ τ V E : Type} {G : Graph V E} {c : Comp σ V E}

/-- Examining the out-edges: events, vertices pushed, vertices discovered at the end. -/
inductive BEdges (G : Graph V E) : Set V → List E → List (Event V E) → List V → Set V → Prop
  | nil (D : Set V) : BEdges G D [] [] [] D
  | skip {D D' : Set V} {e : E} {es : List E} {l : List (Event V E)} {new : List V} (h : G.tgt e ∈ D)
      (r : BEdges G D es l new D') : BEdges G D (e :: es) (.nonTree e :: l) new D'
  | tree {D D' : Set V} {e : E} {es : List E} {l : List (Event V E)} {new : List V} (h : G.tgt e ∉ D)
      (r : BEdges G (insert (G.tgt e) D) es l new D') :
      BEdges G D (e :: es) (.treeStart e :: .discover (G.tgt e) :: .treeFinish e :: l) (G.tgt e :: new) D'

/-- Processing the queue. -/
inductive BRun (G : Graph V E) : Set V → List V → List (Event V E) → Set V → Prop
  | nil (D : Set V) : BRun G D [] [] D
  | step {D D1 D2 : Set V} {u : V} {q new : List V} {l1 l2 : List (Event V E)} (h : BEdges G D (G.out u) l1 new D1)
      (r : BRun G D1 (q ++ new) l2 D2) : BRun G D (u :: q) (.start u :: (l1 ++ .finish u :: l2)) D2

theorem BEdges.subset {D D' : Set V} {es : List E} {l : List (Event V E)} {new : List V} (h : BEdges G D es l new D') :
    D ⊆ D' := by
  induction h with
  | nil D => exact subset_rfl
  | skip h r ih => exact ih
  | tree h r ih => exact fun x hx => ih (Set.mem_insert_of_mem _ hx)

theorem BEdges.exists (G : Graph V E) (D : Set V) (es : List E) : ∃ l new D', BEdges G D es l new D' := by
  classical
  induction es generalizing D with
  | nil => exact ⟨_, _, _, .nil D⟩
  | cons e es ih =>
    by_cases h : G.tgt e ∈ D
    · obtain ⟨l, new, D', hr⟩ := ih D
      exact ⟨_, _, _, .skip h hr⟩
    · obtain ⟨l, new, D', hr⟩ := ih (insert (G.tgt e) D)
      exact ⟨_, _, _, .tree h hr⟩

open Classical in
/-- The number of vertices not discovered. -/
noncomputable def undisc (G : Graph V E) (D : Set V) : Nat := (G.vertices.toFinset.filter (· ∉ D)).card

theorem undisc_insert (G : Graph V E) (D : Set V) (v : V) (hv : v ∈ G.vertices) (hD : v ∉ D) :
    undisc G (insert v D) + 1 = undisc G D := by
  classical
  unfold undisc
  have : G.vertices.toFinset.filter (· ∉ D) = insert v (G.vertices.toFinset.filter (· ∉ insert v D)) := by
    ext x
    simp only [Finset.mem_filter, List.mem_toFinset, Finset.mem_insert, Set.mem_insert_iff]
    constructor
    · rintro ⟨h1, h2⟩
      by_cases hx : x = v
      · exact Or.inl hx
      · exact Or.inr ⟨h1, by tauto⟩
    · rintro (rfl | ⟨h1, h2⟩)
      · exact ⟨hv, hD⟩
      · exact ⟨h1, by tauto⟩
  have h2 : v ∉ G.vertices.toFinset.filter (· ∉ insert v D) := by simp
  have h3 := Finset.card_insert_of_notMem h2
  rw [← this] at h3
  convert h3.symm

theorem BEdges.undisc {D D' : Set V} {es : List E} {l : List (Event V E)} {new : List V} (h : BEdges G D es l new D')
    (hes : ∀ e ∈ es, G.tgt e ∈ G.vertices) : undisc G D' + new.length = undisc G D := by
  induction h with
  | nil D => simp
  | skip h r ih => exact ih (fun e he => hes e (List.mem_cons_of_mem _ he))
  | @tree D D' e es l new h r ih =>
    have := ih (fun e he => hes e (List.mem_cons_of_mem _ he))
    have h2 := undisc_insert G D _ (hes e List.mem_cons_self) h
    simp only [List.length_cons]
    omega

theorem BEdges.new_spec {D D' : Set V} {es : List E} {l : List (Event V E)} {new : List V} (h : BEdges G D es l new D') :
    discs l = new ∧ new.Nodup ∧ (∀ v, v ∈ new ↔ v ∈ D' ∧ v ∉ D) ∧ (∀ v ∈ new, ∃ e ∈ es, G.tgt e = v) ∧
      ∀ e ∈ es, G.tgt e ∈ D' := by
  induction h with
  | nil D => exact ⟨rfl, List.nodup_nil, fun v => by simp, fun v hv => absurd hv List.not_mem_nil,
    fun e he => absurd he List.not_mem_nil⟩
  | @skip D D' e es l new h r ih =>
    obtain ⟨h1, h2, h3, h4, h5⟩ := ih
    refine ⟨h1, h2, h3, fun v hv => ?_, fun e' he' => ?_⟩
    · obtain ⟨e', he', hv'⟩ := h4 v hv
      exact ⟨e', List.mem_cons_of_mem _ he', hv'⟩
    · rcases List.mem_cons.mp he' with rfl | he'
      · exact r.subset h
      · exact h5 e' he'
  | @tree D D' e es l new h r ih =>
    obtain ⟨h1, h2, h3, h4, h5⟩ := ih
    refine ⟨by simp [h1], List.nodup_cons.mpr ⟨fun hm => ((h3 _).mp hm).2 (Set.mem_insert _ _), h2⟩, fun v => ?_,
      fun v hv => ?_, fun e' he' => ?_⟩
    · rw [List.mem_cons, h3, Set.mem_insert_iff]
      constructor
      · rintro (rfl | ⟨g1, g2⟩)
        · exact ⟨r.subset (Set.mem_insert _ _), h⟩
        · exact ⟨g1, fun g => g2 (Or.inr g)⟩
      · rintro ⟨g1, g2⟩
        by_cases hv : v = G.tgt e
        · exact Or.inl hv
        · exact Or.inr ⟨g1, fun g => g.elim hv g2⟩
    · rcases List.mem_cons.mp hv with rfl | hv
      · exact ⟨e, List.mem_cons_self, rfl⟩
      · obtain ⟨e', he', hv'⟩ := h4 v hv
        exact ⟨e', List.mem_cons_of_mem _ he', hv'⟩
    · rcases List.mem_cons.mp he' with rfl | he'
      · exact r.subset (Set.mem_insert _ _)
      · exact h5 e' he'

theorem BRun.exists (hG : G.WF) (D : Set V) (q : List V) (hq : ∀ u ∈ q, u ∈ G.vertices) : ∃ l D', BRun G D q l D' := by
  induction hn : undisc G D + q.length generalizing D q with
  | zero =>
    cases q with
    | nil => exact ⟨_, _, .nil D⟩
    | cons u q => simp at hn
  | succ n ih =>
    cases q with
    | nil => exact ⟨_, _, .nil D⟩
    | cons u q =>
      obtain ⟨l1, new, D1, h⟩ := BEdges.exists G D (G.out u)
      have hu := hq u List.mem_cons_self
      have hc := h.undisc (fun e he => hG.tgt u hu e he)
      simp only [List.length_cons] at hn
      obtain ⟨l2, D2, hr⟩ := ih D1 (q ++ new) (fun v hv => by
        rcases List.mem_append.mp hv with hv | hv
        · exact hq v (List.mem_cons_of_mem _ hv)
        · obtain ⟨e, he, rfl⟩ := h.new_spec.2.2.2.1 v hv
          exact hG.tgt u hu e he) (by rw [List.length_append]; omega)
      exact ⟨_, _, .step h hr⟩

theorem BRun.subset {D D' : Set V} {q : List V} {l : List (Event V E)} (h : BRun G D q l D') : D ⊆ D' := by
  induction h with
  | nil D => exact subset_rfl
  | step h r ih => exact h.subset.trans ih

/-! ### The code follows the reference -/

/-- The component knows the discovered vertices from the moment they are discovered. -/
structure TracksB (G : Graph V E) (c : Comp σ V E) (I : σ → Set V → Prop) : Prop where
  disc : ∀ s D v, I s D → v ∈ G.vertices → (c.disc s v = true ↔ v ∈ D)
  nonTree : ∀ s D e, I s D → I (c.on (.nonTree e) s) D
  treeFinish : ∀ s D e, I s D → I (c.on (.treeFinish e) s) D
  start : ∀ s D u, I s D → u ∈ D → I (c.on (.start u) s) D
  finish : ∀ s D u, I s D → u ∈ D → I (c.on (.finish u) s) D
  tree : ∀ s D e, I s D → G.src e ∈ D → G.tgt e ∉ D → G.tgt e ∈ G.vertices →
    I (c.on (.discover (G.tgt e)) (c.on (.treeStart e) s)) (insert (G.tgt e) D)
  root : ∀ s D u, I s D → u ∉ D → u ∈ G.vertices → I (c.on (.discover u) (c.on (.searchStart u) s)) (insert u D)

theorem bfsEdges_ref {I : σ → Set V → Prop} (hT : TracksB G c I) {D D' : Set V} {es : List E} {l : List (Event V E)}
    {new : List V} (h : BEdges G D es l new D') (hes : ∀ e ∈ es, G.tgt e ∈ G.vertices ∧ G.src e ∈ D) (q : List V) (s : σ)
    (hI : I s D) :
    bfsEdges G c (fun _ => false) es q s = (after c s l, some (q ++ new)) ∧ I (after c s l) D' := by
  induction h generalizing q s with
  | nil D => exact ⟨by simp [bfsEdges, after_nil], hI⟩
  | @skip D D' e es l new h r ih =>
    have he := hes e List.mem_cons_self
    rw [bfsEdges, if_pos ((hT.disc s D _ hI he.1).mpr h), after_cons]
    exact ih (fun e he => hes e (List.mem_cons_of_mem _ he)) q _ (hT.nonTree s D e hI)
  | @tree D D' e es l new h r ih =>
    have he := hes e List.mem_cons_self
    have hd : ¬c.disc s (G.tgt e) = true := fun hd => h ((hT.disc s D _ hI he.1).mp hd)
    rw [bfsEdges, if_neg hd]
    simp only [bfsDiscover, Bool.false_eq_true, if_false, after_cons]
    have := ih (fun e he => ⟨(hes e (List.mem_cons_of_mem _ he)).1, Set.mem_insert_of_mem _ (hes e (List.mem_cons_of_mem _ he)).2⟩)
      (q ++ [G.tgt e]) _ (hT.treeFinish _ _ e (hT.tree s D e hI he.2 h he.1))
    simpa using this

theorem bfsLoop_ref {I : σ → Set V → Prop} (hT : TracksB G c I) (hG : G.WF) (null : V) {D D' : Set V} {q : List V}
    {l : List (Event V E)} (h : BRun G D q l D') (hq : ∀ u ∈ q, u ∈ G.vertices ∧ u ∈ D) (s : σ) (hI : I s D) :
    (∃ fuel, bfsLoop G c (fun _ => false) null fuel q s = some (after c s (l ++ [.searchFinish null]))) ∧
    I (after c s l) D' := by
  induction h generalizing s with
  | nil D => exact ⟨⟨1, rfl⟩, hI⟩
  | @step D D1 D2 u q new l1 l2 h r ih =>
    have hu := hq u List.mem_cons_self
    obtain ⟨h1, h2⟩ := bfsEdges_ref hT h (fun e he => ⟨hG.tgt u hu.1 e he, by rw [hG.src u hu.1 e he]; exact hu.2⟩) q
      _ (hT.start s D u hI hu.2)
    obtain ⟨⟨f, hf⟩, hi⟩ := ih (fun v hv => by
        rcases List.mem_append.mp hv with hv | hv
        · exact ⟨(hq v (List.mem_cons_of_mem _ hv)).1, h.subset (hq v (List.mem_cons_of_mem _ hv)).2⟩
        · obtain ⟨e, he, rfl⟩ := h.new_spec.2.2.2.1 v hv
          exact ⟨hG.tgt u hu.1 e he, h.new_spec.2.2.2.2 e he⟩) _ (hT.finish _ _ u h2 (h.subset hu.2))
    refine ⟨⟨f + 1, ?_⟩, ?_⟩
    · rw [bfsLoop, h1]
      simp only [hf, after_cons, after_append, List.cons_append, List.append_assoc]
    · rw [after_cons, after_append, after_cons]
      exact hi

/-- The events of the sources. -/
def srcEvents (us : List V) : List (Event V E) := us.flatMap (fun u => [.searchStart u, .discover u])

theorem bfsSources_ref {I : σ → Set V → Prop} (hT : TracksB G c I) (us : List V) (hus : ∀ u ∈ us, u ∈ G.vertices)
    (hn : us.Nodup) (D : Set V) (hD : ∀ u ∈ us, u ∉ D) (q : List V) (s : σ) (hI : I s D) :
    bfsSources c (fun _ => false) us q s = (after c s (srcEvents us), some (q ++ us)) ∧
      I (after c s (srcEvents us)) (D ∪ {v | v ∈ us}) := by
  induction us generalizing D q s with
  | nil => exact ⟨by simp [bfsSources, srcEvents, after_nil], by simpa [srcEvents, after_nil] using hI⟩
  | cons u us ih =>
    rw [List.nodup_cons] at hn
    have := ih (fun v hv => hus v (List.mem_cons_of_mem _ hv)) hn.2 (insert u D) (fun v hv h => by
      rcases Set.mem_insert_iff.mp h with rfl | h
      · exact hn.1 hv
      · exact hD v (List.mem_cons_of_mem _ hv) h) (q ++ [u]) _
      (hT.root s D u hI (hD u List.mem_cons_self) (hus u List.mem_cons_self))
    have hset : insert u D ∪ {v | v ∈ us} = D ∪ {v | v ∈ u :: us} := by
      ext x
      simp only [Set.mem_union, Set.mem_insert_iff, Set.mem_setOf_eq, List.mem_cons]
      tauto
    rw [hset] at this
    rw [bfsSources]
    simp only [bfsDiscover, Bool.false_eq_true, if_false]
    rw [this.1]
    exact ⟨by simp [srcEvents, after_cons], this.2⟩

theorem bfsLoop_mono (term : V → Bool) (null : V) (n m : Nat) (hnm : n ≤ m) (q : List V) (s t : σ)
    (h : bfsLoop G c term null n q s = some t) : bfsLoop G c term null m q s = some t := by
  induction n generalizing m q s with
  | zero => cases h
  | succ n ih =>
    obtain ⟨m, rfl⟩ : ∃ k, m = k + 1 := ⟨m - 1, by omega⟩
    cases q with
    | nil => exact h
    | cons u q =>
      rw [bfsLoop] at h ⊢
      cases hE : bfsEdges G c term (G.out u) q (c.on (.start u) s) with
      | mk s' r =>
        rw [hE] at h
        cases r with
        | none => exact h
        | some q' => exact ih m (by omega) _ _ h

theorem bfs_det (term : V → Bool) (null : V) (n m : Nat) (us : List V) (s t t' : σ)
    (h : bfs G c term null n us s = some t) (h' : bfs G c term null m us s = some t') : t = t' := by
  unfold bfs at h h'
  cases hS : bfsSources c term us [] (initAll c G.vertices s) with
  | mk s' r =>
    rw [hS] at h h'
    cases r with
    | none => simp only [Option.some.injEq] at h h'; rw [← h, ← h']
    | some q =>
      have h1 := bfsLoop_mono term null n (max n m) (Nat.le_max_left _ _) _ _ _ h
      have h2 := bfsLoop_mono term null m (max n m) (Nat.le_max_right _ _) _ _ _ h'
      rw [h1] at h2
      injection h2

/-- The events of the search. -/
def BSearch (G : Graph V E) (null : V) (us : List V) (l : List (Event V E)) (D' : Set V) : Prop :=
  ∃ l1, BRun G {v | v ∈ us} us l1 D' ∧ l = srcEvents us ++ l1 ++ [.searchFinish null]

theorem bfs_ref {I : σ → Set V → Prop} (hT : TracksB G c I) (hG : G.WF) (null : V) (us : List V)
    (hus : ∀ u ∈ us, u ∈ G.vertices) (hn : us.Nodup) (s : σ) (hI : I (initAll c G.vertices s) ∅) :
    ∃ l1 D', BRun G {v | v ∈ us} us l1 D' ∧
      I (after c (initAll c G.vertices s) (srcEvents us ++ l1)) D' ∧
      ∃ fuel, bfs G c (fun _ => false) null fuel us s =
        some (after c (initAll c G.vertices s) (srcEvents us ++ l1 ++ [.searchFinish null])) := by
  obtain ⟨h1, h2⟩ := bfsSources_ref hT us hus hn ∅ (fun u _ => Set.notMem_empty u) [] _ hI
  rw [Set.empty_union] at h2
  obtain ⟨l1, D', hr⟩ := BRun.exists hG {v | v ∈ us} us hus
  obtain ⟨⟨fuel, hf⟩, hi⟩ := bfsLoop_ref hT hG null hr (fun u hu => ⟨hus u hu, hu⟩) _ h2
  refine ⟨l1, D', hr, by rw [after_append]; exact hi, fuel, ?_⟩
  unfold bfs
  rw [h1]
  simp only [List.nil_append]
  rw [hf, ← after_append, List.append_assoc]

/-! ### Properties of the reference -/

theorem discs_srcEvents (us : List V) : discs (srcEvents us : List (Event V E)) = us := by
  induction us with
  | nil => rfl
  | cons u us ih =>
    rw [show (srcEvents (u :: us) : List (Event V E)) = .searchStart u :: .discover u :: srcEvents us from rfl]
    simp [ih]

theorem srcEvents_story (us : List V) (hn : us.Nodup) (R : V → Prop) (hR : ∀ u ∈ us, R u) (D : Set V)
    (hD : ∀ u ∈ us, u ∉ D) : Story G R D (srcEvents us) := by
  induction us generalizing D with
  | nil => exact .nil D
  | cons u us ih =>
    rw [List.nodup_cons] at hn
    rw [show (srcEvents (u :: us) : List (Event V E)) = .searchStart u :: .discover u :: srcEvents us from rfl]
    refine .root (hR u List.mem_cons_self) (hD u List.mem_cons_self)
      (ih hn.2 (fun v hv => hR v (List.mem_cons_of_mem _ hv)) _ (fun v hv h => ?_))
    rcases Set.mem_insert_iff.mp h with rfl | h
    · exact hn.1 hv
    · exact hD v (List.mem_cons_of_mem _ hv) h

theorem BEdges.story {D D' : Set V} {es : List E} {l : List (Event V E)} {new : List V} (R : V → Prop)
    (h : BEdges G D es l new D') (hes : ∀ e ∈ es, G.src e ∈ D ∧ e ∈ G.out (G.src e)) : Story G R D l := by
  induction h with
  | nil D => exact .nil D
  | @skip D D' e es l new h r ih =>
    have he := hes e List.mem_cons_self
    exact .nonTree he.2 he.1 h (ih (fun e he => hes e (List.mem_cons_of_mem _ he)))
  | @tree D D' e es l new h r ih =>
    have he := hes e List.mem_cons_self
    exact .tree he.2 he.1 h (.treeFinish (Set.mem_insert_of_mem _ he.1) (Set.mem_insert _ _)
      (ih (fun e he => ⟨Set.mem_insert_of_mem _ (hes e (List.mem_cons_of_mem _ he)).1, (hes e (List.mem_cons_of_mem _ he)).2⟩)))

theorem BRun.story {D D' : Set V} {q : List V} {l : List (Event V E)} (hG : G.WF) (R : V → Prop) (h : BRun G D q l D')
    (hq : ∀ u ∈ q, u ∈ G.vertices ∧ u ∈ D) : Story G R D l := by
  induction h with
  | nil D => exact .nil D
  | @step D D1 D2 u q new l1 l2 h r ih =>
    have hu := hq u List.mem_cons_self
    refine .start hu.2 ((h.story R (fun e he => ?_)).append ?_)
    · rw [hG.src u hu.1 e he]; exact ⟨hu.2, he⟩
    · rw [union_discs h.subset (fun v => by rw [h.new_spec.1]; exact h.new_spec.2.2.1 v)]
      refine .finish (h.subset hu.2) (ih (fun v hv => ?_))
      rcases List.mem_append.mp hv with hv | hv
      · exact ⟨(hq v (List.mem_cons_of_mem _ hv)).1, h.subset (hq v (List.mem_cons_of_mem _ hv)).2⟩
      · obtain ⟨e, he, rfl⟩ := h.new_spec.2.2.2.1 v hv
        exact ⟨hG.tgt u hu.1 e he, h.new_spec.2.2.2.2 e he⟩

theorem BEdges.no_vertex {D D' : Set V} {es : List E} {l : List (Event V E)} {new : List V} (h : BEdges G D es l new D') :
    starts l = [] ∧ finishes l = [] := by
  induction h with
  | nil D => exact ⟨rfl, rfl⟩
  | skip h r ih => simpa using ih
  | tree h r ih => simpa using ih

theorem BRun.discs_spec {D D' : Set V} {q : List V} {l : List (Event V E)} (h : BRun G D q l D') :
    (discs l).Nodup ∧ (∀ v, v ∈ discs l ↔ v ∈ D' ∧ v ∉ D) ∧ starts l = q ++ discs l ∧ finishes l = q ++ discs l := by
  induction h with
  | nil D => exact ⟨List.nodup_nil, fun v => by simp, rfl, rfl⟩
  | @step D D1 D2 u q new l1 l2 h r ih =>
    obtain ⟨i1, i2, i3, i4⟩ := ih
    obtain ⟨n1, n2, n3, n4, n5⟩ := h.new_spec
    have s1 := h.subset
    have s2 := r.subset
    obtain ⟨hst, hfi⟩ := h.no_vertex
    simp only [discs_start, discs_append, discs_finish, n1, starts_start, starts_append, starts_finish, hst,
      List.nil_append, finishes_start, finishes_append, finishes_finish, hfi]
    refine ⟨List.nodup_append'.mpr ⟨n2, i1, fun v h1 h2 => ((i2 v).mp h2).2 ((n3 v).mp h1).1⟩, fun v => ?_,
      by rw [i3]; simp, by rw [i4]; simp⟩
    rw [List.mem_append, n3, i2]
    constructor
    · rintro (⟨h1, h2⟩ | ⟨h1, h2⟩)
      · exact ⟨s2 h1, h2⟩
      · exact ⟨h1, fun h => h2 (s1 h)⟩
    · rintro ⟨h1, h2⟩
      by_cases h3 : v ∈ D1
      · exact Or.inl ⟨h3, h2⟩
      · exact Or.inr ⟨h1, h3⟩

/-- What was discovered but is not in the queue has all its neighbours discovered; at the end this is
all. -/
theorem BRun.closed {D D' : Set V} {q : List V} {l : List (Event V E)} (h : BRun G D q l D')
    (hc : ∀ v ∈ D, v ∉ q → ∀ e ∈ G.out v, G.tgt e ∈ D) : ∀ v ∈ D', ∀ e ∈ G.out v, G.tgt e ∈ D' := by
  induction h with
  | nil D => exact fun v hv => hc v hv List.not_mem_nil
  | @step D D1 D2 u q new l1 l2 h r ih =>
    obtain ⟨n1, n2, n3, n4, n5⟩ := h.new_spec
    refine ih (fun v hv hvq e he => ?_)
    rw [List.mem_append, not_or] at hvq
    have hvD : v ∈ D := by
      by_contra hd
      exact hvq.2 ((n3 v).mpr ⟨hv, hd⟩)
    by_cases hvu : v = u
    · subst hvu; exact n5 e he
    · exact h.subset (hc v hvD (by simp [hvu, hvq.1]) e he)

theorem BRun.reach {D D' : Set V} {q : List V} {l : List (Event V E)} (hG : G.WF) (h : BRun G D q l D')
    (v : V) (hv : v ∈ D') (hD : v ∉ D) : ∃ u ∈ q, G.Reach u v := by
  induction h with
  | nil D => exact absurd hv hD
  | @step D D1 D2 u q new l1 l2 h r ih =>
    obtain ⟨n1, n2, n3, n4, n5⟩ := h.new_spec
    have key : ∀ w ∈ new, G.Adj u w := by
      intro w hw
      obtain ⟨e, he, rfl⟩ := n4 w hw
      exact ⟨e, he, rfl⟩
    by_cases h1 : v ∈ D1
    · exact ⟨u, List.mem_cons_self, Relation.ReflTransGen.single (key v ((n3 v).mpr ⟨h1, hD⟩))⟩
    · obtain ⟨w, hw, hr⟩ := ih hv h1
      rcases List.mem_append.mp hw with hw | hw
      · exact ⟨w, List.mem_cons_of_mem _ hw, hr⟩
      · exact ⟨u, List.mem_cons_self, Relation.ReflTransGen.head (key w hw) hr⟩

variable [DecidableEq V]

theorem BEdges.dist {D D' : Set V} {es : List E} {l : List (Event V E)} {new : List V} (h : BEdges G D es l new D')
    {u : V} (hu : u ∈ D) (hes : ∀ e ∈ es, G.src e = u) (d : V → Int) :
    (∀ v ∈ D, after (distanceRecorder G) d l v = d v) ∧ ∀ v ∈ new, after (distanceRecorder G) d l v = d u + 1 := by
  induction h generalizing d with
  | nil D => exact ⟨fun v _ => rfl, fun v hv => by cases hv⟩
  | @skip D D' e es l new h r ih => exact ih hu (fun e he => hes e (List.mem_cons_of_mem _ he)) d
  | @tree D D' e es l new h r ih =>
    obtain ⟨i1, i2⟩ := ih (Set.mem_insert_of_mem _ hu) (fun e he => hes e (List.mem_cons_of_mem _ he))
      (put d (G.tgt e) (d (G.src e) + 1))
    have hu' : u ≠ G.tgt e := fun h' => h (by rw [← h']; exact hu)
    constructor
    · intro v hv
      have hv' : v ≠ G.tgt e := fun h' => h (by rw [← h']; exact hv)
      have := i1 v (Set.mem_insert_of_mem _ hv)
      rw [show put d (G.tgt e) (d (G.src e) + 1) v = d v by simp [put, hv']] at this
      exact this
    · intro v hv
      rcases List.mem_cons.mp hv with rfl | hv
      · have := i1 _ (Set.mem_insert _ _)
        rw [show put d (G.tgt e) (d (G.src e) + 1) (G.tgt e) = d u + 1 by simp [put, hes e List.mem_cons_self]] at this
        exact this
      · have := i2 v hv
        rw [show put d (G.tgt e) (d (G.src e) + 1) u = d u by simp [put, hu']] at this
        exact this

/-- Distances along edges grow by at most one. -/
theorem BRun.dist {D D' : Set V} {q : List V} {l : List (Event V E)} (hG : G.WF) (h : BRun G D q l D')
    (hq : ∀ u ∈ q, u ∈ G.vertices ∧ u ∈ D) (d : V → Int) (hsort : q.Pairwise (fun x y => d x ≤ d y))
    (hbound : ∀ v ∈ D, ∀ x ∈ q, d v ≤ d x + 1)
    (hdone : ∀ v ∈ D, v ∉ q → ∀ e ∈ G.out v, G.tgt e ∈ D ∧ d (G.tgt e) ≤ d v + 1) :
    (∀ v ∈ D', ∀ e ∈ G.out v, G.tgt e ∈ D' ∧
      after (distanceRecorder G) d l (G.tgt e) ≤ after (distanceRecorder G) d l v + 1) ∧
    ∀ v ∈ D, after (distanceRecorder G) d l v = d v := by
  induction h generalizing d with
  | nil D => exact ⟨fun v hv => hdone v hv List.not_mem_nil, fun v _ => rfl⟩
  | @step D D1 D2 u q new l1 l2 h r ih =>
    obtain ⟨n1, n2, n3, n4, n5⟩ := h.new_spec
    have hu := hq u List.mem_cons_self
    obtain ⟨e1, e2⟩ := h.dist hu.2 (fun e he => hG.src u hu.1 e he) d
    have hold : ∀ x ∈ q, after (distanceRecorder G) d l1 x = d x := fun x hx =>
      e1 x (hq x (List.mem_cons_of_mem _ hx)).2
    rw [List.pairwise_cons] at hsort
    have hcase : ∀ v ∈ D1, v ∈ D ∨ v ∈ new := fun v hv => by
      by_cases hd : v ∈ D
      · exact Or.inl hd
      · exact Or.inr ((n3 v).mpr ⟨hv, hd⟩)
    have hle : ∀ v ∈ D1, after (distanceRecorder G) d l1 v ≤ d u + 1 := by
      intro v hv
      rcases hcase v hv with h1 | h1
      · rw [e1 v h1]; exact hbound v h1 u List.mem_cons_self
      · rw [e2 v h1]
    have hge : ∀ x ∈ q ++ new, d u ≤ after (distanceRecorder G) d l1 x := by
      intro x hx
      rcases List.mem_append.mp hx with hx | hx
      · rw [hold x hx]; exact hsort.1 x hx
      · rw [e2 x hx]; omega
    have := ih (fun v hv => by
        rcases List.mem_append.mp hv with hv | hv
        · exact ⟨(hq v (List.mem_cons_of_mem _ hv)).1, h.subset (hq v (List.mem_cons_of_mem _ hv)).2⟩
        · obtain ⟨e, he, rfl⟩ := n4 v hv
          exact ⟨hG.tgt u hu.1 e he, n5 e he⟩)
      (after (distanceRecorder G) d l1)
      (by
        rw [List.pairwise_append]
        refine ⟨?_, ?_, ?_⟩
        · exact hsort.2.imp_of_mem (fun {x y} hx hy hxy => by rw [hold x hx, hold y hy]; exact hxy)
        · exact List.pairwise_of_forall_mem_list (fun x hx y hy => by rw [e2 x hx, e2 y hy])
        · intro x hx y hy
          rw [hold x hx, e2 y hy]
          exact hbound x (hq x (List.mem_cons_of_mem _ hx)).2 u List.mem_cons_self)
      (fun v hv x hx => by
        have h1 := hle v hv
        have h2 := hge x hx
        omega)
      (fun v hv hvq e he => by
        rw [List.mem_append, not_or] at hvq
        have hvD : v ∈ D := (hcase v hv).resolve_right hvq.2
        by_cases hvu : v = u
        · subst hvu
          exact ⟨n5 e he, by rw [e1 v hvD]; exact hle _ (n5 e he)⟩
        · obtain ⟨g1, g2⟩ := hdone v hvD (by simp [hvu, hvq.1]) e he
          exact ⟨h.subset g1, by rw [e1 v hvD, e1 _ g1]; exact g2⟩)
    have hafter : after (distanceRecorder G) d (.start u :: (l1 ++ .finish u :: l2)) =
        after (distanceRecorder G) (after (distanceRecorder G) d l1) l2 := by
      rw [after_cons, after_append, after_cons]; rfl
    rw [hafter]
    refine ⟨this.1, fun v hv => ?_⟩
    rw [this.2 v (h.subset hv), e1 v hv]

end Actl.Traversal
