import Verif.Props.Bfs

/-!
Searches with a terminator: the events are those of the search without one, up to the first
terminator.
-/

namespace Actl.Traversal

variable {σ τ V E : Type} {G : Graph V E} {c : Comp σ V E}

/-! ### The first terminator -/

/-- The events up to the discovery of the first terminator, and the terminator. -/
def bcut (term : V → Bool) : List (Event V E) → List (Event V E) × Option V
  | [] => ([], none)
  | .discover u :: l => if term u then ([.discover u], some u) else (.discover u :: (bcut term l).1, (bcut term l).2)
  | ev :: l => (ev :: (bcut term l).1, (bcut term l).2)

theorem bcut_append (term : V → Bool) (l l' : List (Event V E)) :
    bcut term (l ++ l') =
      match (bcut term l).2 with
      | some w => ((bcut term l).1, some w)
      | none => (l ++ (bcut term l').1, (bcut term l').2) := by
  induction l with
  | nil => simp [bcut]
  | cons ev l ih =>
    cases ev with
    | discover u =>
      rw [List.cons_append, bcut, bcut]
      by_cases h : term u = true
      · simp [h]
      · simp only [h, Bool.false_eq_true, if_false, ih]
        cases (bcut term l).2 <;> simp
    | _ =>
      simp only [List.cons_append, bcut, ih]
      cases (bcut term l).2 <;> simp

theorem bcut_none (term : V → Bool) (l : List (Event V E)) (h : (bcut term l).2 = none) :
    (bcut term l).1 = l ∧ ∀ v ∈ discs l, term v = false := by
  induction l with
  | nil => exact ⟨rfl, fun v hv => by cases hv⟩
  | cons ev l ih =>
    cases ev with
    | discover u =>
      rw [bcut] at h ⊢
      by_cases hu : term u = true
      · simp [hu] at h
      · simp only [hu, Bool.false_eq_true, if_false] at h ⊢
        obtain ⟨h1, h2⟩ := ih h
        refine ⟨by rw [h1], fun v hv => ?_⟩
        rw [discs_discover] at hv
        rcases List.mem_cons.mp hv with rfl | hv
        · simpa using hu
        · exact h2 v hv
    | _ =>
      simp only [bcut] at h ⊢
      obtain ⟨h1, h2⟩ := ih h
      exact ⟨by rw [h1], h2⟩

theorem bcut_some (term : V → Bool) (l : List (Event V E)) (w : V) (h : (bcut term l).2 = some w) :
    ∃ a b, (bcut term l).1 = a ++ [.discover w] ∧ l = a ++ .discover w :: b ∧ term w = true ∧
      ∀ v ∈ discs a, term v = false := by
  induction l with
  | nil => cases h
  | cons ev l ih =>
    cases ev with
    | discover u =>
      rw [bcut] at h ⊢
      by_cases hu : term u = true
      · simp only [hu, if_true, Option.some.injEq] at h ⊢
        subst h
        exact ⟨[], l, rfl, rfl, hu, fun v hv => by cases hv⟩
      · simp only [hu, Bool.false_eq_true, if_false] at h ⊢
        obtain ⟨a, b, h1, h2, h3, h4⟩ := ih h
        refine ⟨.discover u :: a, b, by rw [h1]; rfl, by rw [h2]; rfl, h3, fun v hv => ?_⟩
        rw [discs_discover] at hv
        rcases List.mem_cons.mp hv with rfl | hv
        · simpa using hu
        · exact h4 v hv
    | _ =>
      simp only [bcut] at h ⊢
      obtain ⟨a, b, h1, h2, h3, h4⟩ := ih h
      refine ⟨_ :: a, b, by rw [h1]; rfl, by rw [h2]; rfl, h3, ?_⟩
      exact h4

theorem cut_none (term : V → Bool) (l : List (Event V E)) (h : (cut term l).2 = none) :
    ∀ v ∈ starts l, term v = false := by
  induction l with
  | nil => exact fun v hv => by cases hv
  | cons ev l ih =>
    cases ev with
    | start u =>
      rw [cut] at h
      by_cases hu : term u = true
      · simp [hu] at h
      · simp only [hu, Bool.false_eq_true, if_false] at h
        intro v hv
        rw [starts_start] at hv
        rcases List.mem_cons.mp hv with rfl | hv
        · simpa using hu
        · exact ih h v hv
    | _ =>
      simp only [cut] at h
      exact ih h

theorem cut_some (term : V → Bool) (l : List (Event V E)) (w : V) (h : (cut term l).2 = some w) :
    ∃ a b, (cut term l).1 = a ++ [.start w] ∧ l = a ++ .start w :: b ∧ term w = true ∧
      ∀ v ∈ starts a, term v = false := by
  induction l with
  | nil => cases h
  | cons ev l ih =>
    cases ev with
    | start u =>
      rw [cut] at h ⊢
      by_cases hu : term u = true
      · simp only [hu, if_true, Option.some.injEq] at h ⊢
        subst h
        exact ⟨[], l, rfl, rfl, hu, fun v hv => by cases hv⟩
      · simp only [hu, Bool.false_eq_true, if_false] at h ⊢
        obtain ⟨a, b, h1, h2, h3, h4⟩ := ih h
        refine ⟨.start u :: a, b, by rw [h1]; rfl, by rw [h2]; rfl, h3, fun v hv => ?_⟩
        rw [starts_start] at hv
        rcases List.mem_cons.mp hv with rfl | hv
        · simpa using hu
        · exact h4 v hv
    | _ =>
      simp only [cut] at h ⊢
      obtain ⟨a, b, h1, h2, h3, h4⟩ := ih h
      refine ⟨_ :: a, b, by rw [h1]; rfl, by rw [h2]; rfl, h3, ?_⟩
      exact h4

/-! ### Breadth-first search follows the reference up to the first terminator -/

/-- The state after the events up to the first terminator. -/
def bstop (c : Comp σ V E) (term : V → Bool) (l : List (Event V E)) (s : σ) (r : Option (List V)) : σ × Option (List V) :=
  match (bcut term l).2 with
  | none => (after c s l, r)
  | some w => (c.on (.searchFinish w) (after c s (bcut term l).1), none)

theorem bfsEdges_stop {I : σ → Set V → Prop} (hT : TracksB G c I) (term : V → Bool) {D D' : Set V} {es : List E}
    {l : List (Event V E)} {new : List V} (h : BEdges G D es l new D')
    (hes : ∀ e ∈ es, G.tgt e ∈ G.vertices ∧ G.src e ∈ D) (q : List V) (s : σ) (hI : I s D) :
    bfsEdges G c term es q s = bstop c term l s (some (q ++ new)) := by
  induction h generalizing q s with
  | nil D => simp [bfsEdges, bstop, bcut, after_nil]
  | @skip D D' e es l new h r ih =>
    have he := hes e List.mem_cons_self
    rw [bfsEdges, if_pos ((hT.disc s D _ hI he.1).mpr h),
      ih (fun e he => hes e (List.mem_cons_of_mem _ he)) q _ (hT.nonTree s D e hI)]
    simp only [bstop, bcut, after_cons]
  | @tree D D' e es l new h r ih =>
    have he := hes e List.mem_cons_self
    have hd : ¬c.disc s (G.tgt e) = true := fun hd => h ((hT.disc s D _ hI he.1).mp hd)
    rw [bfsEdges, if_neg hd]
    by_cases ht : term (G.tgt e) = true
    · simp only [bfsDiscover, ht, if_true, bstop, bcut, after_cons, after_nil]
    · simp only [bfsDiscover, ht, Bool.false_eq_true, if_false, bstop, bcut, after_cons]
      rw [ih (fun e he => ⟨(hes e (List.mem_cons_of_mem _ he)).1,
          Set.mem_insert_of_mem _ (hes e (List.mem_cons_of_mem _ he)).2⟩)
        (q ++ [G.tgt e]) _ (hT.treeFinish _ _ e (hT.tree s D e hI he.2 h he.1))]
      simp only [bstop, List.append_assoc, List.singleton_append]

theorem bfsLoop_stop {I : σ → Set V → Prop} (hT : TracksB G c I) (hG : G.WF) (term : V → Bool) (null : V) {D D' : Set V}
    {q : List V} {l : List (Event V E)} (h : BRun G D q l D') (hq : ∀ u ∈ q, u ∈ G.vertices ∧ u ∈ D) (s : σ)
    (hI : I s D) :
    ∃ fuel, bfsLoop G c term null fuel q s =
      some (match (bcut term l).2 with
        | none => after c s (l ++ [.searchFinish null])
        | some w => c.on (.searchFinish w) (after c s (bcut term l).1)) := by
  induction h generalizing s with
  | nil D => exact ⟨1, rfl⟩
  | @step D D1 D2 u q new l1 l2 h r ih =>
    have hu := hq u List.mem_cons_self
    have hes : ∀ e ∈ G.out u, G.tgt e ∈ G.vertices ∧ G.src e ∈ D := fun e he =>
      ⟨hG.tgt u hu.1 e he, by rw [hG.src u hu.1 e he]; exact hu.2⟩
    have h1 := bfsEdges_stop hT term h hes q _ (hT.start s D u hI hu.2)
    have h2 := (bfsEdges_ref hT h hes q _ (hT.start s D u hI hu.2)).2
    have hcut : bcut term (.start u :: (l1 ++ .finish u :: l2)) =
        match (bcut term l1).2 with
        | some w => (.start u :: (bcut term l1).1, some w)
        | none => (.start u :: (l1 ++ .finish u :: (bcut term l2).1), (bcut term l2).2) := by
      rw [bcut, bcut_append]
      · cases (bcut term l1).2 <;> simp [bcut]
      · intro _ h; cases h
    rw [hcut]
    cases hc : (bcut term l1).2 with
    | some w =>
      refine ⟨1, ?_⟩
      rw [bfsLoop, h1]
      simp only [bstop, hc, after_cons]
    | none =>
      obtain ⟨f, hf⟩ := ih (fun v hv => by
        rcases List.mem_append.mp hv with hv | hv
        · exact ⟨(hq v (List.mem_cons_of_mem _ hv)).1, h.subset (hq v (List.mem_cons_of_mem _ hv)).2⟩
        · obtain ⟨e, he, rfl⟩ := h.new_spec.2.2.2.1 v hv
          exact ⟨hG.tgt u hu.1 e he, h.new_spec.2.2.2.2 e he⟩) _ (hT.finish _ _ u h2 (h.subset hu.2))
      refine ⟨f + 1, ?_⟩
      rw [bfsLoop, h1]
      simp only [bstop, hc, hf, after_cons, after_append, List.cons_append, List.append_assoc]

theorem bfsSources_stop {I : σ → Set V → Prop} (hT : TracksB G c I) (term : V → Bool) (us : List V)
    (hus : ∀ u ∈ us, u ∈ G.vertices) (hn : us.Nodup) (D : Set V) (hD : ∀ u ∈ us, u ∉ D) (q : List V) (s : σ)
    (hI : I s D) :
    bfsSources c term us q s = bstop c term (srcEvents us) s (some (q ++ us)) := by
  induction us generalizing D q s with
  | nil => simp [bfsSources, srcEvents, after_nil, bstop, bcut]
  | cons u us ih =>
    rw [List.nodup_cons] at hn
    have := ih (fun v hv => hus v (List.mem_cons_of_mem _ hv)) hn.2 (insert u D) (fun v hv h => by
      rcases Set.mem_insert_iff.mp h with rfl | h
      · exact hn.1 hv
      · exact hD v (List.mem_cons_of_mem _ hv) h) (q ++ [u]) _
      (hT.root s D u hI (hD u List.mem_cons_self) (hus u List.mem_cons_self))
    rw [show (srcEvents (u :: us) : List (Event V E)) = .searchStart u :: .discover u :: srcEvents us from rfl]
    rw [bfsSources]
    by_cases ht : term u = true
    · simp only [bfsDiscover, ht, if_true, bstop, bcut, after_cons, after_nil]
    · simp only [bfsDiscover, ht, Bool.false_eq_true, if_false, bstop, bcut, after_cons]
      rw [this]
      simp only [bstop, List.append_assoc, List.singleton_append]

/-- The search follows the reference, up to the first terminator. -/
theorem bfs_stop {I : σ → Set V → Prop} (hT : TracksB G c I) (hG : G.WF) (term : V → Bool) (null : V) (us : List V)
    (hus : ∀ u ∈ us, u ∈ G.vertices) (hn : us.Nodup) (s : σ) (hI : I (initAll c G.vertices s) ∅)
    {l1 : List (Event V E)} {D' : Set V} (hr : BRun G {v | v ∈ us} us l1 D') :
    ∃ fuel, bfs G c term null fuel us s =
        some (match (bcut term (srcEvents us ++ l1)).2 with
          | none => after c (initAll c G.vertices s) (srcEvents us ++ l1 ++ [.searchFinish null])
          | some w => after c (initAll c G.vertices s) ((bcut term (srcEvents us ++ l1)).1 ++ [.searchFinish w])) := by
  have h1 := bfsSources_stop hT term us hus hn ∅ (fun u _ => Set.notMem_empty u) [] _ hI
  have h2 := (bfsSources_ref hT us hus hn ∅ (fun u _ => Set.notMem_empty u) [] _ hI).2
  rw [Set.empty_union] at h2
  rw [bcut_append]
  cases hc : (bcut term (srcEvents us : List (Event V E))).2 with
  | some w =>
    refine ⟨0, ?_⟩
    unfold bfs
    rw [h1]
    simp only [bstop, hc, after_append]
    rfl
  | none =>
    obtain ⟨fuel, hf⟩ := bfsLoop_stop hT hG term null hr (fun u hu => ⟨hus u hu, hu⟩) _ h2
    refine ⟨fuel, ?_⟩
    unfold bfs
    rw [h1]
    simp only [bstop, hc, List.nil_append]
    rw [hf]
    cases (bcut term l1).2 <;> simp only [after_append] <;> rfl

theorem bcut_false (l : List (Event V E)) : bcut (fun _ => false) l = (l, none) := by
  induction l with
  | nil => simp [bcut]
  | cons ev l ih => cases ev <;> simp [bcut, ih]

/-! ### Stories -/

theorem Story.take {R : V → Prop} {D : Set V} {l l' : List (Event V E)} (h : Story G R D (l ++ l'))
    (hl : ∀ u, l.getLast? ≠ some (.searchStart u)) (hl2 : ∀ e, l.getLast? ≠ some (.treeStart e)) : Story G R D l := by
  generalize hm : l ++ l' = m at h
  induction h generalizing l with
  | nil D =>
    obtain ⟨rfl, _⟩ := List.append_eq_nil_iff.mp hm
    exact .nil D
  | @root D u m hR hu r ih =>
    match l with
    | [] => exact .nil D
    | [_] =>
      simp only [List.cons_append, List.nil_append, List.cons.injEq] at hm
      obtain ⟨rfl, _⟩ := hm
      exact absurd rfl (hl u)
    | _ :: _ :: l =>
      simp only [List.cons_append, List.cons.injEq] at hm
      obtain ⟨rfl, rfl, hm⟩ := hm
      refine .root hR hu ?_
      cases l with
      | nil => exact .nil _
      | cons x l => exact ih (by simpa [List.getLast?_cons_cons] using hl) (by simpa [List.getLast?_cons_cons] using hl2) hm
  | @tree D e m he hs ht r ih =>
    match l with
    | [] => exact .nil D
    | [_] =>
      simp only [List.cons_append, List.nil_append, List.cons.injEq] at hm
      obtain ⟨rfl, _⟩ := hm
      exact absurd rfl (hl2 e)
    | _ :: _ :: l =>
      simp only [List.cons_append, List.cons.injEq] at hm
      obtain ⟨rfl, rfl, hm⟩ := hm
      refine .tree he hs ht ?_
      cases l with
      | nil => exact .nil _
      | cons x l => exact ih (by simpa [List.getLast?_cons_cons] using hl) (by simpa [List.getLast?_cons_cons] using hl2) hm
  | @nonTree D e m he hs ht r ih =>
    match l with
    | [] => exact .nil D
    | _ :: l =>
      simp only [List.cons_append, List.cons.injEq] at hm
      obtain ⟨rfl, hm⟩ := hm
      refine .nonTree he hs ht ?_
      cases l with
      | nil => exact .nil _
      | cons x l => exact ih (by simpa [List.getLast?_cons_cons] using hl) (by simpa [List.getLast?_cons_cons] using hl2) hm
  | @treeFinish D e m hs ht r ih =>
    match l with
    | [] => exact .nil D
    | _ :: l =>
      simp only [List.cons_append, List.cons.injEq] at hm
      obtain ⟨rfl, hm⟩ := hm
      refine .treeFinish hs ht ?_
      cases l with
      | nil => exact .nil _
      | cons x l => exact ih (by simpa [List.getLast?_cons_cons] using hl) (by simpa [List.getLast?_cons_cons] using hl2) hm
  | @start D u m h r ih =>
    match l with
    | [] => exact .nil D
    | _ :: l =>
      simp only [List.cons_append, List.cons.injEq] at hm
      obtain ⟨rfl, hm⟩ := hm
      refine .start h ?_
      cases l with
      | nil => exact .nil _
      | cons x l => exact ih (by simpa [List.getLast?_cons_cons] using hl) (by simpa [List.getLast?_cons_cons] using hl2) hm
  | @finish D u m h r ih =>
    match l with
    | [] => exact .nil D
    | _ :: l =>
      simp only [List.cons_append, List.cons.injEq] at hm
      obtain ⟨rfl, hm⟩ := hm
      refine .finish h ?_
      cases l with
      | nil => exact .nil _
      | cons x l => exact ih (by simpa [List.getLast?_cons_cons] using hl) (by simpa [List.getLast?_cons_cons] using hl2) hm
  | @searchFinish D u m r ih =>
    match l with
    | [] => exact .nil D
    | _ :: l =>
      simp only [List.cons_append, List.cons.injEq] at hm
      obtain ⟨rfl, hm⟩ := hm
      refine .searchFinish ?_
      cases l with
      | nil => exact .nil _
      | cons x l => exact ih (by simpa [List.getLast?_cons_cons] using hl) (by simpa [List.getLast?_cons_cons] using hl2) hm

theorem Story.drop_discover {R : V → Prop} {D : Set V} {l l' : List (Event V E)} {w : V}
    (h : Story G R D (l ++ .discover w :: l')) :
    Story G R (D ∪ {v | v ∈ discs l} ∪ {w}) l' := by
  generalize hm : l ++ .discover w :: l' = m at h
  have ins : ∀ (D : Set V) (v : V) (m : List (Event V E)),
      D ∪ {x | x ∈ v :: discs m} = insert v D ∪ {x | x ∈ discs m} := by
    intro D v m
    ext x
    simp only [Set.mem_union, Set.mem_insert_iff, Set.mem_setOf_eq, List.mem_cons]
    tauto
  induction h generalizing l with
  | nil D => simp at hm
  | @root D u m hR hu r ih =>
    match l with
    | [] => simp at hm
    | [_] =>
      simp only [List.cons_append, List.nil_append, List.cons.injEq] at hm
      obtain ⟨rfl, h1, rfl⟩ := hm
      cases h1
      have : D ∪ {v | v ∈ discs ([.searchStart w] : List (Event V E))} ∪ {w} = insert w D := by
        ext x; simp [or_comm]
      rw [this]
      exact r
    | _ :: _ :: l =>
      simp only [List.cons_append, List.cons.injEq] at hm
      obtain ⟨rfl, rfl, hm⟩ := hm
      simp only [discs_searchStart, discs_discover, ins]
      exact ih hm
  | @tree D e m he hs ht r ih =>
    match l with
    | [] => simp at hm
    | [_] =>
      simp only [List.cons_append, List.nil_append, List.cons.injEq] at hm
      obtain ⟨rfl, h1, rfl⟩ := hm
      cases h1
      have : D ∪ {v | v ∈ discs ([.treeStart e] : List (Event V E))} ∪ {G.tgt e} = insert (G.tgt e) D := by
        ext x; simp [or_comm]
      rw [this]
      exact r
    | _ :: _ :: l =>
      simp only [List.cons_append, List.cons.injEq] at hm
      obtain ⟨rfl, rfl, hm⟩ := hm
      simp only [discs_treeStart, discs_discover, ins]
      exact ih hm
  | nonTree _ _ _ _ ih | treeFinish _ _ _ ih | start _ _ ih | finish _ _ ih | searchFinish _ ih =>
    match l with
    | [] => simp at hm
    | _ :: l =>
      simp only [List.cons_append, List.cons.injEq] at hm
      obtain ⟨rfl, hm⟩ := hm
      exact ih (l := l) hm

variable [DecidableEq V]

/-- The distance of a discovered vertex stays. -/
theorem Story.keep_dist {R : V → Prop} {D : Set V} {l : List (Event V E)} (h : Story G R D l) (d : V → Int) (v : V)
    (hv : v ∈ D) : after (distanceRecorder G) d l v = d v := by
  induction h generalizing d with
  | nil D => rfl
  | @root D u l hR hu r ih =>
    rw [after_cons, after_cons, ih _ (Set.mem_insert_of_mem _ hv)]
    show put d u 0 v = d v
    have : v ≠ u := fun h => hu (h ▸ hv)
    simp [put, this]
  | @tree D e l he hs ht r ih =>
    rw [after_cons, after_cons, ih _ (Set.mem_insert_of_mem _ hv)]
    show put d (G.tgt e) (d (G.src e) + 1) v = d v
    have : v ≠ G.tgt e := fun h => ht (h ▸ hv)
    simp [put, this]
  | nonTree he hs ht r ih => exact ih _ hv
  | treeFinish hs ht r ih => exact ih _ hv
  | start h r ih => exact ih _ hv
  | finish h r ih => exact ih _ hv
  | searchFinish r ih => exact ih _ hv

/-- The vertices on the way to the root. -/
theorem Forest.follow_mem {R : V → Prop} {D : Set V} {p : V → Option V} {d : V → Int} (h : Forest G R p d D) (n : Nat)
    (v : V) (hv : v ∈ D) (hn : d v = n) (k : Nat) (hk : k ≤ n) (x : V) (hx : follow p k v = some x) :
    x ∈ D ∧ d x = n - k := by
  induction k generalizing n v with
  | zero =>
    simp only [follow, Option.some.injEq] at hx
    subst hx
    exact ⟨hv, by simpa using hn⟩
  | succ k ih =>
    rcases h v hv with ⟨_, _, h3⟩ | ⟨w, hw, h1, _, h3, h4⟩
    · omega
    · rw [follow, h1] at hx
      obtain ⟨m, rfl⟩ : ∃ m, n = m + 1 := ⟨n - 1, by omega⟩
      obtain ⟨i1, i2⟩ := ih m w hw (by push_cast at hn; omega) (by omega) hx
      exact ⟨i1, by rw [i2]; push_cast; omega⟩

/-- The vertices are discovered in the order of their distances. -/
theorem BRun.sorted {D D' : Set V} {q : List V} {l : List (Event V E)} (hG : G.WF) (h : BRun G D q l D')
    (hq : ∀ u ∈ q, u ∈ G.vertices ∧ u ∈ D) (d : V → Int) (hsort : q.Pairwise (fun x y => d x ≤ d y))
    (hbound : ∀ v ∈ D, ∀ x ∈ q, d v ≤ d x + 1) :
    (q ++ discs l).Pairwise (fun x y => after (distanceRecorder G) d l x ≤ after (distanceRecorder G) d l y) ∧
    ∀ b : Int, (∀ x ∈ q, b ≤ d x) → ∀ x ∈ discs l, b ≤ after (distanceRecorder G) d l x := by
  induction h generalizing d with
  | nil D => exact ⟨by simpa [after_nil] using hsort, fun b _ x hx => by cases hx⟩
  | @step D D1 D2 u q new l1 l2 h r ih =>
    obtain ⟨n1, n2, n3, n4, n5⟩ := h.new_spec
    have hu := hq u List.mem_cons_self
    obtain ⟨e1, e2⟩ := h.dist hu.2 (fun e he => hG.src u hu.1 e he) d
    have hold : ∀ x ∈ q, after (distanceRecorder G) d l1 x = d x := fun x hx =>
      e1 x (hq x (List.mem_cons_of_mem _ hx)).2
    rw [List.pairwise_cons] at hsort
    have hcase : ∀ v ∈ D1, v ∈ D ∨ v ∈ new := fun v hv => by
      by_cases hd : v ∈ D
      · exact Or.inl hd
      · exact Or.inr ((n3 v).mpr ⟨hv, hd⟩)
    have hle : ∀ v ∈ D1, after (distanceRecorder G) d l1 v ≤ d u + 1 := by
      intro v hv
      rcases hcase v hv with h1 | h1
      · rw [e1 v h1]; exact hbound v h1 u List.mem_cons_self
      · rw [e2 v h1]
    have hge : ∀ x ∈ q ++ new, d u ≤ after (distanceRecorder G) d l1 x := by
      intro x hx
      rcases List.mem_append.mp hx with hx | hx
      · rw [hold x hx]; exact hsort.1 x hx
      · rw [e2 x hx]; omega
    have hq' : ∀ v ∈ q ++ new, v ∈ G.vertices ∧ v ∈ D1 := fun v hv => by
      rcases List.mem_append.mp hv with hv | hv
      · exact ⟨(hq v (List.mem_cons_of_mem _ hv)).1, h.subset (hq v (List.mem_cons_of_mem _ hv)).2⟩
      · obtain ⟨e, he, rfl⟩ := n4 v hv
        exact ⟨hG.tgt u hu.1 e he, n5 e he⟩
    obtain ⟨i1, i2⟩ := ih hq' (after (distanceRecorder G) d l1)
      (by
        rw [List.pairwise_append]
        refine ⟨?_, ?_, ?_⟩
        · exact hsort.2.imp_of_mem (fun {x y} hx hy hxy => by rw [hold x hx, hold y hy]; exact hxy)
        · exact List.pairwise_of_forall_mem_list (fun x hx y hy => by rw [e2 x hx, e2 y hy])
        · intro x hx y hy
          rw [hold x hx, e2 y hy]
          exact hbound x (hq x (List.mem_cons_of_mem _ hx)).2 u List.mem_cons_self)
      (fun v hv x hx => by
        have h1 := hle v hv
        have h2 := hge x hx
        omega)
    have hkeep := fun v (hv : v ∈ D1) => (r.story hG (fun _ => True) hq').keep_dist (after (distanceRecorder G) d l1) v hv
    have hafter : after (distanceRecorder G) d (.start u :: (l1 ++ .finish u :: l2)) =
        after (distanceRecorder G) (after (distanceRecorder G) d l1) l2 := by
      rw [after_cons, after_append, after_cons]; rfl
    rw [hafter]
    have hd : discs (.start u :: (l1 ++ .finish u :: l2)) = new ++ discs l2 := by simp [n1]
    rw [hd]
    refine ⟨?_, fun b hb x hx => ?_⟩
    · rw [List.cons_append, List.pairwise_cons, ← List.append_assoc]
      refine ⟨fun x hx => ?_, i1⟩
      rw [hkeep u (h.subset hu.2), e1 u hu.2]
      rcases List.mem_append.mp hx with hx | hx
      · rw [hkeep x (hq' x hx).2]; exact hge x hx
      · exact i2 (d u) hge x hx
    · have hbu := hb u List.mem_cons_self
      rcases List.mem_append.mp hx with hx | hx
      · rw [hkeep x (hq' x (List.mem_append_right _ hx)).2, e2 x hx]; omega
      · exact i2 b (fun y hy => le_trans hbu (hge y hy)) x hx

/-- The sources have distance zero. -/
theorem dist_srcEvents (us : List V) (d : V → Int) (u : V) (hu : u ∈ us) :
    after (distanceRecorder G) d (srcEvents us) u = 0 := by
  have same : ∀ (us : List V) (d : V → Int), d u = 0 → after (distanceRecorder G) d (srcEvents us) u = 0 := by
    intro us
    induction us with
    | nil => exact fun d hd => hd
    | cons w us ih =>
      intro d hd
      rw [show (srcEvents (w :: us) : List (Event V E)) = .searchStart w :: .discover w :: srcEvents us from rfl,
        after_cons, after_cons]
      refine ih _ ?_
      show put d w 0 u = 0
      by_cases h : u = w
      · simp [put, h]
      · simp [put, h, hd]
  induction us generalizing d with
  | nil => cases hu
  | cons w us ih =>
    rw [show (srcEvents (w :: us) : List (Event V E)) = .searchStart w :: .discover w :: srcEvents us from rfl,
      after_cons, after_cons]
    by_cases h : u = w
    · refine same us _ ?_
      show put d w 0 u = 0
      simp [put, h]
    · exact ih _ ((List.mem_cons.mp hu).resolve_left h)

/-- The flags after some events. -/
theorem after_flag (s : V → Bool) (l : List (Event V E)) (hl : ∀ u, Event.init u ∉ l) (v : V) :
    after (discoveredFlag : Comp _ V E) s l v = true ↔ s v = true ∨ v ∈ discs l := by
  induction l generalizing s with
  | nil => simp [after_nil]
  | cons ev l ih =>
    rw [after_cons, ih _ (fun u hu => hl u (List.mem_cons_of_mem _ hu))]
    cases ev with
    | init u => exact absurd List.mem_cons_self (hl u)
    | discover u =>
      rw [discs_discover, List.mem_cons]
      show put s u true v = true ∨ _ ↔ _
      by_cases h : v = u <;> simp [put, h]
    | _ => exact Iff.rfl

/-- Every discovery is followed by a start at once. -/
def NextStart : List (Event V E) → Prop
  | [] => True
  | .discover v :: l => (∃ b, l = .start v :: b) ∧ NextStart l
  | _ :: l => NextStart l

theorem NextStart.append {l l' : List (Event V E)} (h : NextStart l) (h' : NextStart l') : NextStart (l ++ l') := by
  induction l with
  | nil => exact h'
  | cons ev l ih =>
    cases ev with
    | discover v => obtain ⟨⟨b, rfl⟩, h2⟩ := h; exact ⟨⟨b ++ l', by simp⟩, ih h2⟩
    | _ => exact ih h

theorem NextStart.spec {a b : List (Event V E)} {v : V} (h : NextStart (a ++ .discover v :: b)) :
    ∃ b', b = .start v :: b' := by
  induction a with
  | nil => exact h.1
  | cons ev a ih =>
    cases ev with
    | discover v => exact ih h.2
    | _ => exact ih h

theorem Run.nextStart {D D' : Set V} {es : List E} {l : List (Event V E)} (h : Run G D es l D') : NextStart l := by
  induction h with
  | nil D => trivial
  | skip h r ih => exact ih
  | tree h r1 r2 ih1 ih2 =>
    simp only [List.append_assoc, List.cons_append, List.nil_append, NextStart]
    exact ⟨⟨_, rfl⟩, ih1.append (by simpa [NextStart] using ih2)⟩

theorem Visit.nextStart {D D' : Set V} {u : V} {l : List (Event V E)} (h : Visit G D u l D') : NextStart l := by
  obtain ⟨l1, hr, rfl⟩ := h
  simp only [List.append_assoc, List.cons_append, List.nil_append, NextStart]
  exact ⟨⟨_, rfl⟩, hr.nextStart.append (by simp [NextStart])⟩

/-- The vertices discovered before a start were started before, all but the one started. -/
theorem NextStart.before {a b : List (Event V E)} {v w : V} (h : NextStart (a ++ .start w :: b)) (hv : v ∈ discs a) :
    v ∈ starts a ∨ v = w ∧ ∃ a', a = a' ++ [.discover w] := by
  obtain ⟨a1, a2, rfl⟩ := List.append_of_mem (mem_discs.mp hv)
  rw [List.append_assoc, List.cons_append] at h
  obtain ⟨b', hb⟩ := h.spec
  cases a2 with
  | nil =>
    simp only [List.nil_append, List.cons.injEq, Event.start.injEq] at hb
    exact Or.inr ⟨hb.1.symm, a1, by rw [hb.1]⟩
  | cons ev a2 =>
    simp only [List.cons_append, List.cons.injEq] at hb
    rw [hb.1]
    exact Or.inl (by simp)

end Actl.Traversal
