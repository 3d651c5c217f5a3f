import Verif.Model.SearchMemory
import Verif.Lemmas.Terminator

/-!
Lemmas of `Props/Linear`: how many steps the searches make.
-/

namespace Actl.Traversal

variable {σ V E : Type} {G : Graph V E} {c : Comp σ V E}

/-- The edges that leave the vertices of a list. -/
def outDegrees (G : Graph V E) (vs : List V) : Nat := (vs.map (fun v => (G.out v).length)).sum

theorem outDegrees_append (vs ws : List V) : outDegrees G (vs ++ ws) = outDegrees G vs + outDegrees G ws := by
  simp [outDegrees]

theorem outDegrees_cons (v : V) (ws : List V) : outDegrees G (v :: ws) = (G.out v).length + outDegrees G ws := by
  simp [outDegrees]

theorem outDegrees_perm {vs ws : List V} (h : vs.Perm ws) : outDegrees G vs = outDegrees G ws :=
  (h.map _).sum_nat

theorem outDegrees_nil : outDegrees G ([] : List V) = 0 := rfl

theorem Run.count {D D' : Set V} {es : List E} {l : List (Event V E)} (h : Run G D es l D') :
    (examined l).length = es.length + outDegrees G (discs l) ∧ l.length = (examined l).length + 4 * (discs l).length := by
  induction h with
  | nil D => simp [outDegrees]
  | skip h r ih => simp only [examined_nonTree, discs_nonTree, List.length_cons, ih.1, ih.2]; omega
  | tree h r1 r2 ih1 ih2 =>
    simp only [examined_append, examined_treeStart, examined_discover, examined_start, examined_finish,
      examined_treeFinish, examined_nil, discs_append, discs_treeStart, discs_discover, discs_start, discs_finish,
      discs_treeFinish, discs_nil, List.length_append, List.length_cons, List.length_nil, ih1.1, ih2.1, ih1.2, ih2.2,
      outDegrees_append, outDegrees_cons, outDegrees_nil]
    omega

/-- Steps of the loop over a run. -/
def cost (l : List (Event V E)) : Nat := (examined l).length + (discs l).length

/-- The loop over a run: so many steps, and the stack grows by at most the vertices discovered. -/
theorem loop_run {I : σ → Set V → Prop} (hT : Tracks G c I) (hG : G.WF) (term : V → Bool)
    {D D' : Set V} {es : List E} {l : List (Event V E)} (h : Run G D es l D')
    (u : V) (stack : List (V × List E)) (f : Nat) (s : σ) (hI : I s D)
    (hes : ∀ e ∈ es, G.tgt e ∈ G.vertices ∧ G.src e ∈ D) :
    loop G c term (cost l + f) u es stack s =
      (match (cut term l).2 with
        | none => loop G c term f u [] stack (after c s l)
        | some w => some (after c s (cut term l).1, w)) ∧
      ((cut term l).2 = none → I (after c s l) D') := by
  induction h generalizing u stack f s with
  | nil D =>
    refine ⟨?_, fun _ => hI⟩
    simp [cut, cost, after_nil]
  | @skip D D' e es l hmem r ih =>
    have he := hes e List.mem_cons_self
    have hd : c.disc s (G.tgt e) = true := (hT.disc s D _ hI he.1).mpr hmem
    obtain ⟨h1, h2⟩ := ih u stack f (c.on (.nonTree e) s) (hT.nonTree s D e hI he.2 hmem)
      (fun e' he' => hes e' (List.mem_cons_of_mem _ he'))
    refine ⟨?_, fun hc => h2 (by simpa [cut] using hc)⟩
    have hcost : cost (Event.nonTree e :: l : List (Event V E)) + f = (cost l + f) + 1 := by simp [cost]; omega
    rw [hcost, loop, if_pos hd, h1]
    simp only [cut, after_cons]
  | @tree D D1 D2 e es l1 l2 hmem r1 r2 ih1 ih2 =>
    have he := hes e List.mem_cons_self
    have hd : ¬ c.disc s (G.tgt e) = true := fun hd => hmem ((hT.disc s D _ hI he.1).mp hd)
    have hI1 := hT.enterTree s D e hI he.2 hmem he.1
    have hcost : cost ([.treeStart e, .discover (G.tgt e), .start (G.tgt e)] ++ l1 ++
        [.finish (G.tgt e), .treeFinish e] ++ l2) + f = (cost l1 + ((cost l2 + f) + 1)) + 1 := by
      simp [cost]; omega
    obtain ⟨h1, hi1⟩ := ih1 (G.tgt e) ((u, e :: es) :: stack) ((cost l2 + f) + 1) _ hI1
      (fun e' he' => ⟨hG.tgt _ he.1 e' he', by rw [hG.src _ he.1 e' he']; exact Set.mem_insert _ _⟩)
    have hsub1 := r1.subset
    rw [hcost, loop, if_neg hd]
    simp only
    by_cases ht : term (G.tgt e) = true
    · have hc : cut term ([.treeStart e, .discover (G.tgt e), .start (G.tgt e)] ++ l1 ++
          [.finish (G.tgt e), .treeFinish e] ++ l2) =
          ([.treeStart e, .discover (G.tgt e), .start (G.tgt e)], some (G.tgt e)) := by
        simp [cut, ht]
      rw [hc, if_pos ht]
      exact ⟨rfl, fun h => by cases h⟩
    · have hhead : cut (E := E) term [.treeStart e, .discover (G.tgt e), .start (G.tgt e)] =
          ([.treeStart e, .discover (G.tgt e), .start (G.tgt e)], none) := by simp [cut, ht]
      rw [if_neg ht, h1]
      cases hc1 : (cut term l1).2 with
      | some w =>
        have hc : cut term ([.treeStart e, .discover (G.tgt e), .start (G.tgt e)] ++ l1 ++
            [.finish (G.tgt e), .treeFinish e] ++ l2) =
            ([.treeStart e, .discover (G.tgt e), .start (G.tgt e)] ++ (cut term l1).1, some w) := by
          rw [List.append_assoc, List.append_assoc, cut_append, hhead]
          simp only
          rw [cut_append, hc1]
        rw [hc]
        refine ⟨?_, fun h => by cases h⟩
        simp only [after_append]
        rfl
      | none =>
        have hI2 := hi1 hc1
        have hvD1 : G.tgt e ∈ D1 := hsub1 (Set.mem_insert _ _)
        have huD1 : G.src e ∈ D1 := hsub1 (Set.mem_insert_of_mem _ he.2)
        obtain ⟨h2, hi2⟩ := ih2 u stack f _ (hT.treeFinish _ _ e (hT.finish _ _ _ hI2 hvD1) huD1 hvD1)
          (fun e' he' => ⟨(hes e' (List.mem_cons_of_mem _ he')).1,
            hsub1 (Set.mem_insert_of_mem _ (hes e' (List.mem_cons_of_mem _ he')).2)⟩)
        have hc : cut term ([.treeStart e, .discover (G.tgt e), .start (G.tgt e)] ++ l1 ++
            [.finish (G.tgt e), .treeFinish e] ++ l2) =
            ([.treeStart e, .discover (G.tgt e), .start (G.tgt e)] ++ l1 ++
            [.finish (G.tgt e), .treeFinish e] ++ (cut term l2).1, (cut term l2).2) := by
          rw [List.append_assoc, List.append_assoc, cut_append, hhead]
          simp only
          rw [cut_append, hc1]
          simp only
          rw [cut_append]
          simp [cut]
        have hst : after c s ([.treeStart e, .discover (G.tgt e), .start (G.tgt e)] ++ l1 ++
            [.finish (G.tgt e), .treeFinish e]) = c.on (.treeFinish e) (c.on (.finish (G.tgt e))
              (after c (c.on (.start (G.tgt e)) (c.on (.discover (G.tgt e)) (c.on (.treeStart e) s))) l1)) := by
          rw [after_append, after_append]; rfl
        rw [hc]
        simp only
        rw [loop]
        refine ⟨?_, fun h => ?_⟩
        · rw [h2]
          cases (cut term l2).2 with
          | none => simp only; rw [after_append _ _ _ l2, hst]
          | some w => simp only; rw [after_append _ _ _ (cut term l2).1, hst]
        · rw [after_append, hst]
          exact hi2 h

/-- The counting copy is the loop. -/
theorem loopDepth_fst (term : V → Bool) (fuel : Nat) (u : V) (es : List E) (stack : List (V × List E)) (s : σ) :
    (loopDepth G c term fuel u es stack s).map Prod.fst = loop G c term fuel u es stack s := by
  induction fuel generalizing u es stack s with
  | zero => rfl
  | succ fuel ih =>
    cases es with
    | nil =>
      cases stack with
      | nil => rfl
      | cons x stack =>
        obtain ⟨v, es'⟩ := x
        cases es' with
        | nil => rfl
        | cons e es' => rw [loopDepth, loop, Option.map_map, ← ih]; rfl
    | cons e es =>
      rw [loopDepth, loop]
      by_cases hd : c.disc s (G.tgt e) = true
      · rw [if_pos hd, if_pos hd, ← ih, Option.map_map]; rfl
      · rw [if_neg hd, if_neg hd]
        by_cases ht : term (G.tgt e) = true
        · simp only [if_pos ht]; rfl
        · simp only [if_neg ht, Option.map_map]; rw [← ih]; rfl

theorem loopDepth_mono (term : V → Bool) (n m : Nat) (hnm : n ≤ m) (u : V) (es : List E) (stack : List (V × List E))
    (s : σ) (r : (σ × V) × Nat) (h : loopDepth G c term n u es stack s = some r) :
    loopDepth G c term m u es stack s = some r := by
  induction n generalizing m u es stack s r with
  | zero => cases h
  | succ n ih =>
    obtain ⟨m, rfl⟩ : ∃ k, m = k + 1 := ⟨m - 1, by omega⟩
    cases es with
    | nil =>
      cases stack with
      | nil => exact h
      | cons x stack =>
        obtain ⟨v, es'⟩ := x
        cases es' with
        | nil => cases h
        | cons e es' =>
          rw [loopDepth] at h ⊢
          obtain ⟨y, h1, h2⟩ := Option.map_eq_some_iff.mp h
          rw [ih m (by omega) _ _ _ _ _ h1]
          exact congrArg some h2
    | cons e es =>
      rw [loopDepth] at h ⊢
      by_cases hd : c.disc s (G.tgt e) = true
      · rw [if_pos hd] at h ⊢
        obtain ⟨y, h1, h2⟩ := Option.map_eq_some_iff.mp h
        rw [ih m (by omega) _ _ _ _ _ h1]
        exact congrArg some h2
      · rw [if_neg hd] at h ⊢
        simp only at h ⊢
        by_cases ht : term (G.tgt e) = true
        · rw [if_pos ht] at h ⊢; exact h
        · rw [if_neg ht] at h ⊢
          obtain ⟨y, h1, h2⟩ := Option.map_eq_some_iff.mp h
          rw [ih m (by omega) _ _ _ _ _ h1]
          exact congrArg some h2

theorem visitDepth_fst (term : V → Bool) (fuel : Nat) (u : V) (s : σ) :
    (visitDepth G c term fuel u s).map Prod.fst = visit G c term fuel u s := by
  unfold visitDepth visit
  by_cases ht : term u = true
  · simp only [if_pos ht]; rfl
  · simp only [if_neg ht]
    rw [← loopDepth_fst]
    cases loopDepth G c term fuel u (G.out u) [] _ <;> rfl

/-- The stack over a run. -/
theorem loopDepth_run {I : σ → Set V → Prop} (hT : Tracks G c I) (hG : G.WF) (term : V → Bool)
    {D D' : Set V} {es : List E} {l : List (Event V E)} (h : Run G D es l D')
    (u : V) (stack : List (V × List E)) (f : Nat) (s : σ) (hI : I s D)
    (hes : ∀ e ∈ es, G.tgt e ∈ G.vertices ∧ G.src e ∈ D) (N : Nat) (hN : stack.length + (discs l).length ≤ N)
    (hk : ∀ x n, (cut term l).2 = none → loopDepth G c term f u [] stack (after c s l) = some (x, n) → n ≤ N) (x : σ × V)
    (n : Nat) (hx : loopDepth G c term (cost l + f) u es stack s = some (x, n)) : n ≤ N := by
  induction h generalizing u stack f s x n with
  | nil D => exact hk x n rfl (by simpa [cost, after_nil] using hx)
  | @skip D D' e es l hmem r ih =>
    have he := hes e List.mem_cons_self
    have hd : c.disc s (G.tgt e) = true := (hT.disc s D _ hI he.1).mpr hmem
    have hcost : cost (Event.nonTree e :: l : List (Event V E)) + f = (cost l + f) + 1 := by simp [cost]; omega
    rw [hcost, loopDepth, if_pos hd] at hx
    obtain ⟨⟨y, m⟩, h1, h2⟩ := Option.map_eq_some_iff.mp hx
    simp only [Prod.mk.injEq] at h2
    have := ih u stack f _ (hT.nonTree s D e hI he.2 hmem) (fun e' he' => hes e' (List.mem_cons_of_mem _ he'))
      (by simpa using hN) (fun x n hc hx => hk x n (by simpa [cut] using hc) (by simpa [after_cons] using hx)) y m h1
    omega
  | @tree D D1 D2 e es l1 l2 hmem r1 r2 ih1 ih2 =>
    have he := hes e List.mem_cons_self
    have hd : ¬ c.disc s (G.tgt e) = true := fun hd => hmem ((hT.disc s D _ hI he.1).mp hd)
    have hI1 := hT.enterTree s D e hI he.2 hmem he.1
    have hcost : cost ([.treeStart e, .discover (G.tgt e), .start (G.tgt e)] ++ l1 ++
        [.finish (G.tgt e), .treeFinish e] ++ l2) + f = (cost l1 + ((cost l2 + f) + 1)) + 1 := by
      simp [cost]; omega
    have hN' : stack.length + ((discs l1).length + 1 + (discs l2).length) ≤ N := by
      simp only [discs_append, discs_treeStart, discs_discover, discs_start, discs_finish,
        discs_treeFinish, discs_nil, List.length_append, List.length_cons, List.length_nil] at hN
      omega
    have hes1 : ∀ e' ∈ G.out (G.tgt e), G.tgt e' ∈ G.vertices ∧ G.src e' ∈ insert (G.tgt e) D :=
      fun e' he' => ⟨hG.tgt _ he.1 e' he', by rw [hG.src _ he.1 e' he']; exact Set.mem_insert _ _⟩
    rw [hcost, loopDepth, if_neg hd] at hx
    simp only at hx
    by_cases ht : term (G.tgt e) = true
    · rw [if_pos ht] at hx
      simp only [Option.some.injEq, Prod.mk.injEq] at hx
      omega
    · rw [if_neg ht] at hx
      obtain ⟨⟨y, m⟩, h1, h2⟩ := Option.map_eq_some_iff.mp hx
      simp only [Prod.mk.injEq] at h2
      have := ih1 (G.tgt e) ((u, e :: es) :: stack) ((cost l2 + f) + 1) _ hI1 hes1
        (by simp only [List.length_cons]; omega) ?_ y m h1
      · omega
      · intro x n hc1 hx
        rw [loopDepth] at hx
        obtain ⟨⟨y, m⟩, h1, h2⟩ := Option.map_eq_some_iff.mp hx
        simp only [Prod.mk.injEq, List.length_cons] at h2
        have hI2 := (loop_run hT hG term r1 u stack 0 _ hI1 hes1).2 hc1
        have hsub1 := r1.subset
        have hvD1 : G.tgt e ∈ D1 := hsub1 (Set.mem_insert _ _)
        have huD1 : G.src e ∈ D1 := hsub1 (Set.mem_insert_of_mem _ he.2)
        have hst : after c s ([.treeStart e, .discover (G.tgt e), .start (G.tgt e)] ++ l1 ++
            [.finish (G.tgt e), .treeFinish e]) = c.on (.treeFinish e) (c.on (.finish (G.tgt e))
              (after c (c.on (.start (G.tgt e)) (c.on (.discover (G.tgt e)) (c.on (.treeStart e) s))) l1)) := by
          rw [after_append, after_append]; rfl
        have hhead : cut (E := E) term [.treeStart e, .discover (G.tgt e), .start (G.tgt e)] =
          ([.treeStart e, .discover (G.tgt e), .start (G.tgt e)], none) := by simp [cut, ht]
        have := ih2 u stack f _ (hT.treeFinish _ _ e (hT.finish _ _ _ hI2 hvD1) huD1 hvD1)
          (fun e' he' => ⟨(hes e' (List.mem_cons_of_mem _ he')).1,
            hsub1 (Set.mem_insert_of_mem _ (hes e' (List.mem_cons_of_mem _ he')).2)⟩) (by omega)
          (fun x n hc hx => hk x n (by
            rw [List.append_assoc, List.append_assoc, cut_append, hhead]
            simp only
            rw [cut_append, hc1]
            simp only
            rw [cut_append]
            simpa [cut] using hc) (by rw [after_append, hst]; exact hx)) y m h1
        omega

/-! ### Breadth-first search -/

theorem bfsLoopWidth_fst (term : V → Bool) (null : V) (fuel : Nat) (q : List V) (s : σ) :
    (bfsLoopWidth G c term null fuel q s).map Prod.fst = bfsLoop G c term null fuel q s := by
  induction fuel generalizing q s with
  | zero => rfl
  | succ fuel ih =>
    cases q with
    | nil => rfl
    | cons u q =>
      rw [bfsLoopWidth, bfsLoop]
      cases bfsEdges G c term (G.out u) q (c.on (.start u) s) with
      | mk s' q' =>
        cases q' with
        | none => rfl
        | some q' => simp only [Option.map_map]; rw [← ih]; rfl

theorem bfsWidth_fst (term : V → Bool) (null : V) (fuel : Nat) (us : List V) (s : σ) :
    (bfsWidth G c term null fuel us s).map Prod.fst = bfs G c term null fuel us s := by
  unfold bfsWidth bfs
  cases bfsSources c term us [] (initAll c G.vertices s) with
  | mk s' q' =>
    cases q' with
    | none => rfl
    | some q' => exact bfsLoopWidth_fst _ _ _ _ _

theorem BEdges.count {D D' : Set V} {es : List E} {l : List (Event V E)} {new : List V} (h : BEdges G D es l new D') :
    (examined l).length = es.length ∧ l.length = (examined l).length + 2 * new.length ∧ (discs l) = new := by
  induction h with
  | nil D => simp
  | skip h r ih => simp only [examined_nonTree, discs_nonTree, List.length_cons, ih.1, ih.2.1, ih.2.2]; exact ⟨trivial, by omega, trivial⟩
  | tree h r ih =>
    simp only [examined_treeStart, examined_discover, examined_treeFinish, discs_treeStart, discs_discover, discs_treeFinish,
      List.length_cons, ih.1, ih.2.1, ih.2.2]
    exact ⟨trivial, by omega, trivial⟩

theorem BRun.count {D D' : Set V} {q : List V} {l : List (Event V E)} (h : BRun G D q l D') :
    (examined l).length = outDegrees G (q ++ discs l) ∧
    l.length = (examined l).length + 2 * q.length + 4 * (discs l).length := by
  induction h with
  | nil D => simp [outDegrees]
  | @step D D1 D2 u q new l1 l2 h r ih =>
    obtain ⟨h1, h2, h3⟩ := h.count
    obtain ⟨i1, i2⟩ := ih
    simp only [examined_start, examined_append, examined_finish, discs_start, discs_append, discs_finish, h3,
      List.length_cons, List.length_append, h1, h2, i1, i2, List.cons_append, outDegrees_cons, outDegrees_append] at *
    omega

/-- The loop over the queue makes one step for every vertex, and one more. -/
theorem bfsLoop_steps {I : σ → Set V → Prop} (hT : TracksB G c I) (hG : G.WF) (null : V) {D D' : Set V} {q : List V}
    {l : List (Event V E)} (h : BRun G D q l D') (hq : ∀ u ∈ q, u ∈ G.vertices ∧ u ∈ D) (f : Nat) (s : σ) (hI : I s D) :
    bfsLoop G c (fun _ => false) null (q.length + (discs l).length + f) q s =
      bfsLoop G c (fun _ => false) null f [] (after c s l) := by
  induction h generalizing s with
  | nil D => simp [after_nil]
  | @step D D1 D2 u q new l1 l2 h r ih =>
    have hu := hq u List.mem_cons_self
    obtain ⟨h1, h2⟩ := bfsEdges_ref hT h (fun e he => ⟨hG.tgt u hu.1 e he, by rw [hG.src u hu.1 e he]; exact hu.2⟩) q
      _ (hT.start s D u hI hu.2)
    have := ih (fun v hv => by
        rcases List.mem_append.mp hv with hv | hv
        · exact ⟨(hq v (List.mem_cons_of_mem _ hv)).1, h.subset (hq v (List.mem_cons_of_mem _ hv)).2⟩
        · obtain ⟨e, he, rfl⟩ := h.new_spec.2.2.2.1 v hv
          exact ⟨hG.tgt u hu.1 e he, h.new_spec.2.2.2.2 e he⟩) _ (hT.finish _ _ u h2 (h.subset hu.2))
    have hl : (u :: q).length + (discs (.start u :: (l1 ++ .finish u :: l2))).length + f =
        ((q ++ new).length + (discs l2).length + f) + 1 := by
      simp only [discs_start, discs_append, discs_finish, h.count.2.2, List.length_cons, List.length_append]
      omega
    rw [hl, bfsLoop, h1]
    simp only
    rw [this, after_cons, after_append, after_cons]

/-- The queue holds no more than the vertices discovered. -/
theorem bfsLoopWidth_run {I : σ → Set V → Prop} (hT : TracksB G c I) (hG : G.WF) (null : V) {D D' : Set V} {q : List V}
    {l : List (Event V E)} (h : BRun G D q l D') (hq : ∀ u ∈ q, u ∈ G.vertices ∧ u ∈ D) (f : Nat) (s : σ) (hI : I s D)
    (N : Nat) (hN : q.length + (discs l).length ≤ N) (x : σ) (n : Nat)
    (hx : bfsLoopWidth G c (fun _ => false) null f q s = some (x, n)) : n ≤ N := by
  induction h generalizing s f x n with
  | nil D =>
    cases f with
    | zero => cases hx
    | succ f => simp only [bfsLoopWidth, Option.some.injEq, Prod.mk.injEq] at hx; omega
  | @step D D1 D2 u q new l1 l2 h r ih =>
    cases f with
    | zero => cases hx
    | succ f =>
      have hu := hq u List.mem_cons_self
      obtain ⟨h1, h2⟩ := bfsEdges_ref hT h (fun e he => ⟨hG.tgt u hu.1 e he, by rw [hG.src u hu.1 e he]; exact hu.2⟩) q
        _ (hT.start s D u hI hu.2)
      rw [bfsLoopWidth, h1] at hx
      simp only at hx
      obtain ⟨⟨y, m⟩, h3, h4⟩ := Option.map_eq_some_iff.mp hx
      simp only [Prod.mk.injEq, List.length_cons] at h4
      simp only [discs_start, discs_append, discs_finish, h.count.2.2, List.length_cons, List.length_append] at hN
      have := ih (fun v hv => by
        rcases List.mem_append.mp hv with hv | hv
        · exact ⟨(hq v (List.mem_cons_of_mem _ hv)).1, h.subset (hq v (List.mem_cons_of_mem _ hv)).2⟩
        · obtain ⟨e, he, rfl⟩ := h.new_spec.2.2.2.1 v hv
          exact ⟨hG.tgt u hu.1 e he, h.new_spec.2.2.2.2 e he⟩) f _ (hT.finish _ _ u h2 (h.subset hu.2))
        (by rw [List.length_append]; omega) y m h3
      omega

end Actl.Traversal
