import Verif.Lemmas.Biconnected

/-!
C101: biconnected components.
-/

namespace Actl.Traversal

variable {V E K σ τ : Type}

/-! ### One component seen through another -/

theorem loop_hom {G : Graph V E} {c : Comp σ V E} {d : Comp τ V E} (π : σ → τ) (hon : ∀ ev s, π (c.on ev s) = d.on ev (π s))
    (hdisc : ∀ s v, c.disc s v = d.disc (π s) v) (term : V → Bool) (n : Nat) (u : V) (es : List E)
    (st : List (V × List E)) (s : σ) :
    (loop G c term n u es st s).map (fun r => (π r.1, r.2)) = loop G d term n u es st (π s) := by
  induction n generalizing u es st s with
  | zero => rfl
  | succ n ih =>
    cases es with
    | nil =>
      cases st with
      | nil => show some (π (c.on (.finish u) s), u) = _; rw [hon]; rfl
      | cons f st =>
        obtain ⟨u', es'⟩ := f
        cases es' with
        | nil => rfl
        | cons e es' =>
          have := ih u' es' st (c.on (.treeFinish e) (c.on (.finish u) s))
          rw [hon, hon] at this
          exact this
    | cons e es =>
      rw [loop, loop, ← hdisc]
      by_cases hd : c.disc s (G.tgt e) = true
      · rw [if_pos hd, if_pos hd, ih, hon]
      · rw [if_neg hd, if_neg hd]
        by_cases ht : term (G.tgt e) = true
        · simp only [ht, if_true, Option.map_some, hon]
        · simp only [ht, if_false, Bool.false_eq_true]
          rw [ih, hon, hon, hon]

theorem visit_hom {G : Graph V E} {c : Comp σ V E} {d : Comp τ V E} (π : σ → τ) (hon : ∀ ev s, π (c.on ev s) = d.on ev (π s))
    (hdisc : ∀ s v, c.disc s v = d.disc (π s) v) (term : V → Bool) (n : Nat) (u : V) (s : σ) :
    (visit G c term n u s).map π = visit G d term n u (π s) := by
  unfold visit
  by_cases ht : term u = true
  · simp only [ht, if_true, Option.map_some, hon]
  · simp only [ht, if_false, Bool.false_eq_true]
    have := loop_hom (G := G) π hon hdisc term n u (G.out u) [] (c.on (.start u) (c.on (.discover u) (c.on (.searchStart u) s)))
    rw [hon, hon, hon] at this
    rw [← this]
    cases loop G c term n u (G.out u) [] (c.on (.start u) (c.on (.discover u) (c.on (.searchStart u) s))) with
    | none => rfl
    | some r => show some _ = some _; rw [hon]

theorem dfsAll_hom {G : Graph V E} {c : Comp σ V E} {d : Comp τ V E} (π : σ → τ) (hon : ∀ ev s, π (c.on ev s) = d.on ev (π s))
    (hdisc : ∀ s v, c.disc s v = d.disc (π s) v) (term : V → Bool) (n : Nat) (s : σ) :
    (dfsAll G c term n s).map π = dfsAll G d term n (π s) := by
  have hinit : ∀ vs s, π (initAll c vs s) = initAll d vs (π s) := by
    intro vs
    induction vs with
    | nil => exact fun _ => rfl
    | cons v vs ih => intro s; rw [initAll, initAll, ih, hon]
  have hall : ∀ us s, (visitAll G c term n us s).map π = visitAll G d term n us (π s) := by
    intro us
    induction us with
    | nil => exact fun _ => rfl
    | cons u us ih =>
      intro s
      rw [visitAll, visitAll, ← hdisc, ← visit_hom (G := G) π hon hdisc]
      by_cases hd : (!c.disc s u) = true
      · rw [if_pos hd, if_pos hd]
        cases visit G c term n u s with
        | none => rfl
        | some t => exact ih t
      · rw [if_neg hd, if_neg hd, ih]
  unfold dfsAll
  rw [hall, hinit]

variable [DecidableEq V] [DecidableEq K] {G : Graph V E} {key : E → K} {rev : E → E}

theorem biFinder_art (G : Graph V E) (key : E → K) (ev : Event V E) (s : BiState V E K) :
    ((biFinder G key).on ev s).art = (artFinder G).on ev s.art := by
  cases ev <;> first | rfl | skip
  rw [biTreeFinish]
  split <;> rfl

/-- The marks do not depend on whether the components are asked for: `find_articulation_points_and_components` sets those of
`find_articulation_points` (C51), and never fails where that does not. -/
theorem findBoth_marks (G : Graph V E) (key : E → K) (fuel : Nat) (marks : V → Bool) (map : K → Option Int) :
    (findBoth G key fuel marks map).map (·.1) = findArticulationPoints G fuel marks := by
  have h := dfsAll_hom (G := G) (c := biFinder G key) (d := artFinder G) BiState.art (biFinder_art G key) (fun _ _ => rfl)
    (fun _ => false) fuel ⟨⟨marks, fun _ => 0, fun _ => 0, none, 0, 0⟩, [], map, 0⟩
  unfold findBoth findArticulationPoints
  rw [← h]
  cases dfsAll G (biFinder G key) (fun _ => false) fuel ⟨⟨marks, fun _ => 0, fun _ => 0, none, 0, 0⟩, [], map, 0⟩ <;> rfl

/-! ### The numbers -/

theorem bi_init (marks : V → Bool) (x0 : V) :
    BiInv G key marks (fun _ => none) [] ∅ (fun _ => 0) (fun _ => x0)
      (⟨⟨marks, fun _ => 0, fun _ => 0, none, 0, 0⟩, [], fun _ => none, 0⟩ : BiState V E K) := by
  have hn : ∀ x : V, x ∈ (∅ : Set V) → False := fun x hx => Set.notMem_empty x hx
  have hs : ∀ e : E, e ∈ ([] : List E) → False := fun e he => List.not_mem_nil he
  exact ⟨art_init marks fun _ => none, fun e he => (hs e he).elim, fun e he => (hs e he).elim, fun e he => (hs e he).elim, fun _ => rfl,
    fun k i hk => absurd hk (by simp), fun x hx => (hn x hx).elim, fun _ =>
    ⟨fun e he => (hs e he).elim, .nil, fun k i hk => absurd hk (by simp), fun x hx => (hn x hx).elim⟩⟩

theorem Graph.Undirected.symmetric (hU : G.Undirected rev) : G.Symmetric := by
  rintro u hu v ⟨e, he, rfl⟩
  exact ⟨rev e, hU.mem_rev u hu e he, hU.tgt_rev u hu e he⟩

/-- The state at the end of the search. -/
theorem findBiconnected_events (hG : G.WF) (hS : G.Symmetric) :
    ∃ (s : BiState V E K) (D : Set V) (l : List (Event V E)), (VisitAll G ∅ G.vertices l D ∧
      s = after (biFinder G key) ⟨⟨fun _ => false, fun _ => 0, fun _ => 0, none, 0, 0⟩, [], fun _ => none, 0⟩ l ∧
      ∀ T : V → Int, (∀ x ∈ D, T x = s.art.time x) →
        Agrees G key T ⟨⟨fun _ => false, fun _ => 0, fun _ => 0, none, 0, 0⟩, [], fun _ => none, 0⟩ l) ∧
      (∀ v, v ∈ D ↔ v ∈ G.vertices) ∧
      ((∃ v, v ∈ G.vertices) → ∃ par num comp, BiInv G key (fun _ => false) par [] D num comp s) ∧
      (G.vertices = [] → s.map = fun _ => none) ∧
      (∃ fuel, findBiconnected G key fuel (fun _ => none) = some s.map) ∧
      ∀ fuel res, findBiconnected G key fuel (fun _ => none) = some res → res = s.map := by
  have htr : Tracks G (biFinder G key) (fun s D => ArtI s.art D) := by
    have ht := art_tracks (G := G)
    constructor
    · exact fun s D v h hv => ht.disc s.art D v h hv
    · intro s D e h h1 h2; rw [biFinder_art]; exact ht.nonTree s.art D e h h1 h2
    · intro s D e h h1 h2; rw [biFinder_art]; exact ht.treeFinish s.art D e h h1 h2
    · intro s D u h h1; rw [biFinder_art]; exact ht.finish s.art D u h h1
    · intro s D u h h1; rw [biFinder_art]; exact ht.searchFinish s.art D u h h1
    · intro s D e h h1 h2 h3; rw [biFinder_art, biFinder_art, biFinder_art]; exact ht.enterTree s.art D e h h1 h2 h3
    · intro s D u h h1 h2; rw [biFinder_art, biFinder_art, biFinder_art]; exact ht.enterRoot s.art D u h h1 h2
  have hinit : ∀ vs (s : BiState V E K), initAll (biFinder G key) vs s = { s with art := initAll (artFinder G) vs s.art } := by
    intro vs
    induction vs with
    | nil => exact fun _ => rfl
    | cons v vs ih => intro s; rw [initAll, initAll, ih]; rfl
  obtain ⟨l, D', hva, hi, fuel, hf⟩ := dfsAll_ref htr hG
    ⟨⟨fun _ => false, fun _ => 0, fun _ => 0, none, 0, 0⟩, [], fun _ => none, 0⟩
    (by rw [hinit]; show ArtI (initAll _ _ _) ∅; rw [art_initAll]; exact ⟨Int.le_refl 0, fun v => by simp⟩)
  rw [hinit] at hi hf
  simp only [art_initAll] at hi hf
  have hmem : ∀ v, v ∈ D' ↔ v ∈ G.vertices := by
    intro v
    rw [hva.mem_iff]
    constructor
    · rintro ⟨u, hu, hr⟩
      exact hG.reach_mem hu hr
    · exact fun h => ⟨v, h, .refl⟩
  have hdet : ∀ fuel' res, findBiconnected G key fuel' (fun _ => none) = some res →
      res = (after (biFinder G key) ⟨⟨fun _ => false, fun _ => 0, fun _ => 0, none, 0, 0⟩, [], fun _ => none, 0⟩ l).map := by
    intro fuel' res h
    unfold findBiconnected findBoth at h
    split at h
    · cases h
    · rename_i s' hs'
      have := dfsAll_det _ _ _ _ _ _ hf hs'
      subst this
      injection h with h
      exact h.symm
  have hres : findBiconnected G key fuel (fun _ => none) =
      some (after (biFinder G key) ⟨⟨fun _ => false, fun _ => 0, fun _ => 0, none, 0, 0⟩, [], fun _ => none, 0⟩ l).map := by
    unfold findBiconnected findBoth
    rw [hf]
    rfl
  by_cases hne : ∃ v, v ∈ G.vertices
  · obtain ⟨x0, hx0⟩ := hne
    obtain ⟨par, num, comp, hinv, -, hag⟩ := hva.biconnected hS hG _ (fun u hu => hu) _ _ _ (bi_init (key := key) (fun _ => false) x0)
    exact ⟨_, D', l, ⟨hva, rfl, hag⟩, hmem, fun _ => ⟨par, num, comp, hinv⟩, fun hv => (by rw [hv] at hx0; cases hx0), ⟨fuel, hres⟩, hdet⟩
  · have hv : G.vertices = [] := List.eq_nil_iff_forall_not_mem.mpr (fun v hv => hne ⟨v, hv⟩)
    have hl : l = [] := by
      rw [hv] at hva
      cases hva
      rfl
    rw [hl] at hres hdet hva
    exact ⟨_, D', [], ⟨hva, rfl, fun _ _ => trivial⟩, hmem, fun h => absurd h hne, fun _ => rfl, ⟨fuel, hres⟩, hdet⟩

theorem findBiconnected_state (hG : G.WF) (hS : G.Symmetric) :
    ∃ (s : BiState V E K) (D : Set V), (∀ v, v ∈ D ↔ v ∈ G.vertices) ∧
      ((∃ v, v ∈ G.vertices) → ∃ par num comp, BiInv G key (fun _ => false) par [] D num comp s) ∧
      (G.vertices = [] → s.map = fun _ => none) ∧
      (∃ fuel, findBiconnected G key fuel (fun _ => none) = some s.map) ∧
      ∀ fuel res, findBiconnected G key fuel (fun _ => none) = some res → res = s.map := by
  obtain ⟨s, D, l, -, h⟩ := findBiconnected_events (key := key) hG hS
  exact ⟨s, D, h⟩

/-- `find_biconnected_components` on an undirected graph, with an empty map, terminates.  Every edge that is not a loop
becomes numbered, as seen from one of its ends only, if the keys tell the ends apart.  Nothing else becomes numbered, in
particular no loop.  Edges with the same number are in the same connected component.

Missing: that edges have the same number if and only if they are in the same biconnected component, which is false
(`findBiconnected_splits`, `findBiconnected_merges`); see `findBiconnected_forest` for a case in which it is true. -/
theorem findBiconnected_partial (hG : G.WF) (hU : G.Undirected rev) (hK : G.Keys rev key) :
    (∃ fuel res, findBiconnected G key fuel (fun _ => none) = some res) ∧
    ∀ fuel res, findBiconnected G key fuel (fun _ => none) = some res →
      (∀ u ∈ G.vertices, ∀ e ∈ G.out u, G.tgt e ≠ u →
        (res (key e) ≠ none ∨ res (key (rev e)) ≠ none) ∧ (key e ≠ key (rev e) → res (key e) = none ∨ res (key (rev e)) = none)) ∧
      (∀ k i, res k = some i → ∃ u ∈ G.vertices, ∃ e ∈ G.out u, G.tgt e ≠ u ∧ key e = k) ∧
      (∀ u ∈ G.vertices, ∀ e ∈ G.out u, G.tgt e = u → res (key e) = none) ∧
      ∀ u ∈ G.vertices, ∀ e ∈ G.out u, ∀ v ∈ G.vertices, ∀ f ∈ G.out v, ∀ i,
        res (key e) = some i → res (key f) = some i → G.Reach u v := by
  have hS := hU.symmetric
  obtain ⟨s, D, hmem, hinv, hnil, ⟨fuel, hf⟩, hdet⟩ := findBiconnected_state (key := key) hG hS
  refine ⟨⟨fuel, _, hf⟩, fun fuel res hres => ?_⟩
  obtain rfl := hdet fuel res hres
  clear hdet hres hf fuel
  by_cases hne : ∃ v, v ∈ G.vertices
  swap
  · rw [hnil (List.eq_nil_iff_forall_not_mem.mpr (fun v hv => hne ⟨v, hv⟩))]
    exact ⟨fun u hu => absurd ⟨u, hu⟩ hne, fun k i h => (Option.some_ne_none i h.symm).elim, fun u hu => absurd ⟨u, hu⟩ hne,
      fun u hu => absurd ⟨u, hu⟩ hne⟩
  obtain ⟨par, num, comp, hb⟩ := hinv hne
  have hst := hb.short (by simp)
  -- a numbered key, from the edge one asks about
  have hmap : ∀ u ∈ G.vertices, ∀ e ∈ G.out u, ∀ i, s.map (key e) = some i →
      ∃ g, (g = e ∨ g = rev e) ∧ key g = key e ∧ G.src g ∈ D ∧ s.art.time (G.tgt g) < s.art.time (G.src g) ∧
        comp i ∈ D ∧ G.Reach (comp i) (G.src g) := by
    intro u hu e he i hi
    obtain ⟨-, g, h1, h2, h3, h4, h5⟩ := hb.map _ i hi
    refine ⟨g, ?_, h4, h2, h3.2, h5⟩
    exact hK u hu e he _ ((hmem _).mp h2) g h1 h4.symm
  have hends : ∀ u ∈ G.vertices, ∀ e ∈ G.out u, G.src e = u ∧ G.src (rev e) = G.tgt e ∧ G.tgt (rev e) = u :=
    fun u hu e he => ⟨hG.src u hu e he, hU.src_rev hG hu he, hU.tgt_rev u hu e he⟩
  refine ⟨fun u hu e he hne => ⟨?_, fun hk => ?_⟩, ?_, ?_, ?_⟩
  · have htm := hG.tgt u hu e he
    have hT : s.art.time (G.tgt e) ≠ s.art.time u := fun hh => hne (hb.inv.alow.inj _ ((hmem _).mpr htm) _ ((hmem _).mpr hu) hh)
    have hhas : ∀ f, s.Has key f → s.map (key f) ≠ none := fun f hf => hf.resolve_left (by rw [hst]; simp)
    rcases Int.lt_or_gt_of_ne hT with h | h
    · exact Or.inl (hhas e (hb.done u ((hmem _).mpr hu) List.not_mem_nil e he h))
    · refine Or.inr (hhas _ (hb.done _ ((hmem _).mpr htm) List.not_mem_nil _ (hU.mem_rev u hu e he) ?_))
      rw [hU.tgt_rev u hu e he]
      exact h
  · by_contra hh
    rw [not_or] at hh
    obtain ⟨i, hi⟩ := Option.ne_none_iff_exists'.mp hh.1
    obtain ⟨j, hj⟩ := Option.ne_none_iff_exists'.mp hh.2
    obtain ⟨h1, h2, h3⟩ := hends u hu e he
    obtain ⟨g, k1, k2, -, k4, -⟩ := hmap u hu e he i hi
    obtain ⟨g', l1, l2, -, l4, -⟩ := hmap _ (hG.tgt u hu e he) _ (hU.mem_rev u hu e he) j hj
    rw [hU.invol] at l1
    have hg : g = e := k1.resolve_right (fun h => hk (by rw [← k2, h]))
    have hg' : g' = rev e := l1.resolve_right (fun h => hk (by rw [← l2, h]))
    rw [hg, h1] at k4
    rw [hg', h2, h3] at l4
    omega
  · intro k i hi
    obtain ⟨-, g, h1, h2, h3, h4, h5⟩ := hb.map _ i hi
    exact ⟨_, (hmem _).mp h2, g, h1, fun hh => by rw [hh] at h3; omega, h4⟩
  · intro u hu e he hl
    by_contra hh
    obtain ⟨i, hi⟩ := Option.ne_none_iff_exists'.mp hh
    obtain ⟨h1, h2, h3⟩ := hends u hu e he
    obtain ⟨g, k1, k2, -, k4, -⟩ := hmap u hu e he i hi
    rcases k1 with rfl | rfl
    · rw [h1, hl] at k4; omega
    · rw [h2, h3, hl] at k4; omega
  · intro u hu e he v hv f hf i hi hj
    have hr : ∀ u ∈ G.vertices, ∀ e ∈ G.out u, s.map (key e) = some i → comp i ∈ D ∧ G.Reach (comp i) u := by
      intro u hu e he hi
      obtain ⟨h1, h2, h3⟩ := hends u hu e he
      obtain ⟨g, k1, k2, -, k4, k5, k6⟩ := hmap u hu e he i hi
      refine ⟨k5, ?_⟩
      rcases k1 with rfl | rfl
      · rw [h1] at k6; exact k6
      · rw [h2] at k6
        exact k6.tail ⟨_, hU.mem_rev u hu e he, h3⟩
    obtain ⟨h0, h1⟩ := hr u hu e he hi
    exact (hS.reach hG ((hmem _).mp h0) h1).trans (hr v hv f hf hj).2

/-! ### Forests -/

/-- In a forest the edges of a component join the same two vertices. -/
theorem Graph.SameBlock.ends (hG : G.WF) (hU : G.Undirected rev) (hT : G.Treelike) {e f : E} (h : G.SameBlock rev e f) {u : V}
    (hu : u ∈ G.vertices) (he : e ∈ G.out u) :
    G.src f ∈ G.vertices ∧ f ∈ G.out (G.src f) ∧
      (G.src f = u ∧ G.tgt f = G.tgt e ∨ G.src f = G.tgt e ∧ G.tgt f = u) := by
  induction h with
  | refl =>
    have := hG.src u hu e he
    exact ⟨by rw [this]; exact hu, by rw [this]; exact he, Or.inl ⟨this, rfl⟩⟩
  | @tail g f _ hs ih =>
    obtain ⟨i1, i2, i3⟩ := ih
    rcases hs with ⟨w, hw, h1, h2, h3, h4, h5⟩ | rfl
    · have hg := hG.src w hw g h1
      have hf := hG.src w hw f h2
      have ht := hT w hw _ _ ⟨g, h1, rfl⟩ ⟨f, h2, rfl⟩ h3 h4 h5
      rw [← ht, hf, ← hg]
      exact ⟨by rw [hg]; exact hw, by rw [hg]; exact h2, i3⟩
    · have h1 := hU.src_rev hG i1 i2
      have h2 := hU.tgt_rev _ i1 g i2
      rw [h1, h2]
      refine ⟨hG.tgt _ i1 g i2, hU.mem_rev _ i1 g i2, ?_⟩
      rcases i3 with ⟨k1, k2⟩ | ⟨k1, k2⟩
      · exact Or.inr ⟨k2, k1⟩
      · exact Or.inl ⟨k2, k1⟩

/-- In forests, with loops and parallel edges, `find_biconnected_components` is right: edges that are no loops have the same
number if and only if they are in the same biconnected component.  An edge is numbered as seen from one of its ends. -/
theorem findBiconnected_forest (hG : G.WF) (hU : G.Undirected rev) (hK : G.Keys rev key) (hT : G.Treelike) (fuel : Nat)
    (res : K → Option Int) (h : findBiconnected G key fuel (fun _ => none) = some res) :
    ∀ u ∈ G.vertices, ∀ e ∈ G.out u, ∀ v ∈ G.vertices, ∀ f ∈ G.out v, ∀ i j,
      (res (key e) = some i ∨ res (key (rev e)) = some i) → (res (key f) = some j ∨ res (key (rev f)) = some j) →
      (i = j ↔ G.SameBlock rev e f) := by
  have hS := hU.symmetric
  obtain ⟨s, D, hmem, hinv, hnil, -, hdet⟩ := findBiconnected_state (key := key) hG hS
  obtain rfl := hdet fuel res h
  clear hdet h fuel
  intro u hu e he v hv f hf i j hi hj
  obtain ⟨par, num, comp, hb⟩ := hinv ⟨u, hu⟩
  have ht := hb.tree hT
  have hmap : ∀ u ∈ G.vertices, ∀ e ∈ G.out u, ∀ i, (s.map (key e) = some i ∨ s.map (key (rev e)) = some i) →
      ∃ g, (g = e ∨ g = rev e) ∧ g ∈ G.out (G.src g) ∧ G.src g ∈ D ∧ par (G.src g) = some (G.tgt g) ∧ i = num (G.src g) := by
    intro u hu e he i hi
    rcases hi with hi | hi
    · obtain ⟨g, h1, h2, h3, -, h5, h6⟩ := ht.map _ i hi
      exact ⟨g, hK u hu e he _ ((hmem _).mp h3) g h1 h2.symm, h1, h3, h5, h6⟩
    · obtain ⟨g, h1, h2, h3, -, h5, h6⟩ := ht.map _ i hi
      have := hK _ (hG.tgt u hu e he) _ (hU.mem_rev u hu e he) _ ((hmem _).mp h3) g h1 h2.symm
      rw [hU.invol] at this
      exact ⟨g, this.symm, h1, h3, h5, h6⟩
  obtain ⟨a, a1, a2, a3, a4, a5⟩ := hmap u hu e he i hi
  obtain ⟨b, b1, b2, b3, b4, b5⟩ := hmap v hv f hf j hj
  have hea : G.SameBlock rev e a := by
    rcases a1 with rfl | rfl
    · exact .refl
    · exact .single (Or.inr rfl)
  have hbf : G.SameBlock rev b f := by
    rcases b1 with rfl | rfl
    · exact .refl
    · exact .single (Or.inr (hU.invol f).symm)
  have hpar : ∀ g : E, G.src g ∈ D → par (G.src g) = some (G.tgt g) →
      s.art.time (G.tgt g) < s.art.time (G.src g) := fun g h1 h2 => (hb.inv.alow.par_spec _ h1 _ h2).2.2.1
  constructor
  · intro hij
    have hsrc : G.src a = G.src b := by
      refine (ht.inj _ a3 List.not_mem_nil (by rw [a4]; simp)).2 _ b3 List.not_mem_nil (by rw [b4]; simp) ?_
      rw [← a5, ← b5, hij]
    have htgt : G.tgt a = G.tgt b := by
      rw [hsrc, b4] at a4
      exact (Option.some.inj a4).symm
    have hta := hpar a a3 a4
    refine hea.trans (.head (Or.inl ⟨G.src a, (hmem _).mp a3, a2, by rw [hsrc]; exact b2, fun hh => ?_, fun hh => ?_, ?_⟩) hbf)
    · rw [hh] at hta; omega
    · rw [← htgt] at hh; rw [hh] at hta; omega
    · rw [htgt]; exact .refl
  · intro hsb
    have hends : ∀ g, (g = e ∨ g = rev e) → (G.src g = u ∧ G.tgt g = G.tgt e ∨ G.src g = G.tgt e ∧ G.tgt g = u) := by
      rintro g (rfl | rfl)
      · exact Or.inl ⟨hG.src u hu g he, rfl⟩
      · exact Or.inr ⟨hU.src_rev hG hu he, hU.tgt_rev u hu e he⟩
    have hb' : G.SameBlock rev e b := by
      refine hsb.trans ?_
      rcases b1 with rfl | rfl
      · exact .refl
      · exact .single (Or.inr rfl)
    have ha := hends a a1
    obtain ⟨-, -, hbe⟩ := hb'.ends hG hU hT hu he
    have hta := hpar a a3 a4
    have htb := hpar b b3 b4
    have : G.src a = G.src b := by
      rcases ha with ⟨p1, p2⟩ | ⟨p1, p2⟩ <;> rcases hbe with ⟨q1, q2⟩ | ⟨q1, q2⟩
      · rw [p1, q1]
      · rw [p1, p2] at hta; rw [q1, q2] at htb; omega
      · rw [p1, p2] at hta; rw [q1, q2] at htb; omega
      · rw [p1, q1]
    rw [a5, b5, this]

/-! ### Where the numbers are wrong -/

/-- The cycle 0-1-2-3-0 made by `add_edge` of 0-1, 0-3, 1-2, 2-3. -/
def fourCycle' : Graph Nat (Nat × Nat) where
  vertices := [0, 1, 2, 3]
  out u := match u with
    | 0 => [(0, 1), (0, 3)]
    | 1 => [(1, 0), (1, 2)]
    | 2 => [(2, 1), (2, 3)]
    | 3 => [(3, 0), (3, 2)]
    | _ => []
  src := Prod.fst
  tgt := Prod.snd

/-- The triangle 0-1-2 and the edge 1-3, made by `add_edge` of 0-1, 0-2, 1-2, 1-3. -/
def flagGraph : Graph Nat (Nat × Nat) where
  vertices := [0, 1, 2, 3]
  out u := match u with
    | 0 => [(0, 1), (0, 2)]
    | 1 => [(1, 0), (1, 2), (1, 3)]
    | 2 => [(2, 0), (2, 1)]
    | 3 => [(3, 1)]
    | _ => []
  src := Prod.fst
  tgt := Prod.snd

theorem pair_keys (G : Graph Nat (Nat × Nat)) : G.Keys Prod.swap (id : Nat × Nat → Nat × Nat) :=
  fun _ _ _ _ _ _ _ _ h => Or.inl h.symm

/-- The claim is false: two edges of a cycle, which are in the same biconnected component, have different numbers. -/
theorem findBiconnected_splits : fourCycle'.WF ∧ fourCycle'.Undirected Prod.swap ∧
    fourCycle'.SameBlock Prod.swap (3, 0) (3, 2) ∧
    ∃ res, findBiconnected fourCycle' id 30 (fun _ => none) = some res ∧ res (3, 0) = some 1 ∧ res (3, 2) = some 0 := by
  refine ⟨⟨by decide, by decide, by decide⟩, ⟨fun _ => rfl, by decide, by decide, by decide⟩, ?_, _, rfl, by decide +kernel,
    by decide +kernel⟩
  refine .single (Or.inl ⟨3, by decide, by decide, by decide, by decide, by decide, ?_⟩)
  have h01 : fourCycle'.AdjAvoid 3 0 1 := ⟨⟨(0, 1), by decide, rfl⟩, by decide, by decide⟩
  have h12 : fourCycle'.AdjAvoid 3 1 2 := ⟨⟨(1, 2), by decide, rfl⟩, by decide, by decide⟩
  exact .head h01 (.single h12)

/-- The claim is false: a bridge and an edge of a triangle, which are in different biconnected components, have the same
number. -/
theorem findBiconnected_merges : flagGraph.WF ∧ flagGraph.Undirected Prod.swap ∧
    ¬flagGraph.SameBlock Prod.swap (3, 1) (2, 1) ∧
    ∃ res, findBiconnected flagGraph id 30 (fun _ => none) = some res ∧ res (3, 1) = some 0 ∧ res (2, 1) = some 0 := by
  refine ⟨⟨by decide, by decide, by decide⟩, ⟨fun _ => rfl, by decide, by decide, by decide⟩, fun h => ?_, _, rfl,
    by decide +kernel, by decide +kernel⟩
  have key : ∀ f, flagGraph.SameBlock Prod.swap (3, 1) f → f = (3, 1) ∨ f = (1, 3) := by
    intro f hf
    induction hf with
    | refl => exact Or.inl rfl
    | @tail g f _ hs ih =>
      rcases hs with ⟨w, hw, h1, h2, h3, h4, h5⟩ | rfl
      · rcases ih with rfl | rfl
        · have : ∀ w ∈ flagGraph.vertices, (3, 1) ∈ flagGraph.out w → w = 3 := by decide
          obtain rfl := this w hw h1
          exact Or.inl (by simpa [flagGraph] using h2)
        · have : ∀ w ∈ flagGraph.vertices, (1, 3) ∈ flagGraph.out w → w = 1 := by decide
          obtain rfl := this w hw h1
          have hx : flagGraph.tgt f = 3 := by
            rcases Relation.ReflTransGen.cases_head h5 with hh | ⟨c, ⟨⟨x, hx, hxc⟩, k1, k2⟩, _⟩
            · exact hh.symm
            · have hx : x = (3, 1) := by simpa [flagGraph] using hx
              rw [hx] at hxc
              exact absurd hxc.symm k2
          have : ∀ f ∈ flagGraph.out 1, flagGraph.tgt f = 3 → f = (1, 3) := by decide
          exact Or.inr (this f h2 hx)
      · rcases ih with rfl | rfl
        · exact Or.inr rfl
        · exact Or.inl rfl
  exact absurd (key _ h) (by decide)

/-- The numbers of the graph `sampleBridges`: the double edge 0-1, the edge 1-2, and the triangle; the keys are the numbers of
the edges, as of an undirected adjacency list. -/
example : (findBiconnected sampleBridges (fun e => e.2.2) 50 (fun _ => none)).map (fun r => [0, 1, 2, 3, 4, 5, 6].map r) =
    some [some 2, some 2, some 1, some 0, some 0, some 0, none] := by decide +kernel

/-- The keys of that graph. -/
example : sampleBridges.Keys (fun e => (e.2.1, e.1, e.2.2)) (fun e => e.2.2) := by
  unfold Graph.Keys
  decide +kernel

/-- A star with a double edge, a loop and a path of two more edges. -/
def biTree : Graph Nat (Nat × Nat × Nat) where
  vertices := [0, 1, 2, 3]
  out u := match u with
    | 0 => [(0, 1, 0)]
    | 1 => [(1, 0, 0), (1, 1, 4), (1, 2, 1), (1, 2, 2)]
    | 2 => [(2, 1, 1), (2, 1, 2), (2, 3, 3)]
    | 3 => [(3, 2, 3)]
    | _ => []
  src e := e.1
  tgt e := e.2.1

/-- It meets the conditions of `findBiconnected_forest`. -/
example : biTree.WF ∧ biTree.Undirected (fun e => (e.2.1, e.1, e.2.2)) ∧
    biTree.Keys (fun e => (e.2.1, e.1, e.2.2)) (fun e => e.2.2) ∧ biTree.Treelike := by
  refine ⟨⟨by decide, by decide, by decide⟩, ⟨fun _ => rfl, by decide, by decide, by decide⟩, by unfold Graph.Keys; decide +kernel, ?_⟩
  -- removal of a vertex leaves smaller and larger ones apart
  have nb : ∀ u ∈ biTree.vertices, ∀ e ∈ biTree.out u, biTree.tgt e ≤ u + 1 ∧ u ≤ biTree.tgt e + 1 ∧ biTree.tgt e ∈ biTree.vertices := by
    decide
  have side : ∀ u x y, x ∈ biTree.vertices → biTree.ReachAvoid u x y → (x < u ↔ y < u) ∧ y ∈ biTree.vertices := by
    intro u x y hx h
    induction h with
    | refl => exact ⟨Iff.rfl, hx⟩
    | @tail y z _ hs ih =>
      obtain ⟨⟨e, he, rfl⟩, h1, h2⟩ := hs
      obtain ⟨k1, k2, k3⟩ := nb y ih.2 e he
      refine ⟨ih.1.trans ?_, k3⟩
      omega
  rintro u hu x y ⟨e, he, rfl⟩ ⟨f, hf, rfl⟩ hx hy hr
  obtain ⟨a1, a2, a3⟩ := nb u hu e he
  obtain ⟨b1, b2, -⟩ := nb u hu f hf
  have := (side u _ _ a3 hr).1
  omega

example : (findBiconnected biTree (fun e => e.2.2) 50 (fun _ => none)).map (fun r => [0, 1, 2, 3, 4].map r) =
    some [some 2, some 1, some 1, some 0, none] := by decide +kernel

end Actl.Traversal
