import Verif.Lemmas.CompStack
import Verif.Lemmas.Bfs
import Verif.Lemmas.RecorderTracks

/-!
Invariants of the search for strongly connected components.
-/

namespace Actl.Traversal

variable {V E : Type} [DecidableEq V] {G : Graph V E} {M : Int}

/-- Each vertex is reachable from the other. -/
def Graph.Mutual (G : Graph V E) (u v : V) : Prop := G.Reach u v ∧ G.Reach v u

theorem Graph.mutual_equiv (G : Graph V E) : Equivalence G.Mutual where
  refl _ := ⟨.refl, .refl⟩
  symm h := ⟨h.2, h.1⟩
  trans h h' := ⟨h.1.trans h'.1, h'.2.trans h.2⟩

/-- The invariant of the times: `P` is the path of the search, current vertex first, `T` the times
when vertices were started. -/
structure SccLow (G : Graph V E) (M : Int) (T : V → Int) (P : List V) (D : Set V) (s : SccState V) : Prop where
  count : s.now + undisc G D = G.vertices.length
  pos : 0 ≤ s.now
  bound : (G.vertices.length : Int) ≤ M
  times : ∀ x ∈ P, 1 ≤ T x ∧ T x ≤ s.now
  incr : P.Pairwise (fun x y => T y < T x)
  chain : P.Pairwise (fun x y => G.Reach y x)
  low : ∀ x ∈ P, ∃ a ∈ P, s.timeLow x = T a ∧ T a ≤ T x ∧ G.Reach x a
  root : ∀ x ∈ P, (s.notRoot x = true ↔ s.timeLow x ≠ T x)
  gray : ∀ x ∈ P, x ∈ D
  black : ∀ x ∈ D, x ∉ P → s.timeLow x = M
  white : ∀ x ∈ G.vertices, x ∉ D → s.notRoot x = false

theorem SccLow.enter {T : V → Int} {P : List V} {D : Set V} {s : SccState V} (h : SccLow G M T P D s) {v : V}
    (hv : v ∈ G.vertices) (hD : v ∉ D) (hr : ∀ x ∈ P, G.Reach x v) :
    SccLow G M (put T v (s.now + 1)) (v :: P) (insert v D) ((sccFinder G M).on (.start v) s) := by
  have hne : ∀ x ∈ P, x ≠ v := fun x hx hxv => hD (hxv ▸ h.gray x hx)
  have hT : ∀ x ∈ P, put T v (s.now + 1) x = T x := fun x hx => by simp [put, hne x hx]
  have hTv : put T v (s.now + 1) v = s.now + 1 := by simp [put]
  have hu := undisc_insert G D v hv hD
  have hc := h.count
  have hlow : ∀ x ∈ P, put s.timeLow v (s.now + 1) x = s.timeLow x := fun x hx => by simp [put, hne x hx]
  have hlv : put s.timeLow v (s.now + 1) v = s.now + 1 := by simp [put]
  refine ⟨?_, by show 0 ≤ s.now + 1; have := h.pos; omega, h.bound, ?_, ?_, ?_, ?_, ?_, ?_, ?_, ?_⟩
  · show s.now + 1 + (undisc G (insert v D) : Int) = _
    omega
  · intro x hx
    show 1 ≤ _ ∧ _ ≤ s.now + 1
    rcases List.mem_cons.mp hx with rfl | hx
    · rw [hTv]
      have := h.pos
      omega
    · rw [hT x hx]
      have := h.times x hx
      omega
  · refine List.pairwise_cons.mpr ⟨fun x hx => ?_, ?_⟩
    · rw [hTv, hT x hx]
      have := h.times x hx
      omega
    · refine h.incr.imp_of_mem (fun {a b} ha hb hab => ?_)
      rw [hT _ ha, hT _ hb]
      exact hab
  · exact List.pairwise_cons.mpr ⟨hr, h.chain⟩
  · intro x hx
    show ∃ a ∈ v :: P, put s.timeLow v (s.now + 1) x = _ ∧ _
    rcases List.mem_cons.mp hx with rfl | hx
    · exact ⟨x, List.mem_cons_self, by rw [hTv, hlv], Int.le_refl _, .refl⟩
    · obtain ⟨a, ha, a1, a2, a3⟩ := h.low x hx
      refine ⟨a, List.mem_cons_of_mem _ ha, ?_, ?_, a3⟩
      · rw [hT a ha, hlow x hx, a1]
      · rw [hT a ha, hT x hx]; exact a2
  · intro x hx
    show s.notRoot x = true ↔ put s.timeLow v (s.now + 1) x ≠ _
    rcases List.mem_cons.mp hx with rfl | hx
    · rw [hTv, hlv, h.white x hv hD]; simp
    · rw [hlow x hx, hT x hx]; exact h.root x hx
  · intro x hx
    rcases List.mem_cons.mp hx with rfl | hx
    · exact Set.mem_insert _ _
    · exact Set.mem_insert_of_mem _ (h.gray x hx)
  · intro x hx hn
    show put s.timeLow v (s.now + 1) x = M
    have hn := not_or.mp (fun h => hn (List.mem_cons.mpr h))
    have := h.black x ((Set.mem_insert_iff.mp hx).resolve_left hn.1) hn.2
    simp [put, hn.1, this]
  · intro x hx hn
    exact h.white x hx (fun h => hn (Set.mem_insert_of_mem _ h))

theorem SccLow.edge {T : V → Int} {P : List V} {D : Set V} {s : SccState V} (h : SccLow G M T P D s) {e : E}
    (hu : G.src e ∈ P) (ht : G.tgt e ∈ D) (hr : G.tgt e ∈ P → G.Reach (G.src e) (G.tgt e)) :
    SccLow G M T P D (s.edge G e) := by
  by_cases hlt : s.timeLow (G.src e) > s.timeLow (G.tgt e)
  · have heq : s.edge G e = ⟨s.components, put s.timeLow (G.src e) (s.timeLow (G.tgt e)),
        put s.notRoot (G.src e) true, s.now⟩ := if_pos hlt
    obtain ⟨b, hb, b1, b2, b3⟩ := h.low _ hu
    have htP : G.tgt e ∈ P := by
      by_contra hn
      have h1 := h.black _ ht hn
      have h2 := h.times _ hu
      have h3 := h.count
      have h4 := h.bound
      omega
    obtain ⟨a, ha, a1, a2, a3⟩ := h.low _ htP
    rw [heq]
    refine ⟨h.count, h.pos, h.bound, h.times, h.incr, h.chain, fun x hx => ?_, fun x hx => ?_, h.gray, fun x hx hn => ?_,
      fun x hx hn => ?_⟩
    · by_cases hxu : x = G.src e
      · subst hxu
        refine ⟨a, ha, ?_, by omega, (hr htP).trans a3⟩
        simp [put, a1]
      · obtain ⟨a', c⟩ := h.low x hx
        refine ⟨a', c.1, ?_, c.2.2⟩
        simp [put, hxu, c.2.1]
    · by_cases hxu : x = G.src e
      · subst hxu
        simp only [put, if_true, true_iff]
        omega
      · simp only [put, hxu, if_false]
        exact h.root x hx
    · have hxu : x ≠ G.src e := fun h => hn (h ▸ hu)
      simp only [put, hxu, if_false]
      exact h.black x hx hn
    · have hxu : x ≠ G.src e := fun hh => hn (hh ▸ h.gray _ hu)
      simp only [put, hxu, if_false]
      exact h.white x hx hn
  · have heq : s.edge G e = s := if_neg hlt
    rw [heq]
    exact h

theorem SccState.edge_components (G : Graph V E) (e : E) (s : SccState V) : (s.edge G e).components = s.components := by
  unfold SccState.edge
  simp only
  split <;> rfl

/-- A root of the path not lowered. -/
theorem SccLow.drop {T : V → Int} {P : List V} {D : Set V} {s : SccState V} {v : V} (h : SccLow G M T (v :: P) D s) :
    SccLow G M T P D { s with timeLow := put s.timeLow v M } := by
  have hinc := List.pairwise_cons.mp h.incr
  have hne : ∀ x ∈ P, x ≠ v := fun x hx hxv => by
    have := hinc.1 x hx
    rw [hxv] at this
    omega
  refine ⟨h.count, h.pos, h.bound, fun x hx => h.times x (List.mem_cons_of_mem _ hx), hinc.2, (List.pairwise_cons.mp h.chain).2,
    fun x hx => ?_, fun x hx => ?_, fun x hx => h.gray x (List.mem_cons_of_mem _ hx), fun x hx hn => ?_, h.white⟩
  · obtain ⟨a, ha, a1, a2, a3⟩ := h.low x (List.mem_cons_of_mem _ hx)
    have := hinc.1 x hx
    refine ⟨a, ?_, ?_, a2, a3⟩
    · rcases List.mem_cons.mp ha with rfl | ha
      · omega
      · exact ha
    · simp only [put, hne x hx, if_false]; exact a1
  · simp only [put, hne x hx, if_false]
    exact h.root x (List.mem_cons_of_mem _ hx)
  · by_cases hxv : x = v
    · simp [put, hxv]
    · simp only [put, hxv, if_false]
      exact h.black x hx (fun hm => (List.mem_cons.mp hm).elim hxv hn)

/-- Both invariants. -/
def SccInv (G : Graph V E) (M : Int) (P : List V) (D : Set V) (s : SccState V) : Prop :=
  (∃ T, SccLow G M T P D s) ∧ CompOK G.Mutual P D s.components

theorem SccLow.congr {T : V → Int} {P : List V} {D : Set V} {s t : SccState V} (h : SccLow G M T P D s)
    (h1 : t.timeLow = s.timeLow) (h2 : t.notRoot = s.notRoot) (h3 : t.now = s.now) : SccLow G M T P D t := by
  obtain ⟨a1, a0, a2, a3, a4, a5, a6, a7, a8, a9, a10⟩ := h
  exact ⟨by rw [h3]; exact a1, by rw [h3]; exact a0, a2, by rw [h3]; exact a3, a4, a5, by rw [h1]; exact a6, by rw [h1, h2]; exact a7, a8,
    by rw [h1]; exact a9, by rw [h2]; exact a10⟩

/-- Finishing a vertex does not change the times. -/
theorem sccFinish_same (G : Graph V E) (M : Int) (v : V) (s : SccState V) :
    ((sccFinder G M).on (.finish v) s).timeLow = s.timeLow ∧ ((sccFinder G M).on (.finish v) s).notRoot = s.notRoot ∧
      ((sccFinder G M).on (.finish v) s).now = s.now := by
  show (if !s.notRoot v then { s with components := s.components.pop v } else s).timeLow = _ ∧ _
  by_cases h : (!s.notRoot v) = true
  · refine ⟨by rw [if_pos h], ?_, ?_⟩
    · show (if !s.notRoot v then { s with components := s.components.pop v } else s).notRoot = _
      rw [if_pos h]
    · show (if !s.notRoot v then { s with components := s.components.pop v } else s).now = _
      rw [if_pos h]
  · refine ⟨by rw [if_neg h], ?_, ?_⟩
    · show (if !s.notRoot v then { s with components := s.components.pop v } else s).notRoot = _
      rw [if_neg h]
    · show (if !s.notRoot v then { s with components := s.components.pop v } else s).now = _
      rw [if_neg h]

theorem sccFinish_comp (G : Graph V E) (M : Int) (v : V) (s : SccState V) :
    ((sccFinder G M).on (.finish v) s).components = if s.notRoot v then s.components else s.components.pop v := by
  show (if !s.notRoot v then { s with components := s.components.pop v } else s).components = _
  cases s.notRoot v <;> rfl

theorem SccInv.leave {P : List V} {D : Set V} {s : SccState V} {e : E} (h : SccInv G M (G.tgt e :: G.src e :: P) D s)
    (hr : G.Reach (G.src e) (G.tgt e)) :
    SccInv G M (G.src e :: P) D ((sccFinder G M).on (.treeFinish e) ((sccFinder G M).on (.finish (G.tgt e)) s)) := by
  obtain ⟨⟨T, hl⟩, hc⟩ := h
  obtain ⟨f1, f2, f3⟩ := sccFinish_same G M (G.tgt e) s
  have hl1 := hl.congr f1 f2 f3
  have hl2 := hl1.edge (e := e) (by simp) (hl.gray _ (by simp)) fun _ => hr
  refine ⟨⟨T, hl2.drop⟩, ?_⟩
  show CompOK G.Mutual (G.src e :: P) D (SccState.edge G e _).components
  rw [SccState.edge_components, sccFinish_comp]
  by_cases hn : s.notRoot (G.tgt e) = true
  · rw [if_pos hn]
    refine hc.keep G.mutual_equiv ⟨hr, ?_⟩
    obtain ⟨a, ha, a1, a2, a3⟩ := hl.low (G.tgt e) List.mem_cons_self
    have hne := (hl.root _ List.mem_cons_self).mp hn
    rcases List.mem_cons.mp ha with rfl | ha
    · exact absurd a1 hne
    · rcases List.mem_cons.mp ha with rfl | ha
      · exact a3
      · exact a3.trans ((List.pairwise_cons.mp (List.pairwise_cons.mp hl.chain).2).1 a ha)
  · rw [if_neg hn]
    exact hc.pop G.mutual_equiv

theorem SccInv.leaveRoot {D : Set V} {s : SccState V} {u : V} (h : SccInv G M [u] D s) :
    SccInv G M [] D ((sccFinder G M).on (.searchFinish u) ((sccFinder G M).on (.finish u) s)) := by
  obtain ⟨⟨T, hl⟩, hc⟩ := h
  obtain ⟨f1, f2, f3⟩ := sccFinish_same G M u s
  refine ⟨⟨T, (hl.congr f1 f2 f3).drop⟩, ?_⟩
  show CompOK G.Mutual [] D ((sccFinder G M).on (.finish u) s).components
  rw [sccFinish_comp]
  obtain ⟨a, ha, a1, a2, a3⟩ := hl.low u List.mem_cons_self
  rw [List.mem_singleton.mp ha] at a1
  have hn : ¬s.notRoot u = true := fun hn => (hl.root _ List.mem_cons_self).mp hn a1
  rw [if_neg hn]
  exact hc.pop G.mutual_equiv

theorem SccInv.enter {P : List V} {D : Set V} {s : SccState V} (h : SccInv G M P D s) {v : V}
    (hv : v ∈ G.vertices) (hD : v ∉ D) (hr : ∀ x ∈ P, G.Reach x v) :
    SccInv G M (v :: P) (insert v D) ((sccFinder G M).on (.start v) s) := by
  obtain ⟨⟨T, hl⟩, hc⟩ := h
  exact ⟨⟨_, hl.enter hv hD hr⟩, hc.push hD⟩

theorem Run.scc (hG : G.WF) {D D' : Set V} {es : List E} {l : List (Event V E)} (r : Run G D es l D') (u : V) (P : List V)
    (s : SccState V) (hu : u ∈ G.vertices) (hes : ∀ e ∈ es, e ∈ G.out u) (h : SccInv G M (u :: P) D s) :
    SccInv G M (u :: P) D' (after (sccFinder G M) s l) := by
  induction r generalizing u P s with
  | nil D => exact h
  | @skip D D' e es l ht r ih =>
    have he := hes e List.mem_cons_self
    have hsrc := hG.src u hu e he
    refine ih u P _ hu (fun e' he' => hes e' (List.mem_cons_of_mem _ he')) ?_
    obtain ⟨⟨T, hl⟩, hc⟩ := h
    refine ⟨⟨T, hl.edge (by rw [hsrc]; simp) ht ?_⟩, ?_⟩
    · rw [hsrc]; exact fun _ => Relation.ReflTransGen.single ⟨e, he, rfl⟩
    · show CompOK _ _ _ (SccState.edge G e s).components
      rw [SccState.edge_components]; exact hc
  | @tree D D1 D2 e es l1 l2 ht r1 r2 ih1 ih2 =>
    have he := hes e List.mem_cons_self
    have hsrc := hG.src u hu e he
    have htm := hG.tgt u hu e he
    have hr : G.Reach u (G.tgt e) := Relation.ReflTransGen.single ⟨e, he, rfl⟩
    rw [after_append, after_append, after_append]
    refine ih2 u P _ hu (fun e' he' => hes e' (List.mem_cons_of_mem _ he')) ?_
    have hchain := h.1.choose_spec.chain
    have h1 := h.enter htm ht (by
      intro x hx
      rcases List.mem_cons.mp hx with rfl | hx
      · exact hr
      · exact ((List.pairwise_cons.mp hchain).1 x hx).trans hr)
    have h2 := ih1 (G.tgt e) (u :: P) _ htm (fun _ h => h) h1
    rw [← hsrc] at h2 hr ⊢
    exact h2.leave hr

theorem VisitAll.scc (hG : G.WF) {D D' : Set V} {us : List V} {l : List (Event V E)} (r : VisitAll G D us l D')
    (s : SccState V) (hus : ∀ u ∈ us, u ∈ G.vertices) (h : SccInv G M [] D s) :
    SccInv G M [] D' (after (sccFinder G M) s l) := by
  induction r generalizing s with
  | nil D => exact h
  | skip hu r ih => exact ih s (fun u hu => hus u (List.mem_cons_of_mem _ hu)) h
  | @visit D D1 D2 u us l1 l2 hu hv r ih =>
    have hum := hus u List.mem_cons_self
    rw [after_append]
    refine ih _ (fun u hu => hus u (List.mem_cons_of_mem _ hu)) ?_
    obtain ⟨l', hr, rfl⟩ := hv
    rw [after_append, after_append]
    have h1 := h.enter hum hu (fun x hx => absurd hx List.not_mem_nil)
    exact (hr.scc hG u [] _ hum (fun _ h => h) h1).leaveRoot

/-! ### The search with the finder -/

/-- The finder knows the discovered vertices. -/
def SccI (M : Int) (s : SccState V) (D : Set V) : Prop :=
  0 < M ∧ 0 ≤ s.now ∧ ∀ v, s.timeLow v ≠ 0 ↔ v ∈ D

theorem SccI.edge {s : SccState V} {D : Set V} {e : E} (h : SccI M s D) (hs : G.src e ∈ D) (ht : G.tgt e ∈ D) :
    SccI M (s.edge G e) D := by
  unfold SccState.edge
  simp only
  split
  · refine ⟨h.1, h.2.1, fun v => ?_⟩
    by_cases hvu : v = G.src e
    · subst hvu
      simp only [put, if_true]
      exact ⟨fun _ => hs, fun _ => (h.2.2 _).mpr ht⟩
    · simp only [put, hvu, if_false]
      exact h.2.2 v
  · exact h

theorem SccI.start (G : Graph V E) {s : SccState V} {D : Set V} {v : V} (h : SccI M s D) :
    SccI M ((sccFinder G M).on (.start v) s) (insert v D) := by
  have h0 := h.2.1
  refine ⟨h.1, by show 0 ≤ s.now + 1; omega, fun x => ?_⟩
  show put s.timeLow v (s.now + 1) x ≠ 0 ↔ _
  by_cases hxv : x = v
  · simp only [put, hxv, if_true, Set.mem_insert_iff, true_or, iff_true]
    omega
  · simp only [put, hxv, if_false, Set.mem_insert_iff, false_or]
    exact h.2.2 x

theorem SccI.max {s : SccState V} {D : Set V} {v : V} (h : SccI M s D) (hv : v ∈ D) :
    SccI M { s with timeLow := put s.timeLow v M } D := by
  refine ⟨h.1, h.2.1, fun x => ?_⟩
  have h0 := h.1
  by_cases hxv : x = v
  · simp only [put, hxv, if_true, hv, iff_true]
    omega
  · simp only [put, hxv, if_false]
    exact h.2.2 x

theorem SccI.finish (G : Graph V E) {s : SccState V} {D : Set V} {v : V} (h : SccI M s D) :
    SccI M ((sccFinder G M).on (.finish v) s) D := by
  obtain ⟨f1, f2, f3⟩ := sccFinish_same G M v s
  refine ⟨h.1, by rw [f3]; exact h.2.1, by rw [f1]; exact h.2.2⟩

theorem scc_tracks : Tracks G (sccFinder G M) (SccI M) where
  disc s D v h _ := by
    rw [← h.2.2 v]
    show (s.timeLow v != 0) = true ↔ _
    simp
  nonTree s D e h hs ht := h.edge hs ht
  treeFinish s D e h hs ht := (h.edge hs ht).max ht
  finish s D u h _ := h.finish G
  searchFinish s D u h hu := h.max hu
  enterTree s D e h _ _ _ := h.start G
  enterRoot s D u h _ _ := h.start G

theorem scc_initAll (vs : List V) (map : V → Int) :
    initAll (sccFinder G M) vs (SccState.fresh map) = SccState.fresh map := by
  induction vs with
  | nil => rfl
  | cons v vs ih =>
    have : (sccFinder G M).on (.init v) (SccState.fresh map) = SccState.fresh map := by
      show (⟨_, put (fun _ => 0) v 0, _, _⟩ : SccState V) = ⟨_, fun _ => 0, _, _⟩
      congr 1
      funext x
      simp [put]
    rw [initAll, this, ih]

theorem scc_init (hM : 0 < M) (map : V → Int) : SccI M (SccState.fresh map) ∅ :=
  ⟨hM, Int.le_refl 0, fun v => by simp [SccState.fresh]⟩

theorem undisc_empty (hG : G.WF) : undisc G ∅ = G.vertices.length := by
  unfold undisc
  classical
  have h := List.toFinset_card_of_nodup hG.nodup
  rw [← h]
  congr 1
  ext x
  simp

theorem sccInv_init (hG : G.WF) (hM : (G.vertices.length : Int) ≤ M) (map : V → Int) :
    SccInv G M [] ∅ (SccState.fresh map) := by
  refine ⟨⟨fun _ => 0, ⟨?_, Int.le_refl 0, hM, fun x hx => absurd hx List.not_mem_nil, .nil, .nil,
    fun x hx => absurd hx List.not_mem_nil, fun x hx => absurd hx List.not_mem_nil,
    fun x hx => absurd hx List.not_mem_nil, fun x hx => absurd hx (Set.notMem_empty x), fun x _ _ => rfl⟩⟩,
    ⟨.nil, List.nodup_nil, fun x hx => absurd hx List.not_mem_nil, Int.le_refl 0,
    fun x hx => absurd hx (Set.notMem_empty x), fun x hx => absurd hx (Set.notMem_empty x), fun k h1 h2 => ?_, rfl⟩⟩
  · show (0 : Int) + (undisc G ∅ : Int) = _
    rw [undisc_empty hG]; omega
  · exact absurd (show k < 0 from h2) (by omega)

end Actl.Traversal
