import Verif.Lemmas.RecorderTracks

/-!
The order of the events of a depth-first search.
-/

namespace Actl.Traversal

variable {V E : Type} {G : Graph V E} {D D' : Set V} {us : List V} {l : List (Event V E)}

theorem Legal.drop {G : Graph V E} {D : Set V} {a b : List (Event V E)} (h : Legal G D (a ++ b)) :
    Legal G (D ∪ {v | v ∈ discs a}) b := by
  induction a generalizing D with
  | nil => simpa using h
  | cons ev a ih =>
    cases ev with
    | discover v =>
      have := ih h.2
      convert this using 1
      ext x
      simp only [Set.mem_union, Set.mem_insert_iff, Set.mem_setOf_eq, discs_discover, List.mem_cons]
      tauto
    | treeStart e => simpa using ih h.2.2.2
    | nonTree e => simpa using ih h.2.2
    | searchStart u => simpa using ih h.2.2
    | searchFinish u => simpa using ih (D := D) h
    | init u => simpa [discs] using ih (D := D) h
    | start u => simpa using ih (D := D) h
    | finish u => simpa using ih (D := D) h
    | treeFinish u => simpa using ih (D := D) h

theorem VisitAll.explores [DecidableEq V] (hG : G.WF) (h : VisitAll G ∅ us l D') (hus : ∀ u ∈ us, u ∈ G.vertices) :
    Explores G (fun v => ∃ u ∈ us, G.Reach u v) l where
  once := h.discs_spec.1
  exactly v := by rw [h.discs_spec.2, h.mem_iff]; simp
  starts_eq := h.starts_eq
  finishes_perm := h.finishes_perm
  order v hv := by
    obtain ⟨a, b, c, _, _, rfl, _⟩ := h.block v ((h.mem_iff v).mpr hv) (Set.notMem_empty v)
    exact ⟨a, b, c, rfl⟩
  edges v hv := (h.examined_spec hG hus v).1 ((h.mem_iff v).mpr hv) (Set.notMem_empty v)
  no_edges v hv := (h.examined_spec hG hus v).2 (Or.inr (fun hd => hv ((h.mem_iff v).mp hd)))
  tree a e b hl := by
    have := h.legal hG hus
    rw [hl] at this
    have := this.drop
    rw [Set.empty_union] at this
    exact ⟨this.1, this.2.1, this.2.2.1⟩
  nonTree a e b hl := by
    have := h.legal hG hus
    rw [hl] at this
    have := this.drop
    rw [Set.empty_union] at this
    exact ⟨this.1, this.2.1⟩

theorem start_once {a b : List (Event V E)} {v : V} (hn : (starts (a ++ b)).Nodup) (h1 : Event.start v ∈ a)
    (h2 : Event.start v ∈ b) : False := by
  rw [starts_append, List.nodup_append'] at hn
  exact hn.2.2 (mem_starts.mpr h1) (mem_starts.mpr h2)

theorem finish_once {a b : List (Event V E)} {v : V} (hn : (finishes (a ++ b)).Nodup) (h1 : Event.finish v ∈ a)
    (h2 : Event.finish v ∈ b) : False := by
  rw [finishes_append, List.nodup_append'] at hn
  exact hn.2.2 (mem_finishes.mpr h1) (mem_finishes.mpr h2)

/-- All that is needed of the block of a vertex. -/
structure Block (G : Graph V E) (l : List (Event V E)) (u : V) (a b c : List (Event V E)) : Prop where
  eq : l = a ++ .discover u :: .start u :: b ++ .finish u :: c
  same : ∀ v, Event.start v ∈ b ↔ Event.finish v ∈ b
  inside : ∀ v, Event.start v ∈ b → Relation.TransGen (TreeAdj G l) u v
  tree : ∀ e, Event.treeStart e ∈ l → G.src e = u → Event.start (G.tgt e) ∈ b
  out : ∀ e ∈ G.out u, G.tgt e = u ∨ Event.start (G.tgt e) ∈ a ∨ Event.start (G.tgt e) ∈ b

theorem VisitAll.toBlock (hG : G.WF) (h : VisitAll G ∅ us l D') (hus : ∀ u ∈ us, u ∈ G.vertices) (u : V)
    (hu : u ∈ D') : ∃ a b c, Block G l u a b c := by
  classical
  obtain ⟨a, b, c, Du, Du', rfl, hr, huD, _, hsub, hDu⟩ := h.block u hu (Set.notMem_empty u)
  have huv : u ∈ G.vertices := by
    obtain ⟨w, hw, hreach⟩ := h.reach u hu (Set.notMem_empty u)
    have hw := hus w hw
    clear * - hreach hw hG
    induction hreach with
    | refl => exact hw
    | tail _ hadj ih => obtain ⟨e, he, rfl⟩ := hadj; exact hG.tgt _ ih e he
  have hes : ∀ e ∈ G.out u, G.tgt e ∈ G.vertices ∧ G.src e ∈ Du :=
    fun e he => ⟨hG.tgt u huv e he, by rw [hG.src u huv e he]; exact huD⟩
  have hstart : ∀ v, Event.start v ∈ b ↔ v ∈ Du' ∧ v ∉ Du := by
    intro v; rw [← mem_starts, hr.starts_eq, hr.discs_spec.2]
  refine ⟨a, b, c, rfl, ?_, ?_, ?_, ?_⟩
  · intro v; rw [hstart, ← mem_finishes, hr.finishes_spec.2]
  · intro v hv
    obtain ⟨h1, h2⟩ := (hstart v).mp hv
    obtain ⟨e, he, hm, hrt⟩ := hr.tree_reach hG hes v h1 h2
    refine Relation.TransGen.head' ⟨e, ?_, hG.src u huv e he, rfl⟩ (rtg_mono ?_ hrt)
    · simp [hm]
    · rintro x y ⟨e', g1, g2⟩
      exact ⟨e', by simp [g1], g2⟩
  · intro e he hsrc
    have h1 := (h.examined_spec hG hus u).1 hu (Set.notMem_empty u)
    have h2 := (hr.examined_spec hG hes u).2 (Or.inl huD)
    have hself : (G.out u).filter (fun e' => G.src e' = u) = G.out u :=
      List.filter_eq_self.mpr (fun e' he' => by simpa using hG.src _ huv e' he')
    rw [hself] at h2
    simp only [examined_append, examined_discover, examined_start, examined_finish, List.filter_append, h2] at h1
    have hlen := congrArg List.length h1
    simp only [List.length_append] at hlen
    have ha : (examined a).filter (fun e' => G.src e' = u) = [] := List.eq_nil_of_length_eq_zero (by omega)
    have hc : (examined c).filter (fun e' => G.src e' = u) = [] := List.eq_nil_of_length_eq_zero (by omega)
    rw [List.filter_eq_nil_iff] at ha hc
    have hb : Event.treeStart e ∈ b := by
      simp only [List.mem_append, List.mem_cons, reduceCtorEq, false_or] at he
      rcases he with (he | he) | he
      · exact absurd (by simpa using hsrc) (ha e (mem_examined.mpr (Or.inl he)))
      · exact he
      · exact absurd (by simpa using hsrc) (hc e (mem_examined.mpr (Or.inl he)))
    exact (hstart _).mpr (hr.tree_tgt e hb)
  · intro e he
    have h1 := hr.closed.1 e he
    by_cases h2 : G.tgt e ∈ Du
    · rcases hDu _ h2 with h3 | h3 | h3
      · exact absurd h3 (Set.notMem_empty _)
      · exact Or.inl h3
      · exact Or.inr (Or.inl h3)
    · exact Or.inr (Or.inr ((hstart _).mpr ⟨h1, h2⟩))

section Idx

variable {α : Type} [DecidableEq α]

theorem idxOf_mid {a b : List α} {x : α} (h : x ∉ a) : (a ++ x :: b).idxOf x = a.length := by
  rw [List.idxOf_append_of_notMem h]; simp

theorem idxOf_left {a b : List α} {x : α} (h : x ∈ a) : (a ++ b).idxOf x < a.length := by
  rw [List.idxOf_append_of_mem h]; exact List.idxOf_lt_length_of_mem h

theorem idxOf_right {a b : List α} {x : α} (h : x ∉ a) : a.length ≤ (a ++ b).idxOf x := by
  rw [List.idxOf_append_of_notMem h]; omega

end Idx

variable [DecidableEq V] [DecidableEq E]

/-- Where the events of the vertices are, relative to a block. -/
theorem Block.at {u : V} {a b c : List (Event V E)} (B : Block G l u a b c) (hs : (starts l).Nodup)
    (hf : (finishes l).Nodup) :
    startAt l u = a.length + 1 ∧ finishAt l u = a.length + 2 + b.length ∧
    (∀ v, Event.start v ∈ a → startAt l v < a.length) ∧
    (∀ v, Event.start v ∈ b → a.length + 1 < startAt l v ∧ startAt l v < a.length + 2 + b.length) ∧
    (∀ v, Event.start v ∈ c → a.length + 2 + b.length < startAt l v) ∧
    (∀ v, Event.finish v ∈ a → finishAt l v < a.length) ∧
    (∀ v, Event.finish v ∈ b → a.length + 1 < finishAt l v ∧ finishAt l v < a.length + 2 + b.length) ∧
    (∀ v, Event.finish v ∈ c → a.length + 2 + b.length < finishAt l v) := by
  obtain ⟨eq, _, _, _, _⟩ := B
  have e1 : l = (a ++ [.discover u]) ++ .start u :: (b ++ .finish u :: c) := by simp [eq]
  have e2 : l = (a ++ .discover u :: .start u :: b) ++ .finish u :: c := by simp [eq]
  have e3 : l = a ++ (.discover u :: .start u :: b ++ .finish u :: c) := by simp [eq]
  have e4 : l = (a ++ [.discover u, .start u]) ++ (b ++ .finish u :: c) := by simp [eq]
  have e5 : l = (a ++ .discover u :: .start u :: b ++ [.finish u]) ++ c := by simp [eq]
  have e6 : l = (a ++ [.discover u, .start u] ++ b) ++ .finish u :: c := by simp [eq]
  unfold startAt finishAt
  refine ⟨?_, ?_, fun v hv => ?_, fun v hv => ⟨?_, ?_⟩, fun v hv => ?_, fun v hv => ?_, fun v hv => ⟨?_, ?_⟩, fun v hv => ?_⟩
  · have := idxOf_mid (a := a ++ [Event.discover u]) (b := b ++ .finish u :: c) (x := Event.start u) (fun h => by
      rw [e1] at hs; exact start_once hs h (by simp))
    rw [e1, this]; simp
  · have := idxOf_mid (a := a ++ .discover u :: .start u :: b) (b := c) (x := Event.finish u) (fun h => by
      rw [e2] at hf; exact finish_once hf h (by simp))
    rw [e2, this]; simp only [List.length_append, List.length_cons]; omega
  · rw [e3]; exact idxOf_left hv
  · have := idxOf_right (a := a ++ [.discover u, .start u]) (b := b ++ .finish u :: c) (x := Event.start v) (fun h => by
      rw [e4] at hs; exact start_once hs h (by simp [hv]))
    rw [← e4] at this; simp only [List.length_append, List.length_cons, List.length_nil] at this; omega
  · have := idxOf_left (a := a ++ .discover u :: .start u :: b) (b := .finish u :: c) (x := Event.start v) (by simp [hv])
    rw [← e2] at this; simp only [List.length_append, List.length_cons] at this; omega
  · have := idxOf_right (a := a ++ .discover u :: .start u :: b ++ [.finish u]) (b := c) (x := Event.start v) (fun h => by
      rw [e5] at hs; exact start_once hs h hv)
    rw [← e5] at this; simp only [List.length_append, List.length_cons, List.length_nil] at this; omega
  · rw [e3]; exact idxOf_left hv
  · have := idxOf_right (a := a ++ [.discover u, .start u]) (b := b ++ .finish u :: c) (x := Event.finish v) (fun h => by
      rw [e4] at hf; exact finish_once hf h (by simp [hv]))
    rw [← e4] at this; simp only [List.length_append, List.length_cons, List.length_nil] at this; omega
  · have := idxOf_left (a := a ++ .discover u :: .start u :: b) (b := .finish u :: c) (x := Event.finish v) (by simp [hv])
    rw [← e2] at this; simp only [List.length_append, List.length_cons] at this; omega
  · have := idxOf_right (a := a ++ .discover u :: .start u :: b ++ [.finish u]) (b := c) (x := Event.finish v) (fun h => by
      rw [e5] at hf; exact finish_once hf h hv)
    rw [← e5] at this; simp only [List.length_append, List.length_cons, List.length_nil] at this; omega

/-- Well-parenthesised intervals, for all searches. -/
theorem VisitAll.intervals (hG : G.WF) (h : VisitAll G ∅ us l D') (hus : ∀ u ∈ us, u ∈ G.vertices) {u v : V}
    (hu : u ∈ D') (hv : v ∈ D') (huv : u ≠ v) :
    (startAt l u < finishAt l u) ∧
    (Relation.TransGen (TreeAdj G l) u v ∧ startAt l u < startAt l v ∧ finishAt l v < finishAt l u ∨
      Relation.TransGen (TreeAdj G l) v u ∧ startAt l v < startAt l u ∧ finishAt l u < finishAt l v ∨
      finishAt l u < startAt l v ∨ finishAt l v < startAt l u) := by
  have hs : (starts l).Nodup := by rw [h.starts_eq]; exact h.discs_spec.1
  have hf : (finishes l).Nodup := h.finishes_perm.nodup_iff.mpr h.discs_spec.1
  obtain ⟨a, b, c, B⟩ := h.toBlock hG hus u hu
  obtain ⟨p1, p2, p3, p4, p5, p6, p7, p8⟩ := B.at hs hf
  have hsv : Event.start v ∈ l := by
    rw [← mem_starts, h.starts_eq, h.discs_spec.2]; exact ⟨hv, Set.notMem_empty v⟩
  have hfv : Event.finish v ∈ l := by
    rw [← mem_finishes, h.finishes_perm.mem_iff, h.discs_spec.2]; exact ⟨hv, Set.notMem_empty v⟩
  refine ⟨by omega, ?_⟩
  rw [B.eq] at hsv hfv
  simp only [List.mem_append, List.mem_cons, reduceCtorEq, false_or, Event.start.injEq, Event.finish.injEq,
    huv.symm] at hsv hfv
  rcases hsv with (hsv | hsv) | hsv
  · have q1 := p3 v hsv
    rcases hfv with (hfv | hfv) | hfv
    · have q2 := p6 v hfv
      exact Or.inr (Or.inr (Or.inr (by omega)))
    · have q2 := p4 v ((B.same v).mpr hfv)
      omega
    · have q2 := p8 v hfv
      obtain ⟨a', b', c', B'⟩ := h.toBlock hG hus v hv
      obtain ⟨r1, r2, r3, r4, r5, r6, r7, r8⟩ := B'.at hs hf
      refine Or.inr (Or.inl ⟨B'.inside u ?_, by omega, by omega⟩)
      have hsu : Event.start u ∈ l := by
        rw [← mem_starts, h.starts_eq, h.discs_spec.2]; exact ⟨hu, Set.notMem_empty u⟩
      rw [B'.eq] at hsu
      simp only [List.mem_append, List.mem_cons, reduceCtorEq, false_or, Event.start.injEq, huv] at hsu
      rcases hsu with (hsu | hsu) | hsu
      · have := r3 u hsu; omega
      · exact hsu
      · have := r5 u hsu; omega
  · have q1 := p4 v hsv
    have q2 := p7 v ((B.same v).mp hsv)
    exact Or.inl ⟨B.inside v hsv, by omega, by omega⟩
  · have q1 := p5 v hsv
    exact Or.inr (Or.inr (Or.inl (by omega)))

theorem VisitAll.tree_interval (hG : G.WF) (h : VisitAll G ∅ us l D') (hus : ∀ u ∈ us, u ∈ G.vertices) {u v : V}
    (hu : u ∈ D') (huv : Relation.TransGen (TreeAdj G l) u v) :
    v ∈ D' ∧ startAt l u < startAt l v ∧ finishAt l v < finishAt l u := by
  have hs : (starts l).Nodup := by rw [h.starts_eq]; exact h.discs_spec.1
  have hf : (finishes l).Nodup := h.finishes_perm.nodup_iff.mpr h.discs_spec.1
  have key : ∀ x y, x ∈ D' → TreeAdj G l x y → y ∈ D' ∧ startAt l x < startAt l y ∧ finishAt l y < finishAt l x := by
    rintro x y hx ⟨e, he, rfl, rfl⟩
    obtain ⟨a, b, c, B⟩ := h.toBlock hG hus _ hx
    obtain ⟨p1, p2, p3, p4, p5, p6, p7, p8⟩ := B.at hs hf
    have hb := B.tree e he rfl
    have q1 := p4 _ hb
    have q2 := p7 _ ((B.same _).mp hb)
    refine ⟨?_, by omega, by omega⟩
    have : Event.start (G.tgt e) ∈ l := by rw [B.eq]; simp [hb]
    rw [← mem_starts, h.starts_eq, h.discs_spec.2] at this
    exact this.1
  induction huv with
  | single hxy => exact key _ _ hu hxy
  | tail _ hxy ih =>
    obtain ⟨i1, i2, i3⟩ := ih
    obtain ⟨k1, k2, k3⟩ := key _ _ i1 hxy
    exact ⟨k1, by omega, by omega⟩

/-- An out-neighbour is started before the vertex is finished. -/
theorem VisitAll.edge_order (hG : G.WF) (h : VisitAll G ∅ us l D') (hus : ∀ u ∈ us, u ∈ G.vertices) {u : V}
    (hu : u ∈ D') (e : E) (he : e ∈ G.out u) : startAt l (G.tgt e) < finishAt l u := by
  have hs : (starts l).Nodup := by rw [h.starts_eq]; exact h.discs_spec.1
  have hf : (finishes l).Nodup := h.finishes_perm.nodup_iff.mpr h.discs_spec.1
  obtain ⟨a, b, c, B⟩ := h.toBlock hG hus u hu
  obtain ⟨p1, p2, p3, p4, p5, p6, p7, p8⟩ := B.at hs hf
  rcases B.out e he with h1 | h1 | h1
  · rw [h1]; omega
  · have := p3 _ h1; omega
  · have := p4 _ h1; omega

/-- Tree edges are edges. -/
theorem VisitAll.tree_adj (hG : G.WF) (h : VisitAll G ∅ us l D') (hus : ∀ u ∈ us, u ∈ G.vertices) {u v : V}
    (huv : TreeAdj G l u v) : G.Adj u v := by
  obtain ⟨e, he, rfl, rfl⟩ := huv
  by_cases hR : ∃ u ∈ us, G.Reach u (G.src e)
  · have := (h.explores hG hus).edges _ hR
    refine ⟨e, ?_, rfl⟩
    rw [← this, List.mem_filter]
    exact ⟨mem_examined.mpr (Or.inl he), by simp⟩
  · have := (h.explores hG hus).no_edges _ hR
    rw [List.filter_eq_nil_iff] at this
    exact absurd (by simp) (this e (mem_examined.mpr (Or.inl he)))

end Actl.Traversal
