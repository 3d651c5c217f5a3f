import Verif.Lemmas.DfsAll

/-!
The recorders that answer whether a vertex is discovered do so rightly.
-/

namespace Actl.Traversal

variable {V E : Type} [DecidableEq V] {G : Graph V E}

omit [DecidableEq V] in
theorem initAll_of {σ : Type} (c : Comp σ V E) (P : σ → Prop) (hP : ∀ s u, P s → P (c.on (.init u) s)) (vs : List V) (s : σ)
    (h : P s) : P (initAll c vs s) := by
  induction vs generalizing s with
  | nil => exact h
  | cons v vs ih => exact ih _ (hP s v h)

theorem initAll_put {σ α : Type} (c : Comp σ V E) (f : σ → V → α) (x : α)
    (h : ∀ s u, f (c.on (.init u) s) = put (f s) u x) (vs : List V) (s : σ) (v : V) :
    f (initAll c vs s) v = if v ∈ vs then x else f s v := by
  induction vs generalizing s with
  | nil => simp [initAll]
  | cons w vs ih =>
    rw [initAll, ih, h]
    unfold put
    by_cases h1 : v = w
    · simp [h1]
    · simp [h1]

/-! ### `discovered_flag` -/

/-- The flags are right on the vertices. -/
def FlagI (G : Graph V E) (s : V → Bool) (D : Set V) : Prop := ∀ v ∈ G.vertices, (s v = true ↔ v ∈ D)

theorem flag_init (s : V → Bool) : FlagI G (initAll (discoveredFlag : Comp _ V E) G.vertices s) ∅ := by
  intro v hv
  have := initAll_put (discoveredFlag : Comp _ V E) (fun s => s) false (fun _ _ => rfl) G.vertices s v
  rw [if_pos hv] at this
  simp [this]

theorem flag_tracks : Tracks G (discoveredFlag : Comp _ V E) (FlagI G) where
  disc s D v h hv := h v hv
  nonTree s D e h _ _ := h
  treeFinish s D e h _ _ := h
  finish s D u h _ := h
  searchFinish s D u h _ := h
  enterTree s D e h _ _ _ := by
    intro v hv
    show put s (G.tgt e) true v = true ↔ _
    by_cases h1 : v = G.tgt e
    · simp [put, h1]
    · simp [put, h1, h v hv]
  enterRoot s D u h _ _ := by
    intro v hv
    show put s u true v = true ↔ _
    by_cases h1 : v = u
    · simp [put, h1]
    · simp [put, h1, h v hv]

/-! ### `color_recorder` -/

def ColorI (G : Graph V E) (s : V → Color) (D : Set V) : Prop := ∀ v ∈ G.vertices, (s v ≠ .white ↔ v ∈ D)

theorem color_init (s : V → Color) : ColorI G (initAll (colorRecorder : Comp _ V E) G.vertices s) ∅ := by
  intro v hv
  have := initAll_put (colorRecorder : Comp _ V E) (fun s => s) .white (fun _ _ => rfl) G.vertices s v
  rw [if_pos hv] at this
  simp [this]

theorem color_tracks : Tracks G (colorRecorder : Comp _ V E) (ColorI G) where
  disc s D v h hv := by
    rw [← h v hv]
    show (s v != .white) = true ↔ _
    simp
  nonTree s D e h _ _ := h
  treeFinish s D e h _ _ := h
  finish s D u h hu := by
    intro v hv
    show put s u .black v ≠ .white ↔ _
    by_cases h1 : v = u
    · simp [put, h1, hu]
    · simpa [put, h1] using h v hv
  searchFinish s D u h _ := h
  enterTree s D e h _ _ _ := by
    intro v hv
    show put s (G.tgt e) .gray v ≠ .white ↔ _
    by_cases h1 : v = G.tgt e
    · simp [put, h1]
    · simpa [put, h1] using h v hv
  enterRoot s D u h _ _ := by
    intro v hv
    show put s u .gray v ≠ .white ↔ _
    by_cases h1 : v = u
    · simp [put, h1]
    · simpa [put, h1] using h v hv

/-! ### `time_stamper` -/

def StampI (G : Graph V E) (s : Stamps V) (D : Set V) : Prop :=
  0 ≤ s.now ∧ ∀ v ∈ G.vertices, (s.inTime v ≠ -1 ↔ v ∈ D)

theorem stamp_init (s : Stamps V) (h0 : 0 ≤ s.now) :
    StampI G (initAll (timeStamper (-1) : Comp _ V E) G.vertices s) ∅ := by
  refine ⟨initAll_of (timeStamper (-1) : Comp _ V E) (fun s => 0 ≤ s.now) (fun s u h => h) _ _ h0, fun v hv => ?_⟩
  have := initAll_put (timeStamper (-1) : Comp _ V E) (fun s => s.inTime) (-1) (fun _ _ => rfl) G.vertices s v
  rw [if_pos hv] at this
  simp [this]

theorem stamp_tracks : Tracks G (timeStamper (-1) : Comp _ V E) (StampI G) where
  disc s D v h hv := by
    rw [← h.2 v hv]
    show (s.inTime v != -1) = true ↔ _
    simp
  nonTree s D e h _ _ := h
  treeFinish s D e h _ _ := h
  finish s D u h _ := h
  searchFinish s D u h _ := h
  enterTree s D e h _ _ _ := by
    refine ⟨by show 0 ≤ s.now + 1; have := h.1; omega, fun v hv => ?_⟩
    show put s.inTime (G.tgt e) s.now v ≠ -1 ↔ _
    by_cases h1 : v = G.tgt e
    · have := h.1
      simp [put, h1]
      omega
    · simpa [put, h1] using h.2 v hv
  enterRoot s D u h _ _ := by
    refine ⟨by show 0 ≤ s.now + 1; have := h.1; omega, fun v hv => ?_⟩
    show put s.inTime u s.now v ≠ -1 ↔ _
    by_cases h1 : v = u
    · have := h.1
      simp [put, h1]
      omega
    · simpa [put, h1] using h.2 v hv

/-! ### `predecessor_recorder` -/

def PredI (G : Graph V E) (s : V → Option V) (D : Set V) : Prop := ∀ v ∈ G.vertices, ((s v).isSome ↔ v ∈ D)

theorem pred_init (s : V → Option V) : PredI G (initAll (predecessorRecorder G) G.vertices s) ∅ := by
  intro v hv
  have := initAll_put (predecessorRecorder G) (fun s => s) none (fun _ _ => rfl) G.vertices s v
  rw [if_pos hv] at this
  simp [this]

theorem pred_tracks : Tracks G (predecessorRecorder G) (PredI G) where
  disc s D v h hv := h v hv
  nonTree s D e h _ _ := h
  treeFinish s D e h _ _ := h
  finish s D u h _ := h
  searchFinish s D u h _ := h
  enterTree s D e h _ _ _ := by
    intro v hv
    show (put s (G.tgt e) (some (G.src e)) v).isSome ↔ _
    by_cases h1 : v = G.tgt e
    · simp [put, h1]
    · simpa [put, h1] using h v hv
  enterRoot s D u h _ _ := by
    intro v hv
    show (put s u (some u) v).isSome ↔ _
    by_cases h1 : v = u
    · simp [put, h1]
    · simpa [put, h1] using h v hv

/-! ### `distance_recorder` -/

def DistI (G : Graph V E) (s : V → Int) (D : Set V) : Prop :=
  (∀ v ∈ D, 0 ≤ s v) ∧ ∀ v ∈ G.vertices, v ∉ D → s v = -1

theorem dist_init (s : V → Int) : DistI G (initAll (distanceRecorder G) G.vertices s) ∅ := by
  refine ⟨fun v hv => absurd hv (Set.notMem_empty v), fun v hv _ => ?_⟩
  have := initAll_put (distanceRecorder G) (fun s => s) (-1) (fun _ _ => rfl) G.vertices s v
  rw [if_pos hv] at this
  exact this

theorem dist_tracks : Tracks G (distanceRecorder G) (DistI G) where
  disc s D v h hv := by
    show (s v != -1) = true ↔ _
    by_cases hd : v ∈ D
    · have := h.1 v hd
      simp [hd]; omega
    · simp [hd, h.2 v hv hd]
  nonTree s D e h _ _ := h
  treeFinish s D e h _ _ := h
  finish s D u h _ := h
  searchFinish s D u h _ := h
  enterTree s D e h hs _ _ := by
    constructor
    · intro v hv
      show 0 ≤ put s (G.tgt e) (s (G.src e) + 1) v
      have := h.1 _ hs
      by_cases h1 : v = G.tgt e
      · simp [put, h1]; omega
      · simp only [put, h1, if_false]
        exact h.1 v (Set.mem_of_mem_insert_of_ne hv h1)
    · intro v hv hd
      show put s (G.tgt e) (s (G.src e) + 1) v = -1
      have h1 : v ≠ G.tgt e := fun h => hd (by rw [h]; exact Set.mem_insert _ _)
      simp only [put, h1, if_false]
      exact h.2 v hv (fun h => hd (Set.mem_insert_of_mem _ h))
  enterRoot s D u h _ _ := by
    constructor
    · intro v hv
      show 0 ≤ put s u 0 v
      by_cases h1 : v = u
      · simp [put, h1]
      · simp only [put, h1, if_false]
        exact h.1 v (Set.mem_of_mem_insert_of_ne hv h1)
    · intro v hv hd
      show put s u 0 v = -1
      have h1 : v ≠ u := fun h => hd (by rw [h]; exact Set.mem_insert _ _)
      simp only [put, h1, if_false]
      exact h.2 v hv (fun h => hd (Set.mem_insert_of_mem _ h))

/-! ### `connected_component_recorder` -/

def CompI (G : Graph V E) (s : (V → Int) × Int) (D : Set V) : Prop :=
  0 ≤ s.2 ∧ ∀ v ∈ G.vertices, (s.1 v ≠ -1 ↔ v ∈ D)

theorem comp_init (s : (V → Int) × Int) (h0 : 0 ≤ s.2) :
    CompI G (initAll (componentRecorder : Comp _ V E) G.vertices s) ∅ := by
  refine ⟨initAll_of (componentRecorder : Comp _ V E) (fun s => 0 ≤ s.2) (fun s u h => h) _ _ h0, fun v hv => ?_⟩
  have := initAll_put (componentRecorder : Comp _ V E) (fun s => s.1) (-1) (fun _ _ => rfl) G.vertices s v
  rw [if_pos hv] at this
  simp [this]

theorem comp_tracks : Tracks G (componentRecorder : Comp _ V E) (CompI G) where
  disc s D v h hv := by
    rw [← h.2 v hv]
    show (s.1 v != -1) = true ↔ _
    simp
  nonTree s D e h _ _ := h
  treeFinish s D e h _ _ := h
  finish s D u h _ := h
  searchFinish s D u h _ := ⟨by show 0 ≤ s.2 + 1; have := h.1; omega, h.2⟩
  enterTree s D e h _ _ _ := by
    refine ⟨h.1, fun v hv => ?_⟩
    show put s.1 (G.tgt e) s.2 v ≠ -1 ↔ _
    by_cases h1 : v = G.tgt e
    · have := h.1
      simp [put, h1]
      omega
    · simpa [put, h1] using h.2 v hv
  enterRoot s D u h _ _ := by
    refine ⟨h.1, fun v hv => ?_⟩
    show put s.1 u s.2 v ≠ -1 ↔ _
    by_cases h1 : v = u
    · have := h.1
      simp [put, h1]
      omega
    · simpa [put, h1] using h.2 v hv

end Actl.Traversal
