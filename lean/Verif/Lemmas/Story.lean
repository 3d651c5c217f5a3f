import Verif.Lemmas.RecorderTracks

/-!
Predecessors and distances recorded by any search.
-/

namespace Actl.Traversal

variable {V E : Type} [DecidableEq V] {G : Graph V E} {R : V → Prop} {D : Set V} {l : List (Event V E)}

/-- The predecessors and distances make a forest with its roots in `R`. -/
def Forest (G : Graph V E) (R : V → Prop) (p : V → Option V) (d : V → Int) (D : Set V) : Prop :=
  ∀ v ∈ D, (R v ∧ p v = some v ∧ d v = 0) ∨ ∃ w ∈ D, p v = some w ∧ G.Adj w v ∧ 0 ≤ d w ∧ d v = d w + 1

omit [DecidableEq V] in
theorem Forest.nonneg {p : V → Option V} {d : V → Int} (h : Forest G R p d D) (v : V) (hv : v ∈ D) : 0 ≤ d v := by
  rcases h v hv with h | ⟨w, _, _, _, h1, h2⟩
  · omega
  · omega

omit [DecidableEq V] in
theorem Forest.path {p : V → Option V} {d : V → Int} (h : Forest G R p d D) (n : Nat) (v : V) (hv : v ∈ D)
    (hn : d v = n) :
    (∃ r ∈ D, R r ∧ p r = some r ∧ follow p n v = some r) ∧
    ∀ k < n, ∃ x y, follow p k v = some x ∧ p x = some y ∧ x ≠ y ∧ G.Adj y x := by
  induction n generalizing v with
  | zero =>
    rcases h v hv with ⟨h1, h2, h3⟩ | ⟨w, _, _, _, h3, h4⟩
    · exact ⟨⟨v, hv, h1, h2, rfl⟩, fun k hk => absurd hk (Nat.not_lt_zero k)⟩
    · omega
  | succ n ih =>
    rcases h v hv with ⟨h1, h2, h3⟩ | ⟨w, hw, h1, h2, h3, h4⟩
    · omega
    · obtain ⟨⟨r, hr, hR, hp, hf⟩, hk⟩ := ih w hw (by omega)
      refine ⟨⟨r, hr, hR, hp, by rw [follow, h1]; exact hf⟩, fun k hkn => ?_⟩
      cases k with
      | zero => exact ⟨v, w, rfl, h1, fun h => by rw [h] at h4; omega, h2⟩
      | succ k =>
        obtain ⟨x, y, h5, h6⟩ := hk k (by omega)
        exact ⟨x, y, by rw [follow, h1]; exact h5, h6⟩

/-- Searches grow the forest. -/
theorem Story.forest (h : Story G R D l) (p : V → Option V) (d : V → Int) (hF : Forest G R p d D) :
    Forest G R (after (predecessorRecorder G) p l) (after (distanceRecorder G) d l) (D ∪ {v | v ∈ discs l}) := by
  have ins : ∀ (D : Set V) (v : V) (m : List (Event V E)),
      D ∪ {x | x ∈ v :: discs m} = insert v D ∪ {x | x ∈ discs m} := by
    intro D v m
    ext x
    simp only [Set.mem_union, Set.mem_insert_iff, Set.mem_setOf_eq, List.mem_cons]
    tauto
  induction h generalizing p d with
  | nil D => simpa [after_nil] using hF
  | @root D u l hR hu r ih =>
    simp only [discs_searchStart, discs_discover, ins, after_cons]
    refine ih _ _ (fun v hv => ?_)
    show (R v ∧ put p u (some u) v = some v ∧ put d u 0 v = 0) ∨ ∃ w ∈ insert u D, put p u (some u) v = some w ∧ G.Adj w v ∧
      0 ≤ put d u 0 w ∧ put d u 0 v = put d u 0 w + 1
    by_cases hvu : v = u
    · subst hvu; exact Or.inl ⟨hR, by simp [put], by simp [put]⟩
    · have hvD := Set.mem_of_mem_insert_of_ne hv hvu
      rcases hF v hvD with h1 | ⟨w, hw, h1, h2, h3, h4⟩
      · exact Or.inl (by simpa [put, hvu] using h1)
      · have hwu : w ≠ u := fun h => hu (by rw [← h]; exact hw)
        exact Or.inr ⟨w, Set.mem_insert_of_mem _ hw, by simpa [put, hvu] using h1, h2, by simpa [put, hwu] using h3,
          by simpa [put, hwu, hvu] using h4⟩
  | @tree D e l he hs ht r ih =>
    simp only [discs_treeStart, discs_discover, ins, after_cons]
    refine ih _ _ (fun v hv => ?_)
    have hst : G.src e ≠ G.tgt e := fun h => ht (by rw [← h]; exact hs)
    show (R v ∧ put p (G.tgt e) (some (G.src e)) v = some v ∧ put d (G.tgt e) (d (G.src e) + 1) v = 0) ∨
      ∃ w ∈ insert (G.tgt e) D, put p (G.tgt e) (some (G.src e)) v = some w ∧ G.Adj w v ∧
      0 ≤ put d (G.tgt e) (d (G.src e) + 1) w ∧ put d (G.tgt e) (d (G.src e) + 1) v = put d (G.tgt e) (d (G.src e) + 1) w + 1
    by_cases hvt : v = G.tgt e
    · subst hvt
      have := hF.nonneg _ hs
      exact Or.inr ⟨G.src e, Set.mem_insert_of_mem _ hs, by simp [put], ⟨e, he, rfl⟩, by simpa [put, hst] using this,
        by simp [put, hst]⟩
    · have hvD := Set.mem_of_mem_insert_of_ne hv hvt
      rcases hF v hvD with h1 | ⟨w, hw, h1, h2, h3, h4⟩
      · exact Or.inl (by simpa [put, hvt] using h1)
      · have hwu : w ≠ G.tgt e := fun h => ht (by rw [← h]; exact hw)
        exact Or.inr ⟨w, Set.mem_insert_of_mem _ hw, by simpa [put, hvt] using h1, h2, by simpa [put, hwu] using h3,
          by simpa [put, hwu, hvt] using h4⟩
  | nonTree he hs ht r ih => exact ih _ _ hF
  | treeFinish hs ht r ih => exact ih _ _ hF
  | start h r ih => exact ih _ _ hF
  | finish h r ih => exact ih _ _ hF
  | searchFinish r ih => exact ih _ _ hF

theorem Forest.empty (p : V → Option V) (d : V → Int) : Forest G R p d ∅ := fun v hv => absurd hv (Set.notMem_empty v)

/-- Predecessors recorded are the sources of tree edges and the roots. -/
theorem Story.pred_mem (h : Story G R D l) (p : V → Option V) (v w : V) (hp : after (predecessorRecorder G) p l v = some w) :
    p v = some w ∨ (v = w ∧ Event.searchStart v ∈ l) ∨ ∃ e, Event.treeStart e ∈ l ∧ G.tgt e = v ∧ G.src e = w := by
  induction h generalizing p with
  | nil D => exact Or.inl hp
  | @root D u l hR hu r ih =>
    rcases ih _ hp with h | ⟨h1, h2⟩ | ⟨e, h1, h2⟩
    · have h : put p u (some u) v = some w := h
      by_cases hvu : v = u
      · subst hvu
        simp only [put, if_true, Option.some.injEq] at h
        exact Or.inr (Or.inl ⟨h, List.mem_cons_self⟩)
      · exact Or.inl (by simpa [put, hvu] using h)
    · exact Or.inr (Or.inl ⟨h1, by simp [h2]⟩)
    · exact Or.inr (Or.inr ⟨e, by simp [h1], h2⟩)
  | @tree D e l he hs ht r ih =>
    rcases ih _ hp with h | ⟨h1, h2⟩ | ⟨e', h1, h2⟩
    · have h : put p (G.tgt e) (some (G.src e)) v = some w := h
      by_cases hvu : v = G.tgt e
      · subst hvu
        simp only [put, if_true, Option.some.injEq] at h
        exact Or.inr (Or.inr ⟨e, List.mem_cons_self, rfl, h⟩)
      · exact Or.inl (by simpa [put, hvu] using h)
    · exact Or.inr (Or.inl ⟨h1, by simp [h2]⟩)
    · exact Or.inr (Or.inr ⟨e', by simp [h1], h2⟩)
  | nonTree he hs ht r ih | treeFinish hs ht r ih | start h r ih | finish h r ih | searchFinish r ih =>
    rcases ih _ hp with h | ⟨h1, h2⟩ | ⟨e', h1, h2⟩
    · exact Or.inl h
    · exact Or.inr (Or.inl ⟨h1, by simp [h2]⟩)
    · exact Or.inr (Or.inr ⟨e', by simp [h1], h2⟩)

end Actl.Traversal
