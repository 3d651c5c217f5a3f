import Verif.Spec.Dfs
import Verif.Props.DfsRecursive
import Mathlib.Data.List.Basic

/-!
The searches produce the events of the reference, for all components that keep track of the
discovered vertices.
-/

namespace Actl.Traversal

variable {σ V E : Type} {G : Graph V E} {c : Comp σ V E}

/-- The component knows the discovered vertices: `I s D` relates its state to them.  The conditions
are demanded only for events that happen. -/
structure Tracks (G : Graph V E) (c : Comp σ V E) (I : σ → Set V → Prop) : Prop where
  disc : ∀ s D v, I s D → v ∈ G.vertices → (c.disc s v = true ↔ v ∈ D)
  nonTree : ∀ s D e, I s D → G.src e ∈ D → G.tgt e ∈ D → I (c.on (.nonTree e) s) D
  treeFinish : ∀ s D e, I s D → G.src e ∈ D → G.tgt e ∈ D → I (c.on (.treeFinish e) s) D
  finish : ∀ s D u, I s D → u ∈ D → I (c.on (.finish u) s) D
  searchFinish : ∀ s D u, I s D → u ∈ D → I (c.on (.searchFinish u) s) D
  enterTree : ∀ s D e, I s D → G.src e ∈ D → G.tgt e ∉ D → G.tgt e ∈ G.vertices →
    I (c.on (.start (G.tgt e)) (c.on (.discover (G.tgt e)) (c.on (.treeStart e) s))) (insert (G.tgt e) D)
  enterRoot : ∀ s D u, I s D → u ∉ D → u ∈ G.vertices →
    I (c.on (.start u) (c.on (.discover u) (c.on (.searchStart u) s))) (insert u D)

/-- State after events. -/
def after (c : Comp σ V E) (s : σ) (l : List (Event V E)) : σ := l.foldl (fun s ev => c.on ev s) s

theorem after_append (c : Comp σ V E) (s : σ) (l l' : List (Event V E)) :
    after c s (l ++ l') = after c (after c s l) l' := by unfold after; rw [List.foldl_append]

theorem after_cons (c : Comp σ V E) (s : σ) (ev : Event V E) (l : List (Event V E)) :
    after c s (ev :: l) = after c (c.on ev s) l := rfl

theorem after_nil (c : Comp σ V E) (s : σ) : after c s [] = s := rfl

/-- The events up to the start of the first terminator, and the terminator. -/
def cut (term : V → Bool) : List (Event V E) → List (Event V E) × Option V
  | [] => ([], none)
  | .start u :: l => if term u then ([.start u], some u) else (.start u :: (cut term l).1, (cut term l).2)
  | ev :: l => (ev :: (cut term l).1, (cut term l).2)

theorem cut_append (term : V → Bool) (l l' : List (Event V E)) :
    cut term (l ++ l') =
      match (cut term l).2 with
      | some w => ((cut term l).1, some w)
      | none => (l ++ (cut term l').1, (cut term l').2) := by
  induction l with
  | nil => simp [cut]
  | cons ev l ih =>
    cases ev with
    | start u =>
      rw [List.cons_append, cut, cut]
      by_cases ht : term u = true
      · simp [ht]
      · simp only [ht, if_false, Bool.false_eq_true]
        rw [ih]
        cases (cut term l).2 <;> simp
    | _ =>
      simp only [List.cons_append, cut, ih]
      cases (cut term l).2 <;> simp

theorem cut_fst_of_none (term : V → Bool) (l : List (Event V E)) (h : (cut term l).2 = none) :
    (cut term l).1 = l := by
  have := cut_append term l []
  rw [List.append_nil, h] at this
  simp only [cut, List.append_nil] at this
  rw [this]

theorem cut_prefix (term : V → Bool) (l : List (Event V E)) : (cut term l).1 <+: l := by
  induction l with
  | nil => simp [cut]
  | cons ev l ih =>
    cases ev with
    | start u =>
      rw [cut]
      by_cases ht : term u = true
      · simp [ht]
      · simp only [ht, if_false, Bool.false_eq_true]
        exact (List.prefix_cons_inj _).mpr ih
    | _ => simp only [cut]; exact (List.prefix_cons_inj _).mpr ih

theorem cut_false (l : List (Event V E)) : cut (fun _ => false) l = (l, none) := by
  induction l with
  | nil => simp [cut]
  | cons ev l ih => cases ev <;> simp [cut, ih]

/-- Runs exist. -/
theorem Run.exists (hG : G.WF) (D : Set V) (es : List E) (hes : ∀ e ∈ es, G.tgt e ∈ G.vertices) :
    ∃ l D', Run G D es l D' := by
  classical
  -- by the number of undiscovered vertices
  have main : ∀ (n : Nat) (D : Set V) (es : List E), (G.vertices.filter (fun v => v ∉ D)).length ≤ n →
      (∀ e ∈ es, G.tgt e ∈ G.vertices) → ∃ l D', Run G D es l D' ∧ D ⊆ D' := by
    intro n
    induction n with
    | zero =>
      intro D es hn hes
      induction es with
      | nil => exact ⟨[], D, .nil D, subset_rfl⟩
      | cons e es ih =>
        obtain ⟨l, D', h, hD⟩ := ih (fun e' he' => hes e' (List.mem_cons_of_mem _ he'))
        have hmem : G.tgt e ∈ D := by
          by_contra hnot
          have : G.tgt e ∈ G.vertices.filter (fun v => v ∉ D) :=
            List.mem_filter.mpr ⟨hes e List.mem_cons_self, by simpa using hnot⟩
          have := List.length_pos_of_mem this
          omega
        exact ⟨_, D', .skip hmem h, hD⟩
    | succ n ihn =>
      intro D es
      induction es generalizing D with
      | nil => intro _ _; exact ⟨[], D, .nil D, subset_rfl⟩
      | cons e es ih =>
        intro hn hes
        have htail : ∀ e' ∈ es, G.tgt e' ∈ G.vertices := fun e' he' => hes e' (List.mem_cons_of_mem _ he')
        by_cases hmem : G.tgt e ∈ D
        · obtain ⟨l, D', h, hD⟩ := ih D hn htail
          exact ⟨_, D', .skip hmem h, hD⟩
        · have hlt : (G.vertices.filter (fun v => v ∉ (insert (G.tgt e) D : Set V))).length ≤ n := by
            have h1 : (G.vertices.filter (fun v => v ∉ (insert (G.tgt e) D : Set V))).length <
                (G.vertices.filter (fun v => v ∉ D)).length := by
              have hsub : G.vertices.filter (fun v => v ∉ (insert (G.tgt e) D : Set V)) =
                  (G.vertices.filter (fun v => v ∉ D)).filter (fun v => v ≠ G.tgt e) := by
                rw [List.filter_filter]
                apply List.filter_congr
                intro v _
                simp [Set.mem_insert_iff, not_or]
              rw [hsub]
              apply List.length_filter_lt_length_iff_exists.mpr
              exact ⟨G.tgt e, List.mem_filter.mpr ⟨hes e List.mem_cons_self, by simpa using hmem⟩, by simp⟩
            omega
          obtain ⟨l1, D1, r1, hD1⟩ := ihn (insert (G.tgt e) D) (G.out (G.tgt e)) (by convert hlt)
            (fun e' he' => hG.tgt _ (hes e List.mem_cons_self) e' he')
          have hsub : D ⊆ D1 := fun x hx => hD1 (Set.mem_insert_of_mem _ hx)
          have hn1 : (G.vertices.filter (fun v => v ∉ D1)).length ≤ n + 1 := by
            refine le_trans ?_ hn
            apply List.Sublist.length_le
            apply List.monotone_filter_right
            intro v hv
            simp only [decide_eq_true_eq] at hv ⊢
            exact fun h => hv (hsub h)
          obtain ⟨l2, D2, r2, hD2⟩ := ih D1 hn1 htail
          exact ⟨_, D2, .tree hmem r1 r2, hsub.trans hD2⟩
  obtain ⟨l, D', h, _⟩ := main _ D es (le_refl _) hes
  exact ⟨l, D', h⟩

theorem Run.subset {D D' : Set V} {es : List E} {l : List (Event V E)} (h : Run G D es l D') : D ⊆ D' := by
  induction h with
  | nil D => exact subset_rfl
  | skip _ _ ih => exact ih
  | tree h _ _ ih1 ih2 => exact fun x hx => ih2 (ih1 (Set.mem_insert_of_mem _ hx))

/-- Runs are determined by where they start. -/
theorem Run.det {D D1 D2 : Set V} {es : List E} {l1 l2 : List (Event V E)} (h1 : Run G D es l1 D1)
    (h2 : Run G D es l2 D2) : l1 = l2 ∧ D1 = D2 := by
  induction h1 generalizing l2 D2 with
  | nil D => cases h2; exact ⟨rfl, rfl⟩
  | skip h r ih =>
    cases h2 with
    | skip h' r' => obtain ⟨rfl, rfl⟩ := ih r'; exact ⟨rfl, rfl⟩
    | tree h' r1 r2 => exact absurd h h'
  | tree h r1 r2 ih1 ih2 =>
    cases h2 with
    | skip h' r' => exact absurd h' h
    | tree h' r1' r2' =>
      obtain ⟨rfl, rfl⟩ := ih1 r1'
      obtain ⟨rfl, rfl⟩ := ih2 r2'
      exact ⟨rfl, rfl⟩

/-- The recursive search follows the run, up to the first terminator. -/
theorem recurseEdges_of_run {I : σ → Set V → Prop} (hT : Tracks G c I) (hG : G.WF) (term : V → Bool)
    {D D' : Set V} {es : List E} {l : List (Event V E)} (h : Run G D es l D')
    (s : σ) (hI : I s D) (hes : ∀ e ∈ es, G.tgt e ∈ G.vertices ∧ G.src e ∈ D) :
    (∃ f, recurseEdges G c (recurse G c term f) es s = some (after c s (cut term l).1, (cut term l).2)) ∧
      ((cut term l).2 = none → I (after c s l) D') := by
  induction h generalizing s with
  | nil D => exact ⟨⟨0, by simp [recurseEdges, cut, after]⟩, fun _ => hI⟩
  | @skip D D' e es l hmem r ih =>
    have he := hes e List.mem_cons_self
    have hd : c.disc s (G.tgt e) = true := (hT.disc s D _ hI he.1).mpr hmem
    obtain ⟨⟨f, hf⟩, h2⟩ := ih (c.on (.nonTree e) s) (hT.nonTree s D e hI he.2 hmem)
      (fun e' he' => hes e' (List.mem_cons_of_mem _ he'))
    refine ⟨⟨f, ?_⟩, fun hc => h2 (by simpa [cut] using hc)⟩
    rw [recurseEdges, if_pos hd, hf]
    rfl
  | @tree D D1 D2 e es l1 l2 hmem r1 r2 ih1 ih2 =>
    have he := hes e List.mem_cons_self
    have hd : ¬ c.disc s (G.tgt e) = true := fun hd => hmem ((hT.disc s D _ hI he.1).mp hd)
    have hI1 := hT.enterTree s D e hI he.2 hmem he.1
    obtain ⟨⟨f1, hf1⟩, hi1⟩ := ih1 _ hI1 (fun e' he' => ⟨hG.tgt _ he.1 e' he', by
      rw [hG.src _ he.1 e' he']; exact Set.mem_insert _ _⟩)
    have hsub1 := r1.subset
    -- the terminator may be the vertex itself
    by_cases ht : term (G.tgt e) = true
    · have hc : cut term ([.treeStart e, .discover (G.tgt e), .start (G.tgt e)] ++ l1 ++
          [.finish (G.tgt e), .treeFinish e] ++ l2) =
          ([.treeStart e, .discover (G.tgt e), .start (G.tgt e)], some (G.tgt e)) := by
        simp [cut, ht]
      rw [hc]
      refine ⟨⟨1, ?_⟩, fun h => by cases h⟩
      rw [recurseEdges, if_neg hd, recurse]
      simp only [ht, if_true]
      rfl
    · have hhead : cut (E := E) term [.treeStart e, .discover (G.tgt e), .start (G.tgt e)] =
          ([.treeStart e, .discover (G.tgt e), .start (G.tgt e)], none) := by simp [cut, ht]
      cases hc1 : (cut term l1).2 with
      | some w =>
        have hc : cut term ([.treeStart e, .discover (G.tgt e), .start (G.tgt e)] ++ l1 ++
            [.finish (G.tgt e), .treeFinish e] ++ l2) =
            ([.treeStart e, .discover (G.tgt e), .start (G.tgt e)] ++ (cut term l1).1, some w) := by
          rw [List.append_assoc, List.append_assoc, cut_append, hhead]
          simp only
          rw [cut_append, hc1]
        rw [hc]
        refine ⟨⟨f1 + 1, ?_⟩, fun h => by cases h⟩
        rw [recurseEdges, if_neg hd, recurse]
        simp only [ht, if_false, Bool.false_eq_true]
        rw [hf1, hc1, after_append]
        rfl
      | none =>
        have hI2 := hi1 hc1
        have hvD1 : G.tgt e ∈ D1 := hsub1 (Set.mem_insert _ _)
        have huD1 : G.src e ∈ D1 := hsub1 (Set.mem_insert_of_mem _ he.2)
        obtain ⟨⟨f2, hf2⟩, hi2⟩ := ih2 _ (hT.treeFinish _ _ e (hT.finish _ _ _ hI2 hvD1) huD1 hvD1)
          (fun e' he' => ⟨(hes e' (List.mem_cons_of_mem _ he')).1,
            hsub1 (Set.mem_insert_of_mem _ (hes e' (List.mem_cons_of_mem _ he')).2)⟩)
        have hc : cut term ([.treeStart e, .discover (G.tgt e), .start (G.tgt e)] ++ l1 ++
            [.finish (G.tgt e), .treeFinish e] ++ l2) =
            ([.treeStart e, .discover (G.tgt e), .start (G.tgt e)] ++ l1 ++
            [.finish (G.tgt e), .treeFinish e] ++ (cut term l2).1, (cut term l2).2) := by
          rw [List.append_assoc, List.append_assoc, cut_append, hhead]
          simp only
          rw [cut_append, hc1]
          simp only
          rw [cut_append]
          simp [cut]
        have hst : after c s ([.treeStart e, .discover (G.tgt e), .start (G.tgt e)] ++ l1 ++
            [.finish (G.tgt e), .treeFinish e]) = c.on (.treeFinish e) (c.on (.finish (G.tgt e))
              (after c (c.on (.start (G.tgt e)) (c.on (.discover (G.tgt e)) (c.on (.treeStart e) s))) l1)) := by
          rw [after_append, after_append]; rfl
        rw [hc]
        refine ⟨⟨max (f1 + 1) f2, ?_⟩, fun h => ?_⟩
        · rw [recurseEdges, if_neg hd]
          have hrec : recurse G c term (max (f1 + 1) f2) (G.tgt e) (c.on (.treeStart e) s) =
              some (c.on (.finish (G.tgt e)) (after c (c.on (.start (G.tgt e)) (c.on (.discover (G.tgt e)) (c.on (.treeStart e) s))) l1), none) := by
            apply recurse_mono G c term (f1 + 1) _ (Nat.le_max_left _ _)
            rw [recurse]
            simp only [ht, if_false, Bool.false_eq_true]
            rw [hf1, hc1, cut_fst_of_none _ _ hc1]
          rw [hrec]
          simp only
          rw [recurseEdges_fuel_mono G c term f2 _ (Nat.le_max_right _ _) _ _ _ hf2]
          rw [after_append, hst]
        · rw [after_append, hst]
          exact hi2 h

/-- `visit` follows the reference, up to the first terminator. -/
theorem visit_of_ref {I : σ → Set V → Prop} (hT : Tracks G c I) (hG : G.WF) (term : V → Bool) {D : Set V}
    {u : V} (s : σ) (hI : I s D) (hu : u ∈ G.vertices) (huD : u ∉ D) :
    ∃ l D', Visit G D u l D' ∧
      (∃ fuel, visit G c term fuel u s =
        some (match (cut term l).2 with
          | none => after c s l
          | some w => c.on (.searchFinish w) (after c s (cut term l).1))) ∧
      ((cut term l).2 = none → I (after c s l) D') := by
  obtain ⟨l1, D', hr⟩ := Run.exists hG (insert u D) (G.out u) (fun e he => hG.tgt u hu e he)
  refine ⟨_, D', ⟨l1, hr, rfl⟩, ?_⟩
  have hI1 := hT.enterRoot s D u hI huD hu
  obtain ⟨⟨f, hf⟩, hi⟩ := recurseEdges_of_run hT hG term hr _ hI1
    (fun e he => ⟨hG.tgt u hu e he, by rw [hG.src u hu e he]; exact Set.mem_insert _ _⟩)
  have huD' : u ∈ D' := hr.subset (Set.mem_insert _ _)
  by_cases ht : term u = true
  · have hc : cut term ([.searchStart u, .discover u, .start u] ++ l1 ++ [.finish u, .searchFinish u]) =
        ([.searchStart u, .discover u, .start u], some u) := by simp [cut, ht]
    rw [hc]
    refine ⟨⟨0, ?_⟩, fun h => by cases h⟩
    unfold visit
    simp only [ht, if_true]
    rfl
  · have hhead : cut (E := E) term [.searchStart u, .discover u, .start u] =
        ([.searchStart u, .discover u, .start u], none) := by simp [cut, ht]
    have hc : cut term ([.searchStart u, .discover u, .start u] ++ l1 ++ [.finish u, .searchFinish u]) =
        match (cut term l1).2 with
        | some w => ([.searchStart u, .discover u, .start u] ++ (cut term l1).1, some w)
        | none => ([.searchStart u, .discover u, .start u] ++ l1 ++ [.finish u, .searchFinish u], none) := by
      rw [List.append_assoc, cut_append, hhead]
      simp only
      rw [cut_append]
      cases (cut term l1).2 with
      | some w => rfl
      | none => simp [cut]
    rw [hc]
    cases hc1 : (cut term l1).2 with
    | some w =>
      refine ⟨?_, fun h => by cases h⟩
      apply (visit_eq_recurse G c term u s _).mpr
      refine ⟨f + 1, after c s ([.searchStart u, .discover u, .start u] ++ (cut term l1).1), some w, ?_, rfl⟩
      rw [recurse]
      simp only [ht, if_false, Bool.false_eq_true]
      rw [hf, hc1, after_append]
      rfl
    | none =>
      refine ⟨?_, fun _ => ?_⟩
      · apply (visit_eq_recurse G c term u s _).mpr
        refine ⟨f + 1, after c s ([.searchStart u, .discover u, .start u] ++ l1 ++ [.finish u]), none, ?_, ?_⟩
        · rw [recurse]
          simp only [ht, if_false, Bool.false_eq_true]
          rw [hf, hc1, cut_fst_of_none _ _ hc1, after_append, after_append]
          rfl
        · simp only [after_append]; rfl
      · have h1 := hi hc1
        have h2 := hT.searchFinish _ _ u (hT.finish _ _ u h1 huD') huD'
        rw [after_append, after_append]
        exact h2

end Actl.Traversal
