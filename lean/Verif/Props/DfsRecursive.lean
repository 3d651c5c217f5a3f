import Verif.Model.Traversal

/-!
C42: the iterative depth-first search does the same as its recursive definition, for all components,
terminators and starting states.
-/

namespace Actl.Traversal

variable {σ V E : Type} (G : Graph V E) (c : Comp σ V E) (term : V → Bool)

theorem recurseEdges_mono (rec rec' : V → σ → Option (σ × Option V))
    (h : ∀ v s r, rec v s = some r → rec' v s = some r) (es : List E) (s : σ) (r : σ × Option V)
    (hr : recurseEdges G c rec es s = some r) : recurseEdges G c rec' es s = some r := by
  induction es generalizing s with
  | nil => exact hr
  | cons e es ih =>
    rw [recurseEdges] at hr ⊢
    by_cases hd : c.disc s (G.tgt e) = true
    · rw [if_pos hd] at hr ⊢; exact ih _ hr
    · rw [if_neg hd] at hr ⊢
      cases hrec : rec (G.tgt e) (c.on (.treeStart e) s) with
      | none => rw [hrec] at hr; cases hr
      | some p =>
        rw [h _ _ _ hrec]
        rw [hrec] at hr
        obtain ⟨s1, w⟩ := p
        cases w with
        | some w => exact hr
        | none => exact ih _ hr

theorem recurse_mono (n m : Nat) (hnm : n ≤ m) (u : V) (s : σ) (r : σ × Option V)
    (h : recurse G c term n u s = some r) : recurse G c term m u s = some r := by
  induction n generalizing m u s r with
  | zero => cases h
  | succ n ih =>
    obtain ⟨m, rfl⟩ : ∃ k, m = k + 1 := ⟨m - 1, by omega⟩
    rw [recurse] at h ⊢
    by_cases ht : term u = true
    · simp only [ht, if_true] at h ⊢; exact h
    · simp only [ht, if_false, Bool.false_eq_true] at h ⊢
      cases hE : recurseEdges G c (recurse G c term n) (G.out u) (c.on (.start u) (c.on (.discover u) s)) with
      | none => rw [hE] at h; cases h
      | some p =>
        rw [recurseEdges_mono G c _ (recurse G c term m) (fun v s r hr => ih m (by omega) v s r hr) _ _ _ hE]
        rw [hE] at h
        exact h

theorem recurseEdges_fuel_mono (n m : Nat) (hnm : n ≤ m) (es : List E) (s : σ) (r : σ × Option V)
    (h : recurseEdges G c (recurse G c term n) es s = some r) :
    recurseEdges G c (recurse G c term m) es s = some r :=
  recurseEdges_mono G c _ _ (fun v s r hr => recurse_mono G c term n m hnm v s r hr) es s r h

/-- From recursion to iteration. -/
theorem loop_of_recurse (f : Nat) (es : List E) (s s' : σ) (o : Option V)
    (h : recurseEdges G c (recurse G c term f) es s = some (s', o)) (u : V) (stack : List (V × List E)) :
    match o with
    | none => ∃ k, ∀ m, loop G c term (k + m) u es stack s = loop G c term m u [] stack s'
    | some w => ∃ k, ∀ m, loop G c term (k + m) u es stack s = some (s', w) := by
  induction f generalizing es s s' o u stack with
  | zero =>
    induction es generalizing s with
    | nil =>
      rw [recurseEdges] at h
      cases h
      exact ⟨0, fun m => by rw [Nat.zero_add]⟩
    | cons e es ih =>
      rw [recurseEdges] at h
      by_cases hd : c.disc s (G.tgt e) = true
      · rw [if_pos hd] at h
        have := ih _ h
        cases o with
        | none =>
          obtain ⟨k, hk⟩ := this
          exact ⟨k + 1, fun m => by rw [Nat.add_right_comm, loop, if_pos hd, hk]⟩
        | some w =>
          obtain ⟨k, hk⟩ := this
          exact ⟨k + 1, fun m => by rw [Nat.add_right_comm, loop, if_pos hd, hk]⟩
      · rw [if_neg hd] at h
        simp [recurse] at h
  | succ f ihf =>
    induction es generalizing s with
    | nil =>
      rw [recurseEdges] at h
      cases h
      exact ⟨0, fun m => by rw [Nat.zero_add]⟩
    | cons e es ih =>
      rw [recurseEdges] at h
      by_cases hd : c.disc s (G.tgt e) = true
      · rw [if_pos hd] at h
        have := ih _ h
        cases o with
        | none =>
          obtain ⟨k, hk⟩ := this
          exact ⟨k + 1, fun m => by rw [Nat.add_right_comm, loop, if_pos hd, hk]⟩
        | some w =>
          obtain ⟨k, hk⟩ := this
          exact ⟨k + 1, fun m => by rw [Nat.add_right_comm, loop, if_pos hd, hk]⟩
      · rw [if_neg hd, recurse] at h
        by_cases ht : term (G.tgt e) = true
        · simp only [ht, if_true] at h
          cases h
          exact ⟨1, fun m => by rw [Nat.add_comm, loop, if_neg hd]; simp only [ht, if_true]⟩
        · simp only [ht, if_false, Bool.false_eq_true] at h
          cases hE : recurseEdges G c (recurse G c term f) (G.out (G.tgt e))
              (c.on (.start (G.tgt e)) (c.on (.discover (G.tgt e)) (c.on (.treeStart e) s))) with
          | none => rw [hE] at h; cases h
          | some p =>
            rw [hE] at h
            obtain ⟨s1, w⟩ := p
            have h1 := ihf _ _ _ _ hE (G.tgt e) ((u, e :: es) :: stack)
            cases w with
            | some w =>
              simp only at h
              cases h
              obtain ⟨k, hk⟩ := h1
              exact ⟨k + 1, fun m => by
                rw [Nat.add_right_comm, loop, if_neg hd]
                simp only [ht, if_false, Bool.false_eq_true]
                exact hk m⟩
            | none =>
              simp only at h
              obtain ⟨k, hk⟩ := h1
              have step : ∀ m, loop G c term (k + 1 + 1 + m) u (e :: es) stack s =
                  loop G c term m u es stack (c.on (.treeFinish e) (c.on (.finish (G.tgt e)) s1)) := by
                intro m
                rw [show k + 1 + 1 + m = (k + (m + 1)) + 1 by omega, loop, if_neg hd]
                simp only [ht, if_false, Bool.false_eq_true]
                rw [hk, loop]
              have h2 := ih _ h
              cases o with
              | none =>
                obtain ⟨k2, hk2⟩ := h2
                exact ⟨k + 1 + 1 + k2, fun m => by rw [Nat.add_assoc, step, hk2]⟩
              | some w =>
                obtain ⟨k2, hk2⟩ := h2
                exact ⟨k + 1 + 1 + k2, fun m => by rw [Nat.add_assoc, step, hk2]⟩

/-- From iteration to recursion. -/
theorem recurse_of_loop (n : Nat) (u : V) (es : List E) (stack : List (V × List E)) (s : σ) (r : σ × V)
    (h : loop G c term n u es stack s = some r) :
    ∃ f, recurseEdges G c (recurse G c term f) es s = some (r.1, some r.2) ∨
      ∃ s' n', n' ≤ n ∧ recurseEdges G c (recurse G c term f) es s = some (s', none) ∧
        loop G c term n' u [] stack s' = some r := by
  induction n using Nat.strongRecOn generalizing u es stack s with
  | ind n ih =>
    cases es with
    | nil => exact ⟨0, Or.inr ⟨s, n, Nat.le_refl n, rfl, h⟩⟩
    | cons e es =>
      cases n with
      | zero => cases h
      | succ n =>
        rw [loop] at h
        by_cases hd : c.disc s (G.tgt e) = true
        · rw [if_pos hd] at h
          obtain ⟨f, hf⟩ := ih n (by omega) _ _ _ _ h
          refine ⟨f, ?_⟩
          rw [recurseEdges, if_pos hd]
          rcases hf with hf | ⟨s', n', hn', h1, h2⟩
          · exact Or.inl hf
          · exact Or.inr ⟨s', n', by omega, h1, h2⟩
        · rw [if_neg hd] at h
          by_cases ht : term (G.tgt e) = true
          · simp only [ht, if_true] at h
            cases h
            refine ⟨1, Or.inl ?_⟩
            rw [recurseEdges, if_neg hd, recurse]
            simp only [ht, if_true]
          · simp only [ht, if_false, Bool.false_eq_true] at h
            obtain ⟨f, hf⟩ := ih n (by omega) _ _ _ _ h
            rcases hf with hf | ⟨s1, n1, hn1, h1, h2⟩
            · refine ⟨f + 1, Or.inl ?_⟩
              rw [recurseEdges, if_neg hd, recurse]
              simp only [ht, if_false, Bool.false_eq_true, hf]
            · cases n1 with
              | zero => cases h2
              | succ n1 =>
                rw [loop] at h2
                obtain ⟨g, hg⟩ := ih n1 (by omega) _ _ _ _ h2
                refine ⟨max (f + 1) g, ?_⟩
                have hrec : recurse G c term (max (f + 1) g) (G.tgt e) (c.on (.treeStart e) s) =
                    some (c.on (.finish (G.tgt e)) s1, none) := by
                  apply recurse_mono G c term (f + 1) _ (Nat.le_max_left _ _)
                  rw [recurse]
                  simp only [ht, if_false, Bool.false_eq_true, h1]
                rw [recurseEdges, if_neg hd, hrec]
                simp only
                rcases hg with hg | ⟨s', n', hn', h3, h4⟩
                · exact Or.inl (recurseEdges_fuel_mono G c term g _ (Nat.le_max_right _ _) _ _ _ hg)
                · exact Or.inr ⟨s', n', by omega, recurseEdges_fuel_mono G c term g _ (Nat.le_max_right _ _) _ _ _ h3, h4⟩

/-- **C42** The iterative search ends in a state exactly if the recursive one does, in the same state
of all components, apart from the events around the search: the start at the source and the finish
at the terminator found or, if none, at the source. -/
theorem visit_eq_recurse (u : V) (s t : σ) :
    (∃ fuel, visit G c term fuel u s = some t) ↔
    ∃ depth s' found, recurse G c term depth u (c.on (.searchStart u) s) = some (s', found) ∧
      t = c.on (.searchFinish (found.getD u)) s' := by
  unfold visit
  by_cases ht : term u = true
  · simp only [ht, if_true]
    constructor
    · rintro ⟨_, h⟩
      injection h with h
      exact ⟨1, _, some u, by simp only [recurse, ht, if_true], h.symm⟩
    · rintro ⟨d, s', found, h, rfl⟩
      refine ⟨0, ?_⟩
      cases d with
      | zero => cases h
      | succ d =>
        simp only [recurse, ht, if_true] at h
        cases h
        rfl
  · simp only [ht, if_false, Bool.false_eq_true]
    constructor
    · rintro ⟨fuel, h⟩
      cases hl : loop G c term fuel u (G.out u) [] (c.on (.start u) (c.on (.discover u) (c.on (.searchStart u) s))) with
      | none => rw [hl] at h; cases h
      | some r =>
        rw [hl] at h
        injection h with h
        obtain ⟨f, hf⟩ := recurse_of_loop G c term _ _ _ _ _ _ hl
        rcases hf with hf | ⟨s', n', _, h1, h2⟩
        · exact ⟨f + 1, r.1, some r.2, by rw [recurse]; simp only [ht, if_false, Bool.false_eq_true, hf], h.symm⟩
        · cases n' with
          | zero => cases h2
          | succ n' =>
            rw [loop] at h2
            injection h2 with h2
            subst h2
            exact ⟨f + 1, c.on (.finish u) s', none, by
              rw [recurse]; simp only [ht, if_false, Bool.false_eq_true, h1], h.symm⟩
    · rintro ⟨d, s', found, h, rfl⟩
      cases d with
      | zero => cases h
      | succ d =>
        rw [recurse] at h
        simp only [ht, if_false, Bool.false_eq_true] at h
        cases hE : recurseEdges G c (recurse G c term d) (G.out u)
            (c.on (.start u) (c.on (.discover u) (c.on (.searchStart u) s))) with
        | none => rw [hE] at h; cases h
        | some p =>
          rw [hE] at h
          obtain ⟨s1, w⟩ := p
          have h1 := loop_of_recurse G c term _ _ _ _ _ hE u []
          cases w with
          | some w =>
            cases h
            obtain ⟨k, hk⟩ := h1
            refine ⟨k, ?_⟩
            rw [show k = k + 0 by rfl, hk]
            rfl
          | none =>
            cases h
            obtain ⟨k, hk⟩ := h1
            refine ⟨k + 1, ?_⟩
            rw [hk, loop]
            rfl

/-- Both searches of a triangle with a tail for the terminator 3, recording the events. -/
example :
    let G : Graph Nat (Nat × Nat) :=
      ⟨[0, 1, 2, 3], fun u => match u with | 0 => [(0, 1)] | 1 => [(1, 2)] | 2 => [(2, 0), (2, 3)] | _ => [], Prod.fst, Prod.snd⟩
    let c : Comp (List (Event Nat (Nat × Nat))) Nat (Nat × Nat) := ⟨fun ev l => l ++ [ev], fun l v => l.contains (.discover v)⟩
    let l : List (Event Nat (Nat × Nat)) := [.searchStart 0, .discover 0, .start 0, .treeStart (0, 1), .discover 1, .start 1,
      .treeStart (1, 2), .discover 2, .start 2, .nonTree (2, 0), .treeStart (2, 3), .discover 3, .start 3]
    visit G c (· == 3) 10 0 [] = some (l ++ [.searchFinish 3]) ∧
      recurse G c (· == 3) 10 0 [.searchStart 0] = some (l, some 3) := by decide +kernel

end Actl.Traversal
