import Verif.Lemmas.Biconnected

/-!
The stack of the search for biconnected components, in terms of the events.
-/

namespace Actl.Traversal

variable {V E K : Type} {G : Graph V E} {T : V → Int}

theorem Graph.Above.mono {e : E} {b b' : List (Event V E)} {x : V} (h : G.Above T e b x) (hb : ∀ ev ∈ b, ev ∈ b') :
    G.Above T e b' x := by
  obtain ⟨g, h1, h2⟩ := h
  exact ⟨g, h1.imp id (hb _), h2⟩

theorem Graph.ClosedBy.mono {l : List (Event V E)} {e : E} {i : Int} (h : G.ClosedBy T l e i) (l' : List (Event V E)) :
    G.ClosedBy T (l ++ l') e i := by
  obtain ⟨a, b, h, c, rfl, h1⟩ := h
  exact ⟨a, b, h, c ++ l', by simp, h1⟩

/-- No return until now has taken the edge off. -/
def Open (G : Graph V E) (T : V → Int) (e : E) (b : List (Event V E)) : Prop :=
  ∀ b1 h b2, b = b1 ++ .treeFinish h :: b2 → G.Closes T (.treeFinish h) → G.Above T e b1 (G.src h)

/-- All edges put on the stack meanwhile have been taken off, or will be by the return to `x`. -/
def Gone (G : Graph V E) (T : V → Int) (x : Option V) (b : List (Event V E)) : Prop :=
  ∀ g, Event.nonTree g ∈ b → G.Back T g → (∃ h, Event.treeFinish h ∈ b ∧ T (G.src h) ≤ T (G.tgt g)) ∨
    ∃ y ∈ x, T y ≤ T (G.tgt g)

/-- The stack after events. -/
inductive Stk (G : Graph V E) (T : V → Int) : List E → List (Event V E) → Prop
  | nil (p : List (Event V E)) : Stk G T [] p
  | cons {st : List E} {a : List (Event V E)} {e : E} {b : List (Event V E)} (r : Stk G T st a) (h1 : G.Back T e)
      (h2 : Open G T e b) (h3 : Gone G T none b) : Stk G T (e :: st) (a ++ .nonTree e :: b)

theorem Open.snoc {e : E} {b : List (Event V E)} {ev : Event V E} (h : Open G T e b)
    (hev : ∀ h, ev = .treeFinish h → G.Closes T ev → G.Above T e b (G.src h)) : Open G T e (b ++ [ev]) := by
  intro b1 k b2 hb hc
  rcases List.eq_nil_or_concat b2 with rfl | ⟨b2, x, rfl⟩
  · obtain ⟨rfl, h2⟩ := List.append_inj' hb rfl
    injection h2 with h2
    exact hev k h2 (h2 ▸ hc)
  · rw [List.concat_eq_append, ← List.cons_append, ← List.append_assoc] at hb
    exact h b1 k b2 (List.append_inj_left' hb rfl) hc

theorem Gone.snoc {x : Option V} {b : List (Event V E)} {ev : Event V E} (h : Gone G T x b)
    (hev : ∀ g, ev = .nonTree g → ¬G.Back T g) : Gone G T x (b ++ [ev]) := by
  intro g hg hb
  rcases List.mem_append.mp hg with hg | hg
  · rcases h g hg hb with ⟨k, h1, h2⟩ | h1
    · exact Or.inl ⟨k, List.mem_append_left _ h1, h2⟩
    · exact Or.inr h1
  · exact absurd hb (hev g (List.mem_singleton.mp hg).symm)

theorem Stk.other {st : List E} {p : List (Event V E)} {ev : Event V E} (h : Stk G T st p) (h1 : ¬G.Closes T ev)
    (h2 : ∀ g, ev = .nonTree g → ¬G.Back T g) : Stk G T st (p ++ [ev]) := by
  cases h with
  | nil => exact .nil _
  | cons r k1 k2 k3 =>
    rw [List.append_assoc, List.cons_append]
    exact .cons r k1 (k2.snoc (fun _ _ hc => absurd hc h1)) (k3.snoc h2)

theorem Stk.push {st : List E} {p : List (Event V E)} {e : E} (h : Stk G T st p) (he : G.Back T e) :
    Stk G T (e :: st) (p ++ [.nonTree e]) :=
  .cons h he (fun b1 h b2 hb => by cases b1 <;> cases hb) (fun g hg => by cases hg)

theorem Stk.pop_stay {h e : E} {st : List E} {a b : List (Event V E)} (r : Stk G T st a) (h1 : G.Back T e)
    (h2 : Open G T e b) (h3 : Gone G T (some (G.src h)) b) (hlt : T (G.tgt e) < T (G.src h)) :
    Stk G T (e :: st) (a ++ .nonTree e :: b ++ [.treeFinish h]) := by
  rw [List.append_assoc, List.cons_append]
  refine .cons r h1 (h2.snoc (fun k hk _ => ?_)) (fun g hg hb => Or.inl ?_)
  · injection hk with hk
    subst hk
    exact ⟨e, Or.inl rfl, h1, hlt⟩
  · rcases List.mem_append.mp hg with hg | hg
    · rcases h3 g hg hb with ⟨k, k1, k2⟩ | ⟨y, k1, k2⟩
      · exact ⟨k, List.mem_append_left _ k1, k2⟩
      · cases k1
        exact ⟨h, by simp, k2⟩
    · simp at hg

theorem Gone.closed {h e : E} {a b : List (Event V E)} (hc : G.Closes T (.treeFinish h)) (h1 : G.Back T e)
    (h2 : Open G T e b) (h3 : Gone G T (some (G.src h)) b) (hle : T (G.src h) ≤ T (G.tgt e))
    (hX : ∀ f h', List.Sublist [.nonTree f, .treeFinish h'] (a ++ .nonTree e :: b) →
      T (G.src h) ≤ T (G.src h') ∨ T (G.src f) < T (G.src h)) :
    G.ClosedBy T (a ++ .nonTree e :: b ++ [.treeFinish h]) e (G.closings T (a ++ .nonTree e :: b)) := by
  refine ⟨a, b, h, [], rfl, hc, ?_, h2, rfl⟩
  rintro ⟨g, hg, hb, hlt⟩
  rcases hg with rfl | hg
  · omega
  · rcases h3 g hg hb with ⟨k, k1, k2⟩ | ⟨y, k1, k2⟩
    · rcases hX e k ((List.Sublist.cons_cons _ (List.singleton_sublist.mpr k1)).trans (List.sublist_append_right _ _)) with k3 | k3
      · omega
      · have h1 : T (G.tgt e) < T (G.src e) := h1
        omega
    · cases k1
      omega

theorem Stk.pop_aux {h : E} (hc : G.Closes T (.treeFinish h)) (st : List E) (a : List (Event V E)) (e : E) (b : List (Event V E))
    (A B : List E) (hst : e :: st = A ++ B) (r : Stk G T st a) (h1 : G.Back T e) (h2 : Open G T e b)
    (h3 : Gone G T (some (G.src h)) b)
    (hA : ∀ f ∈ A, T (G.src h) ≤ T (G.tgt f)) (hB : ∀ f B', B = f :: B' → T (G.tgt f) < T (G.src h))
    (hX : ∀ f h', List.Sublist [.nonTree f, .treeFinish h'] (a ++ .nonTree e :: b) →
      T (G.src h) ≤ T (G.src h') ∨ T (G.src f) < T (G.src h)) :
    Stk G T B (a ++ .nonTree e :: b ++ [.treeFinish h]) ∧
    ∀ f ∈ A, G.ClosedBy T (a ++ .nonTree e :: b ++ [.treeFinish h]) f (G.closings T (a ++ .nonTree e :: b)) := by
  induction st generalizing a e b A with
  | nil =>
    cases A with
    | nil =>
      have hB' : B = _ := hst.symm
      rw [hB']
      exact ⟨r.pop_stay h1 h2 h3 (hB e _ hB'), fun f hf => by cases hf⟩
    | cons f A =>
      injection hst with h4 h5
      obtain ⟨rfl, rfl⟩ := List.append_eq_nil_iff.mp h5.symm
      subst h4
      refine ⟨.nil _, fun f hf => ?_⟩
      rw [List.mem_singleton.mp hf]
      exact h3.closed hc h1 h2 (hA e List.mem_cons_self) hX
  | cons e' st ih =>
    cases A with
    | nil =>
      have hB' : B = _ := hst.symm
      rw [hB']
      exact ⟨r.pop_stay h1 h2 h3 (hB e _ hB'), fun f hf => by cases hf⟩
    | cons f A =>
      injection hst with h4 h5
      subst h4
      have hle := hA e List.mem_cons_self
      cases r with
      | @cons _ a' _ b' r k1 k2 k3 =>
        have heq : a' ++ .nonTree e' :: b' ++ .nonTree e :: b = a' ++ .nonTree e' :: (b' ++ .nonTree e :: b) := by simp
        have hcl := h3.closed hc h1 h2 hle hX
        rw [heq] at hX hcl ⊢
        have hop : Open G T e' (b' ++ .nonTree e :: b) := by
          intro b1 k b2 hb hcl1
          rcases List.append_eq_append_iff.mp hb with ⟨x, rfl, hx⟩ | ⟨x, hx, hx'⟩
          · cases x with
            | nil => cases hx
            | cons y x =>
              injection hx with hx1 hx2
              subst hx1
              obtain ⟨g, g1, g2⟩ := h2 x k b2 hx2 hcl1
              refine ⟨g, Or.inr ?_, g2⟩
              rcases g1 with rfl | g1
              · simp
              · simp [g1]
          · cases x with
            | nil => cases hx'
            | cons y x =>
              injection hx' with hx1 hx2
              subst hx1
              exact k2 b1 k x hx hcl1
        have hgo : Gone G T (some (G.src h)) (b' ++ .nonTree e :: b) := by
          intro g hg hb
          rcases List.mem_append.mp hg with hg | hg
          · rcases k3 g hg hb with ⟨k, g1, g2⟩ | ⟨y, g1, g2⟩
            · exact Or.inl ⟨k, List.mem_append_left _ g1, g2⟩
            · cases g1
          · rcases List.mem_cons.mp hg with hg | hg
            · injection hg with hg
              exact Or.inr ⟨_, rfl, by rw [hg]; exact hle⟩
            · rcases h3 g hg hb with ⟨k, g1, g2⟩ | g1
              · exact Or.inl ⟨k, by simp [g1], g2⟩
              · exact Or.inr g1
        obtain ⟨i1, i2⟩ := ih a' e' (b' ++ .nonTree e :: b) A h5 r k1 hop hgo (fun f hf => hA f (List.mem_cons_of_mem _ hf)) hX
        refine ⟨i1, fun f hf => ?_⟩
        rcases List.mem_cons.mp hf with rfl | hf
        · exact hcl
        · exact i2 f hf

theorem Stk.pop {h : E} (hc : G.Closes T (.treeFinish h)) {A B : List E} {p : List (Event V E)} (r : Stk G T (A ++ B) p)
    (hA : ∀ f ∈ A, T (G.src h) ≤ T (G.tgt f)) (hB : ∀ f B', B = f :: B' → T (G.tgt f) < T (G.src h))
    (hX : ∀ f h', List.Sublist [.nonTree f, .treeFinish h'] p → T (G.src h) ≤ T (G.src h') ∨ T (G.src f) < T (G.src h)) :
    Stk G T B (p ++ [.treeFinish h]) ∧ ∀ f ∈ A, G.ClosedBy T (p ++ [.treeFinish h]) f (G.closings T p) := by
  generalize hst : A ++ B = st at r
  cases r with
  | nil =>
    obtain ⟨rfl, rfl⟩ := List.append_eq_nil_iff.mp hst
    exact ⟨.nil _, fun f hf => by cases hf⟩
  | cons r h1 h2 h3 =>
    refine Stk.pop_aux hc _ _ _ _ A B hst.symm r h1 h2 (fun g hg hb => ?_) hA hB hX
    rcases h3 g hg hb with k | ⟨y, k, -⟩
    · exact Or.inl k
    · cases k

theorem Stk.back {st : List E} {p : List (Event V E)} (r : Stk G T st p) : ∀ e ∈ st, G.Back T e := by
  induction r with
  | nil => intro e he; cases he
  | cons r h1 h2 h3 ih =>
    intro f hf
    rcases List.mem_cons.mp hf with rfl | hf
    · exact h1
    · exact ih f hf

theorem closings_snoc (p : List (Event V E)) (ev : Event V E) :
    (G.Closes T ev → G.closings T (p ++ [ev]) = G.closings T p + 1) ∧
    (¬G.Closes T ev → G.closings T (p ++ [ev]) = G.closings T p) := by
  unfold Graph.closings
  rw [List.filter_append]
  constructor
  · intro h; simp [h]
  · intro h; simp [h]

variable [DecidableEq V] [DecidableEq K] {key : E → K}

/-- The stack, the map and the number after events. -/
structure XInv (G : Graph V E) (key : E → K) (T : V → Int) (p : List (Event V E)) (s : BiState V E K) : Prop where
  stk : Stk G T s.stack p
  n : s.n = G.closings T p
  map : ∀ k i, s.map k = some i → ∃ e, key e = k ∧ G.Back T e ∧ G.ClosedBy T p e i

theorem XInv.step {p : List (Event V E)} {s : BiState V E K} {ev : Event V E} (h : XInv G key T p s) (hok : Ok G T s ev)
    (hX : ∀ h, ev = .treeFinish h → ∀ f h', List.Sublist [.nonTree f, .treeFinish h'] p →
      T (G.src h) ≤ T (G.src h') ∨ T (G.src f) < T (G.src h)) :
    XInv G key T (p ++ [ev]) ((biFinder G key).on ev s) := by
  have hmap : ∀ k i, s.map k = some i → ∃ e, key e = k ∧ G.Back T e ∧ G.ClosedBy T (p ++ [ev]) e i := fun k i hk => by
    obtain ⟨e, h1, h2, h3⟩ := h.map k i hk
    exact ⟨e, h1, h2, h3.mono _⟩
  have hother : ¬G.Closes T ev → (∀ g, ev = .nonTree g → ¬G.Back T g) → ∀ a,
      XInv G key T (p ++ [ev]) { s with art := a } := fun h1 h2 a =>
    ⟨h.stk.other h1 h2, by rw [(closings_snoc p ev).2 h1]; exact h.n, hmap⟩
  cases ev with
  | nonTree e =>
    rw [biNonTree, hok.1, hok.2]
    by_cases hb : T (G.tgt e) < T (G.src e)
    · rw [if_pos hb]
      exact ⟨h.stk.push hb, by rw [(closings_snoc p (.nonTree e)).2 (fun hh => hh)]; exact h.n, hmap⟩
    · rw [if_neg hb]
      exact hother (fun hh => hh) (fun g hg => by injection hg with hg; rw [← hg]; exact hb) _
  | treeFinish e =>
    obtain ⟨o1, o2, o3⟩ := hok
    rw [biTreeFinish]
    by_cases hc : G.Closes T (.treeFinish e)
    · rw [if_pos (o3.mpr hc)]
      obtain ⟨A, B, e1, e2, e3, e4, e5⟩ := popWhile_spec key s.n
        (fun f => decide (s.art.time (G.src e) ≤ s.art.time (G.src f)) && decide (s.art.time (G.src e) ≤ s.art.time (G.tgt f)))
        s.stack s.map
      unfold BiState.popWhile
      dsimp only
      rw [e4]
      generalize (popWhile key s.n
        (fun f => decide (s.art.time (G.src e) ≤ s.art.time (G.src f)) && decide (s.art.time (G.src e) ≤ s.art.time (G.tgt f)))
        s.stack s.map).2 = m at e5
      have hbk := h.stk.back
      have hstk := h.stk
      rw [e1] at hstk
      obtain ⟨r1, r2⟩ := hstk.pop hc
        (fun f hf => by
          have := e2 f hf
          obtain ⟨t1, t2⟩ := o1 f (by rw [e1]; exact List.mem_append_left _ hf)
          simp only [o2, t1, t2, Bool.and_eq_true, decide_eq_true_eq] at this
          exact this.2)
        (fun f B' hB => by
          have := e3 f B' hB
          have hf : f ∈ s.stack := by rw [e1, hB]; simp
          obtain ⟨t1, t2⟩ := o1 f hf
          have hb : T (G.tgt f) < T (G.src f) := hbk f hf
          simp only [o2, t1, t2, Bool.and_eq_false_iff, decide_eq_false_iff_not] at this
          omega)
        (hX e rfl)
      refine ⟨r1, ?_, fun k i hk => ?_⟩
      · rw [(closings_snoc p _).1 hc, ← h.n]
      · replace hk : m k = some i := hk
        by_cases hkA : k ∈ A.map key
        · rw [(e5 k).1 hkA] at hk
          obtain ⟨f, hf, rfl⟩ := List.mem_map.mp hkA
          have hk := Option.some.inj hk
          rw [h.n] at hk
          subst hk
          exact ⟨f, rfl, hbk f (by rw [e1]; exact List.mem_append_left _ hf), r2 f hf⟩
        · rw [(e5 k).2 hkA] at hk
          exact hmap k i hk
    · rw [if_neg (fun hh => hc (o3.mp hh))]
      exact hother hc (fun g hg => by cases hg) _
  | init u => exact hother (fun hh => hh) (fun g hg => by cases hg) _
  | searchStart u => exact hother (fun hh => hh) (fun g hg => by cases hg) _
  | searchFinish u => exact hother (fun hh => hh) (fun g hg => by cases hg) _
  | discover u => exact hother (fun hh => hh) (fun g hg => by cases hg) _
  | start u => exact hother (fun hh => hh) (fun g hg => by cases hg) _
  | finish u => exact hother (fun hh => hh) (fun g hg => by cases hg) _
  | treeStart u => exact hother (fun hh => hh) (fun g hg => by cases hg) _

theorem XInv.all {l p : List (Event V E)} {s : BiState V E K} (h : XInv G key T p s) (hok : Agrees G key T s l)
    (hX : ∀ f h' h, List.Sublist [.nonTree f, .treeFinish h', .treeFinish h] (p ++ l) →
      T (G.src h) ≤ T (G.src h') ∨ T (G.src f) < T (G.src h)) :
    XInv G key T (p ++ l) (after (biFinder G key) s l) := by
  induction l generalizing p s with
  | nil => rw [List.append_nil]; exact h
  | cons ev l ih =>
    rw [after_cons]
    have heq : p ++ ev :: l = p ++ [ev] ++ l := by simp
    rw [heq] at hX ⊢
    refine ih (h.step hok.1 ?_) hok.2 hX
    rintro h rfl f h' hs
    refine hX f h' h ?_
    exact (List.Sublist.append hs (List.Sublist.refl [Event.treeFinish h])).trans (List.sublist_append_left _ _)

/-! ### The order of returns -/

omit [DecidableEq V] in
theorem sublist_three {α : Type} {x y z : α} {l1 l2 : List α} (h : List.Sublist [x, y, z] (l1 ++ l2)) :
    List.Sublist [x, y, z] l1 ∨ List.Sublist [x, y] l1 ∧ z ∈ l2 ∨ x ∈ l1 ∧ List.Sublist [y, z] l2 ∨
      List.Sublist [x, y, z] l2 := by
  obtain ⟨r1, r2, h1, h2, h3⟩ := List.sublist_append_iff.mp h
  match r1, h1 with
  | [], h1 => exact Or.inr (Or.inr (Or.inr (by rw [h1]; exact h3)))
  | [a], h1 =>
    simp only [List.cons_append, List.nil_append, List.cons.injEq] at h1
    obtain ⟨rfl, rfl⟩ := h1
    exact Or.inr (Or.inr (Or.inl ⟨List.singleton_sublist.mp h2, h3⟩))
  | [a, b], h1 =>
    simp only [List.cons_append, List.nil_append, List.cons.injEq] at h1
    obtain ⟨rfl, rfl, rfl⟩ := h1
    exact Or.inr (Or.inl ⟨h2, List.singleton_sublist.mp h3⟩)
  | [a, b, c], h1 =>
    simp only [List.cons_append, List.nil_append, List.cons.injEq] at h1
    obtain ⟨rfl, rfl, rfl, rfl⟩ := h1
    exact Or.inl h2
  | a :: b :: c :: d :: r, h1 => simp at h1

variable {D D' : Set V}

theorem Run.srcs (hG : G.WF) {es : List E} {l : List (Event V E)} (r : Run G D es l D') (u : V) (hu : u ∈ D)
    (hes : ∀ e ∈ es, G.src e = u ∧ G.tgt e ∈ G.vertices) :
    (∀ h, Event.treeFinish h ∈ l → G.src h = u ∨ G.src h ∈ D' ∧ G.src h ∉ D) ∧ ∀ e, Event.nonTree e ∈ l → G.src e ∈ D' := by
  induction r generalizing u with
  | nil D => exact ⟨fun h hh => (List.not_mem_nil hh).elim, fun h hh => (List.not_mem_nil hh).elim⟩
  | @skip D D' e es l ht r ih =>
    obtain ⟨i1, i2⟩ := ih u hu (fun e he => hes e (List.mem_cons_of_mem _ he))
    refine ⟨fun h hh => i1 h (by simpa using hh), fun f hf => ?_⟩
    rcases List.mem_cons.mp hf with hf | hf
    · injection hf with hf
      rw [hf, (hes e List.mem_cons_self).1]
      exact r.subset hu
    · exact i2 f hf
  | @tree D D1 D2 e es l1 l2 ht r1 r2 ih1 ih2 =>
    have htm := (hes e List.mem_cons_self).2
    obtain ⟨i1, i2⟩ := ih1 (G.tgt e) (Set.mem_insert _ _) (fun f hf => ⟨hG.src _ htm f hf, hG.tgt _ htm f hf⟩)
    obtain ⟨j1, j2⟩ := ih2 u (r1.subset (Set.mem_insert_of_mem _ hu)) (fun e he => hes e (List.mem_cons_of_mem _ he))
    constructor
    · intro h hh
      have hh : Event.treeFinish h ∈ l1 ∨ h = e ∨ Event.treeFinish h ∈ l2 := by simpa using hh
      rcases hh with hh | rfl | hh
      · refine Or.inr ?_
        rcases i1 h hh with k | ⟨k1, k2⟩
        · rw [k]; exact ⟨r2.subset (r1.subset (Set.mem_insert _ _)), ht⟩
        · exact ⟨r2.subset k1, fun hh => k2 (Set.mem_insert_of_mem _ hh)⟩
      · exact Or.inl (hes h List.mem_cons_self).1
      · rcases j1 h hh with k | ⟨k1, k2⟩
        · exact Or.inl k
        · exact Or.inr ⟨k1, fun hh => k2 (r1.subset (Set.mem_insert_of_mem _ hh))⟩
    · intro f hf
      have hf : Event.nonTree f ∈ l1 ∨ Event.nonTree f ∈ l2 := by simpa using hf
      rcases hf with hf | hf
      · exact r2.subset (i2 f hf)
      · exact j2 f hf

/-- Vertices discovered later have later times. -/
def Later (T : V → Int) (D : Set V) (l : List (Event V E)) : Prop :=
  ∀ a b, l = a ++ b → ∀ x, (x ∈ D ∨ x ∈ starts a) → ∀ y ∈ starts b, T x < T y

/-- A return to a vertex discovered later than that of an earlier return goes to a vertex discovered since. -/
def NoCross (G : Graph V E) (T : V → Int) (l : List (Event V E)) : Prop :=
  ∀ f h' h, List.Sublist [.nonTree f, .treeFinish h', .treeFinish h] l → T (G.src h) ≤ T (G.src h') ∨ T (G.src f) < T (G.src h)

theorem Run.noCross (hG : G.WF) {es : List E} {l : List (Event V E)} (r : Run G D es l D') (u : V) (hu : u ∈ D)
    (hes : ∀ e ∈ es, G.src e = u ∧ G.tgt e ∈ G.vertices) (hT : Later T D l) : NoCross G T l := by
  induction r generalizing u with
  | nil D => intro f h' h hs; cases hs
  | @skip D D' e es l ht r ih =>
    intro f h' h hs
    have i := ih u hu (fun e he => hes e (List.mem_cons_of_mem _ he)) (fun a b hab x hx y hy =>
      hT (.nonTree e :: a) b (by rw [hab]; rfl) x (hx.imp id (fun hx => by simpa using hx)) y hy)
    obtain ⟨s1, -⟩ := r.srcs hG u hu (fun e he => hes e (List.mem_cons_of_mem _ he))
    rcases List.sublist_cons_iff.mp hs with hs | ⟨r', hr', hs⟩
    · exact i f h' h hs
    · injection hr' with k1 k2
      injection k1 with k1
      subst k2
      rcases s1 h (hs.subset (by simp)) with k | ⟨k3, k4⟩
      · rcases s1 h' (hs.subset (by simp)) with k' | ⟨k3, k4⟩
        · left; rw [k, k']
        · left
          have := hT [] _ rfl u (Or.inl hu) (G.src h') (by rw [starts_nonTree, r.starts_eq]; exact (r.discs_spec.2 _).mpr ⟨k3, k4⟩)
          rw [k]; omega
      · right
        rw [k1, (hes e List.mem_cons_self).1]
        exact hT [] _ rfl u (Or.inl hu) (G.src h) (by rw [starts_nonTree, r.starts_eq]; exact (r.discs_spec.2 _).mpr ⟨k3, k4⟩)
  | @tree D D1 D2 e es l1 l2 ht r1 r2 ih1 ih2 =>
    have htm := (hes e List.mem_cons_self).2
    have hes1 : ∀ f ∈ G.out (G.tgt e), G.src f = G.tgt e ∧ G.tgt f ∈ G.vertices :=
      fun f hf => ⟨hG.src _ htm f hf, hG.tgt _ htm f hf⟩
    have hes2 : ∀ f ∈ es, G.src f = u ∧ G.tgt f ∈ G.vertices := fun f hf => hes f (List.mem_cons_of_mem _ hf)
    have hD1 : D ⊆ D1 := fun x hx => r1.subset (Set.mem_insert_of_mem _ hx)
    have hT1 : Later T (insert (G.tgt e) D) l1 := by
      rintro a b rfl x hx y hy
      refine hT ([.treeStart e, .discover (G.tgt e), .start (G.tgt e)] ++ a) (b ++ [.finish (G.tgt e), .treeFinish e] ++ l2)
        (by simp) x ?_ y (by simp [hy])
      rcases hx with hx | hx
      · rcases Set.mem_insert_iff.mp hx with rfl | hx
        · simp
        · exact Or.inl hx
      · simp [hx]
    have hT2 : Later T D1 l2 := by
      rintro a b rfl x hx y hy
      refine hT ([.treeStart e, .discover (G.tgt e), .start (G.tgt e)] ++ l1 ++ [.finish (G.tgt e), .treeFinish e] ++ a) b
        (by simp) x ?_ y hy
      rcases hx with hx | hx
      · by_cases hxD : x ∈ D
        · exact Or.inl hxD
        · by_cases hxe : x = G.tgt e
          · simp [hxe]
          · have := (r1.discs_spec.2 x).mpr ⟨hx, fun hh => (Set.mem_insert_iff.mp hh).elim hxe hxD⟩
            simp [r1.starts_eq, this]
      · simp [hx]
    have hdisc := (Run.tree ht r1 r2).discs_spec.2
    rw [← (Run.tree ht r1 r2).starts_eq] at hdisc
    have hlt : ∀ y ∈ D2, y ∉ D → T u < T y := fun y h1 h2 =>
      hT [] _ rfl u (Or.inl hu) y ((hdisc y).mpr ⟨h1, h2⟩)
    have hlt2 : ∀ x ∈ D1, ∀ y ∈ D2, y ∉ D1 → T x < T y := fun x hx y h1 h2 =>
      hT2 [] _ rfl x (Or.inl hx) y (by rw [r2.starts_eq]; exact (r2.discs_spec.2 y).mpr ⟨h1, h2⟩)
    obtain ⟨s1, s1'⟩ := r1.srcs hG _ (Set.mem_insert _ _) hes1
    obtain ⟨s2, -⟩ := r2.srcs hG u (hD1 hu) hes2
    obtain ⟨s3, -⟩ := (Run.tree ht r1 r2).srcs hG u hu hes
    have hle : ∀ h, Event.treeFinish h ∈ [.treeStart e, .discover (G.tgt e), .start (G.tgt e)] ++ l1 ++
        [.finish (G.tgt e), .treeFinish e] ++ l2 → T u ≤ T (G.src h) := by
      intro h hh
      rcases s3 h hh with k | ⟨k1, k2⟩
      · rw [k]
      · exact Int.le_of_lt (hlt _ k1 k2)
    have hafter : ∀ f h' h, Event.nonTree f ∈ l1 → T u ≤ T (G.src h') →
        Event.treeFinish h ∈ [.finish (G.tgt e), .treeFinish e] ++ l2 → T (G.src h) ≤ T (G.src h') ∨ T (G.src f) < T (G.src h) := by
      intro f h' h hf hh' hh
      have hh : h = e ∨ Event.treeFinish h ∈ l2 := by simpa using hh
      rcases hh with rfl | hh
      · left; rw [(hes h List.mem_cons_self).1]; exact hh'
      · rcases s2 h hh with k | ⟨k1, k2⟩
        · left; rw [k]; exact hh'
        · right; exact hlt2 _ (s1' f hf) _ k1 k2
    intro f h' h hs
    have hs0 := hs
    rw [List.append_assoc, List.append_assoc] at hs
    rcases sublist_three hs with k | ⟨k, -⟩ | ⟨k, -⟩ | hs
    · have := k.subset (List.mem_cons_self); simp at this
    · have := k.subset (List.mem_cons_self); simp at this
    · simp at k
    rcases sublist_three hs with k | ⟨k1, k2⟩ | ⟨k1, k2⟩ | k
    · exact ih1 _ (Set.mem_insert _ _) hes1 hT1 f h' h k
    · exact hafter f h' h (k1.subset List.mem_cons_self) (hle h' (hs0.subset (by simp))) k2
    · exact hafter f h' h k1 (hle h' (hs0.subset (by simp))) (k2.subset (by simp))
    · rcases sublist_three k with k | ⟨k, -⟩ | ⟨k, -⟩ | k
      · have := k.subset (List.mem_cons_self); simp at this
      · have := k.subset (List.mem_cons_self); simp at this
      · simp at k
      · exact ih2 u (hD1 hu) hes2 hT2 f h' h k

theorem VisitAll.noCross (hG : G.WF) {us : List V} {l : List (Event V E)} (r : VisitAll G D us l D')
    (hus : ∀ u ∈ us, u ∈ G.vertices) (hT : Later T D l) :
    NoCross G T l ∧ (∀ h, Event.treeFinish h ∈ l → G.src h ∈ D' ∧ G.src h ∉ D) := by
  induction r with
  | nil D => exact ⟨fun f h' h hs => (by cases hs), fun h hh => (List.not_mem_nil hh).elim⟩
  | skip h r ih => exact ih (fun u hu => hus u (List.mem_cons_of_mem _ hu)) hT
  | @visit D D1 D2 u us l1 l2 hu hv r ih =>
    have hum := hus u List.mem_cons_self
    have hD1 := hv.subset
    have hT2 : Later T D1 l2 := by
      rintro a b rfl x hx y hy
      refine hT (l1 ++ a) b (by simp) x ?_ y hy
      rcases hx with hx | hx
      · by_cases hxD : x ∈ D
        · exact Or.inl hxD
        · right
          rw [starts_append, hv.starts_eq]
          exact List.mem_append_left _ (((hv.discs_spec hu).2 x).mpr ⟨hx, hxD⟩)
      · simp [hx]
    obtain ⟨i1, i2⟩ := ih (fun u hu => hus u (List.mem_cons_of_mem _ hu)) hT2
    obtain ⟨l, hr, rfl⟩ := hv
    have hes : ∀ f ∈ G.out u, G.src f = u ∧ G.tgt f ∈ G.vertices := fun f hf => ⟨hG.src _ hum f hf, hG.tgt _ hum f hf⟩
    have hT1 : Later T (insert u D) l := by
      rintro a b rfl x hx y hy
      refine hT ([.searchStart u, .discover u, .start u] ++ a) (b ++ [.finish u, .searchFinish u] ++ l2)
        (by simp) x ?_ y (by simp [hy])
      rcases hx with hx | hx
      · rcases Set.mem_insert_iff.mp hx with rfl | hx
        · simp
        · exact Or.inl hx
      · simp [hx]
    have j := hr.noCross hG u (Set.mem_insert _ _) hes hT1
    obtain ⟨s1, s2⟩ := hr.srcs hG u (Set.mem_insert _ _) hes
    have s3 : ∀ h, Event.treeFinish h ∈ l → G.src h ∈ D1 ∧ G.src h ∉ D := by
      intro h hh
      rcases s1 h hh with k | ⟨k1, k2⟩
      · rw [k]; exact ⟨hr.subset (Set.mem_insert _ _), hu⟩
      · exact ⟨k1, fun hh => k2 (Set.mem_insert_of_mem _ hh)⟩
    constructor
    · intro f h' h hs
      have hnew : ∀ f h, Event.nonTree f ∈ l → Event.treeFinish h ∈ l2 → T (G.src f) < T (G.src h) := fun f h hf hh =>
        hT2 [] _ rfl _ (Or.inl (s2 f hf)) _ (by rw [r.starts_eq]; exact (r.discs_spec.2 _).mpr (i2 h hh))
      have hmem : ∀ f, Event.nonTree f ∈ [.searchStart u, .discover u, .start u] ++ l ++ [.finish u, .searchFinish u] →
        Event.nonTree f ∈ l := fun f hf => by simpa using hf
      rcases sublist_three hs with k | ⟨k1, k2⟩ | ⟨k1, k2⟩ | k
      · refine j f h' h ?_
        rw [List.append_assoc] at k
        rcases sublist_three k with k | ⟨k, -⟩ | ⟨k, -⟩ | k
        · have := k.subset (List.mem_cons_self); simp at this
        · have := k.subset (List.mem_cons_self); simp at this
        · simp at k
        rcases sublist_three k with k | ⟨k, k'⟩ | ⟨-, k⟩ | k
        · exact k
        · simp at k'
        · have := k.subset (List.mem_cons_self); simp at this
        · have := k.subset (List.mem_cons_self); simp at this
      · exact Or.inr (hnew f h (hmem f (k1.subset List.mem_cons_self)) k2)
      · exact Or.inr (hnew f h (hmem f k1) (k2.subset (by simp)))
      · exact i1 f h' h k
    · intro h hh
      rcases List.mem_append.mp hh with hh | hh
      · obtain ⟨k1, k2⟩ := s3 h (by simpa using hh)
        exact ⟨r.subset k1, k2⟩
      · obtain ⟨k1, k2⟩ := i2 h hh
        exact ⟨k1, fun hh => k2 (hD1 hh)⟩

/-! ### The times of the finder -/

theorem artFinder_now (l : List (Event V E)) (s : ArtState V) (h0 : ∀ v, Event.init v ∉ l) :
    s.now ≤ (after (artFinder G) s l).now ∧
    ((∀ x, s.time x ≤ s.now) → ∀ x, (after (artFinder G) s l).time x ≤ (after (artFinder G) s l).now) ∧
    (∀ x ∈ starts l, s.now < (after (artFinder G) s l).time x) ∧
    ∀ x, x ∉ starts l → (after (artFinder G) s l).time x = s.time x := by
  induction l generalizing s with
  | nil => exact ⟨Int.le_refl _, fun h => h, fun x hx => (List.not_mem_nil hx).elim, fun _ _ => rfl⟩
  | cons ev l ih =>
    rw [after_cons]
    have hl : ∀ v, Event.init v ∉ l := fun v hv => h0 v (List.mem_cons_of_mem _ hv)
    have hsame : ∀ t : ArtState V, t.now = s.now → t.time = s.time → starts (ev :: l) = starts l →
        s.now ≤ (after (artFinder G) t l).now ∧
        ((∀ x, s.time x ≤ s.now) → ∀ x, (after (artFinder G) t l).time x ≤ (after (artFinder G) t l).now) ∧
        (∀ x ∈ starts (ev :: l), s.now < (after (artFinder G) t l).time x) ∧
        ∀ x, x ∉ starts (ev :: l) → (after (artFinder G) t l).time x = s.time x := by
      intro t h1 h2 h3
      have := ih t hl
      rw [h1, h2] at this
      rw [h3]
      exact this
    cases ev with
    | init u => exact absurd List.mem_cons_self (h0 u)
    | start u =>
      obtain ⟨i1, i2, i3, i4⟩ := ih ((artFinder G).on (.start u) s) hl
      have hn : ((artFinder G).on (.start u) s).now = s.now + 1 := rfl
      have ht : ((artFinder G).on (.start u) s).time = put s.time u (s.now + 1) := rfl
      rw [hn] at i1 i2 i3
      rw [ht] at i2 i4
      refine ⟨by omega, fun h => i2 fun x => ?_, fun x hx => ?_, fun x hx => ?_⟩
      · by_cases hxu : x = u
        · simp [put, hxu]
        · have := h x
          simp only [put, hxu, if_false]
          omega
      · by_cases hxl : x ∈ starts l
        · have := i3 x hxl; omega
        · have hxu : x = u := by simpa [hxl] using hx
          rw [i4 x hxl]
          simp only [put, hxu, if_true]
          omega
      · simp only [starts_start, List.mem_cons, not_or] at hx
        rw [i4 x hx.2]
        simp [put, hx.1]
    | nonTree e =>
      refine hsame _ ?_ ?_ (starts_nonTree _ _) <;> rw [artNonTree] <;> split <;> rfl
    | treeFinish e =>
      refine hsame _ ?_ ?_ (starts_treeFinish _ _) <;> rw [artTreeFinish] <;> (repeat' split) <;> rfl
    | searchFinish u =>
      have e : (artFinder G).on (.searchFinish u) s =
        if s.rootChildren > 1 then { s with marks := put s.marks u true } else s := rfl
      refine hsame _ ?_ ?_ (starts_searchFinish _ _) <;> rw [e] <;> split <;> rfl
    | searchStart u => exact hsame _ rfl rfl (starts_searchStart _ _)
    | discover u => exact hsame _ rfl rfl (starts_discover _ _)
    | treeStart e => exact hsame _ rfl rfl (starts_treeStart _ _)
    | finish u => exact hsame _ rfl rfl (starts_finish _ _)

theorem VisitAll.later {us : List V} {l : List (Event V E)} (r : VisitAll G ∅ us l D') (s : ArtState V)
    (h0 : ∀ x, s.time x ≤ s.now) : Later (after (artFinder G) s l).time ∅ l := by
  rintro a b rfl x hx y hy
  have hx := hx.resolve_left (Set.notMem_empty x)
  have hd : (starts (a ++ b)).Nodup := by rw [r.starts_eq]; exact r.discs_spec.1
  have hi := r.no_init
  rw [starts_append] at hd
  have hxb : x ∉ starts b := fun hh => (List.nodup_append'.mp hd).2.2 hx hh
  obtain ⟨-, a2, -, -⟩ := artFinder_now (G := G) a s (fun v hv => hi v (List.mem_append_left _ hv))
  obtain ⟨-, -, b3, b4⟩ := artFinder_now (G := G) b (after (artFinder G) s a) (fun v hv => hi v (List.mem_append_right _ hv))
  rw [after_append, b4 x hxb]
  exact Int.lt_of_le_of_lt (a2 h0 x) (b3 y hy)

end Actl.Traversal
