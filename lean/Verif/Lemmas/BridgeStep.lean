import Verif.Lemmas.BridgeLow

/-!
Steps of the search for bridges.
-/

namespace Actl.Traversal

variable {V E : Type} [DecidableEq V] {G : Graph V E} {rev : E → E} {par : Bool}
variable {T : V → Int} {pe : V → Option E} {P : List V} {D : Set V} {low : V → Int} {nr : V → Bool} {now : Int}

/-- The top of the stack is the parent of the current vertex. -/
def StkOK (G : Graph V E) (pe : V → Option E) (u : V) (stk : List (V × Bool)) : Prop :=
  (pe u = none ∧ stk = []) ∨ ∃ e x st, pe u = some e ∧ stk = (G.src e, x) :: st

/-- What is known of the edges of the current vertex examined so far; `lo` is its lowest time. -/
structure BDone (G : Graph V E) (rev : E → E) (par : Bool) (T : V → Int) (pe : V → Option E) (D : Set V) (lo : Int)
    (stk : List (V × Bool)) (u : V) (done : List E) : Prop where
  tgts : ∀ f ∈ done, G.tgt f ∈ D
  nb : ∀ f ∈ done, (∃ x ∈ D, pe x = some f ∨ pe x = some (rev f)) ∨ ¬G.Bridge rev f
  skip : ∃ Sk : E → Prop, (∀ f ∈ done, Sk f ∨ lo ≤ T (G.tgt f)) ∧
    (∀ f, Sk f → f ∈ done ∧ ∃ e, pe u = some e ∧ G.tgt f = G.src e) ∧
    (par = true → ∀ f g, Sk f → Sk g → f = g) ∧ (par = true → ∀ p st, stk = (p, true) :: st → ∀ f, ¬Sk f)
  flag : par = true → ∀ p st, stk = (p, false) :: st → ∃ f ∈ done, G.tgt f = p

theorem BDone.mono {T' : V → Int} {pe' : V → Option E} {D' : Set V} {lo lo' : Int} {stk : List (V × Bool)} {u : V}
    {done : List E} (h : BDone G rev par T pe D lo stk u done) (hu : u ∈ D) (hD : D ⊆ D')
    (hT : ∀ x ∈ D, T' x = T x ∧ pe' x = pe x) (hlo : lo' ≤ lo) : BDone G rev par T' pe' D' lo' stk u done where
  tgts f hf := hD (h.tgts f hf)
  nb f hf := by
    rcases h.nb f hf with ⟨x, hx, hp⟩ | hb
    · exact Or.inl ⟨x, hD hx, by rw [(hT x hx).2]; exact hp⟩
    · exact Or.inr hb
  skip := by
    obtain ⟨Sk, h1, h2, h3, h4⟩ := h.skip
    refine ⟨Sk, fun f hf => ?_, fun f hf => ?_, h3, h4⟩
    · rcases h1 f hf with h5 | h5
      · exact Or.inl h5
      · rw [(hT _ (h.tgts f hf)).1]
        exact Or.inr (Int.le_trans hlo h5)
    · rw [(hT u hu).2]; exact h2 f hf
  flag := h.flag

/-- All edges of the current vertex are examined. -/
theorem BDone.all (hU : G.Undirected rev) (hpar : par = false → G.Simple) (hb : BLow G rev T pe P D low nr now) {u : V}
    (hu : u ∈ D) {lo : Int} {stk : List (V × Bool)} (h : BDone G rev par T pe D lo stk u (G.out u)) :
    ∀ f ∈ G.out u, pe u ≠ some (rev f) → lo ≤ T (G.tgt f) := by
  obtain ⟨Sk, h1, h2, h3, h4⟩ := h.skip
  intro f hf hp
  rcases h1 f hf with h5 | h5
  · obtain ⟨h6, e, he, h7⟩ := h2 f h5
    obtain ⟨p1, p2, p3, p4, p5⟩ := hb.pe_spec u hu e he
    have hm := hU.mem_rev _ (hb.mem _ p2) e p3
    rw [p1] at hm
    have ht := hU.tgt_rev _ (hb.mem _ p2) e p3
    have hne : f ≠ rev e := fun hh => hp (by rw [hh, hU.invol]; exact he)
    cases par with
    | true =>
      rcases h1 _ hm with h8 | h8
      · exact absurd (h3 rfl _ _ h5 h8) hne
      · rw [h7, ← ht]; exact h8
    | false =>
      refine absurd (hpar rfl u (hb.mem u hu) f hf (rev e) hm (by rw [ht, h7]) ?_) hne
      intro hh
      rw [h7] at hh
      rw [hh] at p4
      omega
  · exact h5

/-- What `on_non_tree_edge` does. -/
theorem BridgeState.edge_eq (G : Graph V E) (par : Bool) (f : E) (s : BridgeState V E) :
    (∃ p x st, s.dfsStack = (p, x) :: st ∧ p = G.tgt f ∧ (par = false ∨ x = true) ∧
      s.edge G par f = { s with dfsStack := (p, !par && x) :: st }) ∨
    ((∀ p x st, s.dfsStack = (p, x) :: st → p = G.tgt f → par = true ∧ x = false) ∧ s.edge G par f = s.relax G f) := by
  obtain ⟨B, C, lo, n, stk, t⟩ := s
  cases stk with
  | nil => exact Or.inr ⟨fun p x st h => by simp at h, rfl⟩
  | cons q st =>
    obtain ⟨p, x⟩ := q
    by_cases hp : p = G.tgt f
    · cases par <;> cases x
      · exact Or.inl ⟨p, false, st, rfl, hp, Or.inl rfl, by simp [BridgeState.edge, hp, onceEqual]⟩
      · exact Or.inl ⟨p, true, st, rfl, hp, Or.inl rfl, by simp [BridgeState.edge, hp, onceEqual]⟩
      · refine Or.inr ⟨fun p' x' st' h _ => ?_, by simp [BridgeState.edge, hp, onceEqual]⟩
        simp only [List.cons.injEq, Prod.mk.injEq] at h
        exact ⟨rfl, h.1.2.symm⟩
      · exact Or.inl ⟨p, true, st, rfl, hp, Or.inr rfl, by simp [BridgeState.edge, hp, onceEqual]⟩
    · refine Or.inr ⟨fun p' x' st' h h' => ?_, by simp [BridgeState.edge, hp]⟩
      simp only [List.cons.injEq, Prod.mk.injEq] at h
      exact absurd (h.1.1.trans h') hp

theorem BridgeState.relax_eq (G : Graph V E) (f : E) (s : BridgeState V E) :
    s.relax G f = if s.timeLow (G.src f) > s.timeLow (G.tgt f) then
      ⟨s.bridges, s.components, put s.timeLow (G.src f) (s.timeLow (G.tgt f)), put s.notRoot (G.src f) true, s.dfsStack, s.now⟩
      else s := rfl

theorem BLow.head_max {u : V} (h : BLow G rev T pe (u :: P) D low nr now) : ∀ x ∈ u :: P, T x ≤ T u := by
  intro x hx
  rcases List.mem_cons.mp hx with rfl | hx
  · exact Int.le_refl _
  · exact Int.le_of_lt ((List.pairwise_cons.mp h.incr).1 x hx)

/-- A non-tree edge that is no tree edge backwards is not a bridge. -/
theorem BLow.not_bridge (hU : G.Undirected rev) (hG : G.WF) {u : V} (h : BLow G rev T pe (u :: P) D low nr now) {f : E}
    (hf : f ∈ G.out u) (ht : G.tgt f ∈ D) : (∃ x ∈ D, pe x = some f ∨ pe x = some (rev f)) ∨ ¬G.Bridge rev f := by
  by_cases hx : ∃ x ∈ D, pe x = some f ∨ pe x = some (rev f)
  · exact Or.inl hx
  · refine Or.inr (fun hb => hb ?_)
    have huD := h.gray u List.mem_cons_self
    have hum := h.mem u huD
    rw [hG.src u hum f hf]
    have hno : ∀ x ∈ D, pe x ≠ some f ∧ pe x ≠ some (rev f) :=
      fun x hxD => ⟨fun hh => hx ⟨x, hxD, Or.inl hh⟩, fun hh => hx ⟨x, hxD, Or.inr hh⟩⟩
    rcases h.target hU List.mem_cons_self h.head_max hf ht with hP | ⟨_, hlt, _⟩
    · exact h.climb hU hP huD (h.head_max _ hP) f (fun x hxD _ _ => hno x hxD)
    · exact (hU.reachWithout_symm hG (h.mem _ ht) (h.climb hU List.mem_cons_self ht (Int.le_of_lt hlt) f
        (fun x hxD _ _ => hno x hxD))).2

/-- Lowering the time of the current vertex by a non-tree edge. -/
theorem BLow.relax_head (hU : G.Undirected rev) (hG : G.WF) {u : V} (h : BLow G rev T pe (u :: P) D low nr now) {lo : Int}
    {stk : List (V × Bool)} {done es : List E} {f : E} (hd : BDone G rev par T pe D lo stk u done)
    (hs : StkOK G pe u stk) (hout : G.out u = done ++ f :: es) (ht : G.tgt f ∈ D)
    (hun : ∀ p x st, stk = (p, x) :: st → p = G.tgt f → par = true ∧ x = false) (hlt : low u > low (G.tgt f)) :
    BLow G rev T pe (u :: P) D (put low u (low (G.tgt f))) (put nr u true) now := by
  have hf : f ∈ G.out u := by rw [hout]; simp
  have huD := h.gray u List.mem_cons_self
  have hum := h.mem u huD
  have hsrc := hG.src u hum f hf
  rcases h.target hU List.mem_cons_self h.head_max hf ht with hP | ⟨_, _, hle⟩
  · obtain ⟨a, ha, a1, a2⟩ := h.lows _ hP
    rw [a1] at hlt ⊢
    have hat : T a ≤ T (G.tgt f) := by rw [← a1]; exact (h.low_pos _ ht).2
    refine h.lower List.mem_cons_self ha hlt (fun z hz e he h1 h2 => ?_)
    obtain ⟨p1, p2, p3, p4, p5⟩ := h.pe_spec z (h.gray z hz) e he
    by_cases hzt : T z ≤ T (G.tgt f)
    · refine .head (b := G.tgt f) ⟨f, hf, rfl, fun hh => ?_, fun hh => ?_⟩ (a2 z hz e he h1 hzt)
      · rw [← hh, hsrc] at p4; omega
      · rw [hh, hU.tgt_rev _ (h.mem _ p2) e p3] at hzt; omega
    · have hup := h.up hU hG ha ht (h.gray z hz) hat (by omega) he
      have hne : ∀ g, G.tgt g = G.tgt f → g ≠ e := by
        intro g hg hh
        rw [hh, p1] at hg
        rw [hg] at hzt
        omega
      by_cases hfr : f = rev e
      · have hzu : z = u := by
          have := hU.src_rev hG (h.mem _ p2) p3
          rw [← hfr, hsrc, p1] at this
          exact this.symm
        subst hzu
        rcases hs with ⟨h3, _⟩ | ⟨e', x, st, h3, h4⟩
        · rw [h3] at he; cases he
        · rw [he] at h3
          injection h3 with h3
          subst h3
          have htf : G.tgt f = G.src e := by rw [hfr]; exact hU.tgt_rev _ (h.mem _ p2) e p3
          obtain ⟨k1, k2⟩ := hun _ _ _ h4 htf.symm
          subst k2
          obtain ⟨f0, hf0, hf0t⟩ := hd.flag k1 _ _ h4
          have hnd := hU.nodup z hum
          rw [hout] at hnd
          have hf0f : f0 ≠ f := fun hh => (List.nodup_append.mp hnd).2.2 f0 hf0 f (by simp) hh
          exact .head (b := G.tgt f) ⟨f0, by rw [hout]; simp [hf0], by rw [hf0t, htf],
            hne f0 (by rw [hf0t, htf]), fun hh => hf0f (by rw [hh, hfr])⟩ hup
      · exact .head (b := G.tgt f) ⟨f, hf, rfl, hne f rfl, hfr⟩ hup
  · omega

theorem StkOK.flag {u : V} {p : V} {x y : Bool} {st : List (V × Bool)} (h : StkOK G pe u ((p, x) :: st)) :
    StkOK G pe u ((p, y) :: st) := by
  rcases h with ⟨_, h⟩ | ⟨e, x', st', h1, h2⟩
  · cases h
  · simp only [List.cons.injEq, Prod.mk.injEq] at h2
    exact Or.inr ⟨e, y, st, h1, by rw [h2.1.1]⟩

/-- A non-tree edge. -/
theorem BridgeState.nonTree (hU : G.Undirected rev) (hG : G.WF) {u : V} {s : BridgeState V E}
    (h : BLow G rev T pe (u :: P) D s.timeLow s.notRoot s.now) {done es : List E} {f : E}
    (hd : BDone G rev par T pe D (s.timeLow u) s.dfsStack u done) (hs : StkOK G pe u s.dfsStack)
    (hout : G.out u = done ++ f :: es) (ht : G.tgt f ∈ D) :
    BLow G rev T pe (u :: P) D (s.edge G par f).timeLow (s.edge G par f).notRoot (s.edge G par f).now ∧
    BDone G rev par T pe D ((s.edge G par f).timeLow u) (s.edge G par f).dfsStack u (done ++ [f]) ∧
    StkOK G pe u (s.edge G par f).dfsStack ∧ (s.edge G par f).dfsStack.tail = s.dfsStack.tail ∧
    (∀ x, x ≠ u → (s.edge G par f).timeLow x = s.timeLow x) ∧ (s.edge G par f).components = s.components ∧
    (s.edge G par f).bridges = s.bridges := by
  have hf : f ∈ G.out u := by rw [hout]; simp
  have huD := h.gray u List.mem_cons_self
  have hum := h.mem u huD
  have hsrc := hG.src u hum f hf
  have hnb := h.not_bridge hU hG hf ht
  obtain ⟨Sk, h1, h2, h3, h4⟩ := hd.skip
  have htgts : ∀ g ∈ done ++ [f], G.tgt g ∈ D := by
    intro g hg
    rcases List.mem_append.mp hg with hg | hg
    · exact hd.tgts g hg
    · rw [List.mem_singleton.mp hg]; exact ht
  have hnbs : ∀ g ∈ done ++ [f], (∃ x ∈ D, pe x = some g ∨ pe x = some (rev g)) ∨ ¬G.Bridge rev g := by
    intro g hg
    rcases List.mem_append.mp hg with hg | hg
    · exact hd.nb g hg
    · rw [List.mem_singleton.mp hg]; exact hnb
  rcases s.edge_eq G par f with ⟨p, x, st, e1, e2, e3, e4⟩ | ⟨e1, e2⟩
  · rw [e4]
    refine ⟨h, ⟨htgts, hnbs, ⟨fun g => Sk g ∨ g = f, fun g hg => ?_, fun g hg => ?_, fun hp g g' hg hg' => ?_,
      fun hp p' st' hst => ?_⟩, fun hp p' st' hst => ?_⟩, ?_, by simp [e1], fun _ _ => rfl, rfl, rfl⟩
    · rcases List.mem_append.mp hg with hg | hg
      · rcases h1 g hg with h5 | h5
        · exact Or.inl (Or.inl h5)
        · exact Or.inr h5
      · exact Or.inl (Or.inr (List.mem_singleton.mp hg))
    · rcases hg with hg | rfl
      · exact ⟨List.mem_append_left _ (h2 g hg).1, (h2 g hg).2⟩
      · refine ⟨by simp, ?_⟩
        rcases hs with ⟨_, h5⟩ | ⟨e, x', st', h5, h6⟩
        · rw [e1] at h5; cases h5
        · rw [e1] at h6
          simp only [List.cons.injEq, Prod.mk.injEq] at h6
          exact ⟨e, h5, by rw [← h6.1.1, e2]⟩
    · have hx : x = true := e3.resolve_left (by rw [hp]; simp)
      have hno := h4 hp p st (by rw [e1, hx])
      rcases hg with hg | rfl
      · exact absurd hg (hno g)
      · rcases hg' with hg' | rfl
        · exact absurd hg' (hno g')
        · rfl
    · simp [hp] at hst
    · simp only [List.cons.injEq, Prod.mk.injEq] at hst
      exact ⟨f, by simp, by rw [← e2, hst.1.1]⟩
    · rw [e1] at hs
      exact hs.flag
  · rw [e2, BridgeState.relax_eq, hsrc]
    by_cases hlt : s.timeLow u > s.timeLow (G.tgt f)
    · rw [if_pos hlt]
      have hself : put s.timeLow u (s.timeLow (G.tgt f)) u = s.timeLow (G.tgt f) := by simp [put]
      refine ⟨h.relax_head hU hG hd hs hout ht e1 hlt, ⟨htgts, hnbs, ⟨Sk, fun g hg => ?_,
        fun g hg => ⟨List.mem_append_left _ (h2 g hg).1, (h2 g hg).2⟩, h3, h4⟩, fun hp p st hst => ?_⟩, hs, rfl,
        fun x hx => by simp [put, hx], rfl, rfl⟩
      · simp only [hself]
        rcases List.mem_append.mp hg with hg | hg
        · rcases h1 g hg with h5 | h5
          · exact Or.inl h5
          · exact Or.inr (by omega)
        · rw [List.mem_singleton.mp hg]
          exact Or.inr (h.low_pos _ ht).2
      · obtain ⟨g, hg, hgt⟩ := hd.flag hp p st hst
        exact ⟨g, List.mem_append_left _ hg, hgt⟩
    · rw [if_neg hlt]
      refine ⟨h, ⟨htgts, hnbs, ⟨Sk, fun g hg => ?_,
        fun g hg => ⟨List.mem_append_left _ (h2 g hg).1, (h2 g hg).2⟩, h3, h4⟩, fun hp p st hst => ?_⟩, hs, rfl,
        fun x hx => rfl, rfl, rfl⟩
      · rcases List.mem_append.mp hg with hg | hg
        · exact h1 g hg
        · rw [List.mem_singleton.mp hg]
          have := (h.low_pos _ ht).2
          exact Or.inr (by omega)
      · obtain ⟨g, hg, hgt⟩ := hd.flag hp p st hst
        exact ⟨g, List.mem_append_left _ hg, hgt⟩

/-- The descendants of a vertex not lowered are left only by the tree edge to it. -/
theorem BLow.sub_closed (hU : G.Undirected rev) (hG : G.WF) {v : V} (h : BLow G rev T pe (v :: P) D low nr now)
    (hclosed : ∀ f ∈ G.out v, G.tgt f ∈ D) (hdone : ∀ f ∈ G.out v, pe v ≠ some (rev f) → low v ≤ T (G.tgt f))
    (hv : low v = T v) {x : V} (hx : x ∈ D) (hvx : T v ≤ T x) {f : E} (hf : f ∈ G.out x) (hp : pe v ≠ some (rev f)) :
    G.tgt f ∈ D ∧ T v ≤ T (G.tgt f) := by
  by_cases hxv : x = v
  · subst hxv
    exact ⟨hclosed f hf, by rw [← hv]; exact hdone f hf hp⟩
  · have hne : T v ≠ T x := fun hh => hxv (h.inj x hx v (h.gray v List.mem_cons_self) hh.symm)
    have hxP : x ∉ v :: P := fun hh => by have := h.head_max x hh; omega
    refine ⟨(h.closed x hx hxP f hf).1, ?_⟩
    have hown := h.own x hx hxP v List.mem_cons_self (by omega) (fun w hw h1 => by have := h.head_max w hw; omega)
    by_cases hpx : pe x = some (rev f)
    · have := (h.pe_spec x hx _ hpx).2.2.2.2 v List.mem_cons_self (by omega)
      rwa [hU.src_rev hG (h.mem x hx) hf] at this
    · have := h.done x hx hxP f hf hpx
      omega

/-- The mark is right when a vertex is finished. -/
theorem BLow.bridge_iff (hU : G.Undirected rev) (hG : G.WF) {v : V} (h : BLow G rev T pe (v :: P) D low nr now)
    (hclosed : ∀ f ∈ G.out v, G.tgt f ∈ D) (hdone : ∀ f ∈ G.out v, pe v ≠ some (rev f) → low v ≤ T (G.tgt f))
    {e : E} (he : pe v = some e) : nr v = true ↔ ¬G.Bridge rev e := by
  have hvD := h.gray v List.mem_cons_self
  obtain ⟨p1, p2, p3, p4, p5⟩ := h.pe_spec v hvD e he
  rw [h.root v hvD]
  constructor
  · intro hne hb
    obtain ⟨a, ha, a1, a2⟩ := h.lows v List.mem_cons_self
    have hle := (h.low_pos v hvD).2
    have h1 := a2 v List.mem_cons_self e he (by omega) (Int.le_refl _)
    have h2 := h.up hU hG ha p2 hvD (p5 a ha (by omega)) p4 he
    exact hb (by rw [p1]; exact h2.trans (hU.reachWithout_symm hG (h.mem v hvD) h1).2)
  · intro hb hv
    refine hb (fun hr => ?_)
    have hr := (hU.reachWithout_symm hG (h.mem _ p2) hr).2
    rw [p1] at hr
    have : ∀ x, G.ReachWithout rev e v x → x ∈ D ∧ T v ≤ T x := by
      intro x hx
      induction hx with
      | refl => exact ⟨hvD, Int.le_refl _⟩
      | tail _ hadj ih =>
        obtain ⟨f, hf, rfl, h1, h2⟩ := hadj
        refine h.sub_closed hU hG hclosed hdone hv ih.1 ih.2 hf (fun hh => h2 ?_)
        rw [he] at hh
        injection hh with hh
        rw [hh, hU.invol]
    have := (this _ hr).2
    omega

end Actl.Traversal
