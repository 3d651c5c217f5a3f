import Verif.Lemmas.BridgeStep

/-!
The search for bridges: components, runs.
-/

namespace Actl.Traversal

variable {V E : Type} [DecidableEq V] {G : Graph V E} {rev : E → E} {par : Bool}
variable {T : V → Int} {pe : V → Option E} {P : List V} {D : Set V} {R : V → V → Prop}

/-! ### Components -/

/-- The stack is ordered by time; related vertices get the same number. -/
structure CompX (R : V → V → Prop) (T : V → Int) (D : Set V) (c : CompStack V) : Prop where
  sorted : c.stack.Pairwise (fun x y => T y < T x)
  closed : ∀ y ∈ D, y ∉ c.stack → ∀ z, R y z → z ∈ D ∧ z ∉ c.stack
  eq : ∀ y ∈ D, y ∉ c.stack → ∀ z ∈ D, z ∉ c.stack → R y z → c.map y = c.map z

theorem CompX.push {c : CompStack V} (h : CompX R T D c) (hs : ∀ y ∈ c.stack, y ∈ D) {v : V} (hv : v ∉ D) {T' : V → Int}
    (hT : ∀ x ∈ D, T' x = T x) (hTv : ∀ x ∈ D, T x < T' v) : CompX R T' (insert v D) (c.push v) where
  sorted := by
    refine List.pairwise_cons.mpr ⟨fun y hy => ?_, h.sorted.imp_of_mem (fun {a b} ha hb hab => ?_)⟩
    · rw [hT y (hs y hy)]; exact hTv y (hs y hy)
    · rw [hT a (hs a ha), hT b (hs b hb)]; exact hab
  closed y hy hn z hr := by
    have hn := (not_or.mp (fun h => hn (List.mem_cons.mpr h)))
    have hy := (Set.mem_insert_iff.mp hy).resolve_left hn.1
    obtain ⟨h1, h2⟩ := h.closed y hy hn.2 z hr
    refine ⟨Set.mem_insert_of_mem _ h1, fun hm => ?_⟩
    rcases List.mem_cons.mp hm with rfl | hm
    · exact hv h1
    · exact h2 hm
  eq y hy hn z hz hn' hr := by
    have hn := (not_or.mp (fun h => hn (List.mem_cons.mpr h)))
    have hn' := (not_or.mp (fun h => hn' (List.mem_cons.mpr h)))
    exact h.eq y ((Set.mem_insert_iff.mp hy).resolve_left hn.1) hn.2 z
      ((Set.mem_insert_iff.mp hz).resolve_left hn'.1) hn'.2 hr

theorem CompX.pop (hR : Equivalence R) {c : CompStack V} {v : V} (h : CompX R T D c) (ho : CompOK R (v :: P) D c)
    (hsub : ∀ y ∈ D, T v ≤ T y → ∀ z, R y z → z ∈ D ∧ T v ≤ T z) : CompX R T D (c.pop v) := by
  obtain ⟨h1, h2, h3⟩ := h
  obtain ⟨o1, o2, o3, o4, o5, o6, o7, o8⟩ := ho
  obtain ⟨stack, map, n, bad⟩ := c
  simp only at h1 h2 h3 o1 o2 o3
  cases o1 with
  | @cons _ _ S st hS hst =>
    have hxS : v ∉ S := by
      intro hx
      exact (List.nodup_append.mp o2).2.2 v hx v (by simp) rfl
    obtain ⟨m', e1, e2⟩ := popLoop_spec v n S st map hxS
    have hpop : CompStack.pop ⟨S ++ v :: st, map, n, bad⟩ v = ⟨st, m', n + 1, bad⟩ := by
      unfold CompStack.pop
      simp only [e1]
    have hlow : ∀ y ∈ st, T y < T v := (List.pairwise_cons.mp (List.pairwise_append.mp h1).2.1).1
    have hnew : ∀ y, y ∈ S ∨ y = v → y ∈ D ∧ T v ≤ T y := by
      rintro y (hy | rfl)
      · exact ⟨o3 y (by simp [hy]), Int.le_of_lt ((List.pairwise_append.mp h1).2.2 y hy v (by simp))⟩
      · exact ⟨o3 y (by simp), Int.le_refl _⟩
    have hnot : ∀ y, y ∉ st → ¬(y ∈ S ∨ y = v) → y ∉ S ++ v :: st := by
      intro y hy hn hm
      rw [List.mem_append, List.mem_cons] at hm
      tauto
    have hin : ∀ y, y ∈ S ∨ y = v → y ∈ S ++ v :: st := by
      intro y hy
      rw [List.mem_append, List.mem_cons]
      tauto
    rw [hpop]
    refine ⟨(List.pairwise_cons.mp (List.pairwise_append.mp h1).2.1).2, fun y hy hn z hr => ?_, fun y hy hn z hz hn' hr => ?_⟩
    · by_cases c1 : y ∈ S ∨ y = v
      · obtain ⟨k1, k2⟩ := hsub y hy (hnew y c1).2 z hr
        refine ⟨k1, fun hm => ?_⟩
        have := hlow z hm
        omega
      · obtain ⟨k1, k2⟩ := h2 y hy (hnot y hn c1) z hr
        exact ⟨k1, fun hm => k2 (by simp [show z ∈ st from hm])⟩
    · simp only
      rw [e2, e2]
      by_cases c1 : y ∈ S ∨ y = v
      · by_cases c2 : z ∈ S ∨ z = v
        · rw [if_pos c1, if_pos c2]
        · exact absurd (hin y c1) (h2 z hz (hnot z hn' c2) y (hR.symm hr)).2
      · by_cases c2 : z ∈ S ∨ z = v
        · exact absurd (hin z c2) (h2 y hy (hnot y hn c1) z hr).2
        · rw [if_neg c1, if_neg c2]
          exact h3 y hy (hnot y hn c1) z hz (hnot z hn' c2) hr

/-- There is a path without bridges. -/
def Graph.ReachNB (G : Graph V E) (rev : E → E) : V → V → Prop :=
  Relation.ReflTransGen (fun x y => x ∈ G.vertices ∧ ∃ f ∈ G.out x, G.tgt f = y ∧ ¬G.Bridge rev f)

theorem Graph.Undirected.nb_equiv (hU : G.Undirected rev) (hG : G.WF) : Equivalence (G.ReachNB rev) where
  refl _ := .refl
  symm {x y} h := by
    induction h with
    | refl => exact .refl
    | tail _ hadj ih =>
      obtain ⟨hx, f, hf, rfl, hb⟩ := hadj
      refine .head ⟨hG.tgt _ hx f hf, rev f, hU.mem_rev _ hx f hf, hU.tgt_rev _ hx f hf, ?_⟩ ih
      rwa [hU.bridge_rev hG hx hf]
  trans h h' := h.trans h'

/-! ### The output -/

/-- The bridges output so far are the tree edges to finished vertices that are bridges; other edges of
finished vertices are no bridges. -/
structure BOut (G : Graph V E) (rev : E → E) (pe : V → Option E) (P : List V) (D : Set V) (B : List E) : Prop where
  sound : ∀ e ∈ B, ∃ x ∈ D, x ∉ P ∧ pe x = some e ∧ G.Bridge rev e
  complete : ∀ x ∈ D, x ∉ P → ∀ e, pe x = some e → G.Bridge rev e → e ∈ B
  nodup : B.Nodup
  nb : ∀ y ∈ D, y ∉ P → ∀ f ∈ G.out y, (∃ x ∈ D, pe x = some f ∨ pe x = some (rev f)) ∨ ¬G.Bridge rev f

theorem BOut.enter {B : List E} (h : BOut G rev pe P D B) {v : V} (hv : v ∉ D) {pe' : V → Option E}
    (hpe : ∀ x ∈ D, pe' x = pe x) : BOut G rev pe' (v :: P) (insert v D) B where
  sound e he := by
    obtain ⟨x, hx, hn, h1, h2⟩ := h.sound e he
    refine ⟨x, Set.mem_insert_of_mem _ hx, fun hm => ?_, by rw [hpe x hx]; exact h1, h2⟩
    rcases List.mem_cons.mp hm with rfl | hm
    · exact hv hx
    · exact hn hm
  complete x hx hn e he hb := by
    have hn := not_or.mp (fun h => hn (List.mem_cons.mpr h))
    have hx := (Set.mem_insert_iff.mp hx).resolve_left hn.1
    rw [hpe x hx] at he
    exact h.complete x hx hn.2 e he hb
  nodup := h.nodup
  nb y hy hn f hf := by
    have hn := not_or.mp (fun h => hn (List.mem_cons.mpr h))
    have hy := (Set.mem_insert_iff.mp hy).resolve_left hn.1
    rcases h.nb y hy hn.2 f hf with ⟨x, hx, hp⟩ | hb
    · exact Or.inl ⟨x, Set.mem_insert_of_mem _ hx, by rw [hpe x hx]; exact hp⟩
    · exact Or.inr hb

/-- Leaving a vertex: the tree edge to it is output if it is a bridge. -/
theorem BOut.leave {B B' : List E} {v : V} (h : BOut G rev pe (v :: P) D B) (hvD : v ∈ D) (hvP : v ∉ P)
    (hspec : ∀ x ∈ D, ∀ e, pe x = some e → G.tgt e = x)
    (hnb : ∀ f ∈ G.out v, (∃ x ∈ D, pe x = some f ∨ pe x = some (rev f)) ∨ ¬G.Bridge rev f)
    (hB : (B' = B ∧ ∀ e, pe v = some e → ¬G.Bridge rev e) ∨ ∃ e, pe v = some e ∧ G.Bridge rev e ∧ B' = B ++ [e]) :
    BOut G rev pe P D B' := by
  have hnb' : ∀ y ∈ D, y ∉ P → ∀ f ∈ G.out y, (∃ x ∈ D, pe x = some f ∨ pe x = some (rev f)) ∨ ¬G.Bridge rev f := by
    intro y hy hn f hf
    by_cases hyv : y = v
    · subst hyv; exact hnb f hf
    · exact h.nb y hy (fun hm => (List.mem_cons.mp hm).elim hyv hn) f hf
  have hsound : ∀ e ∈ B, ∃ x ∈ D, x ∉ P ∧ pe x = some e ∧ G.Bridge rev e := by
    intro e he
    obtain ⟨x, hx, hn, h1⟩ := h.sound e he
    exact ⟨x, hx, fun hm => hn (List.mem_cons_of_mem _ hm), h1⟩
  rcases hB with ⟨rfl, hno⟩ | ⟨e, he, hb, rfl⟩
  · refine ⟨hsound, fun x hx hn g hg hb => ?_, h.nodup, hnb'⟩
    by_cases hxv : x = v
    · subst hxv; exact absurd hb (hno g hg)
    · exact h.complete x hx (fun hm => (List.mem_cons.mp hm).elim hxv hn) g hg hb
  · refine ⟨fun g hg => ?_, fun x hx hn g hg hb => ?_, ?_, hnb'⟩
    · rcases List.mem_append.mp hg with hg | hg
      · exact hsound g hg
      · rw [List.mem_singleton.mp hg]; exact ⟨v, hvD, hvP, he, hb⟩
    · by_cases hxv : x = v
      · subst hxv
        rw [he] at hg
        injection hg with hg
        simp [hg]
      · exact List.mem_append_left _ (h.complete x hx (fun hm => (List.mem_cons.mp hm).elim hxv hn) g hg hb)
    · refine List.nodup_append.mpr ⟨h.nodup, by simp, fun a ha b hb hab => ?_⟩
      obtain ⟨x, hx, hn, h1, _⟩ := h.sound a ha
      rw [hab, List.mem_singleton.mp hb] at h1
      have h2 := hspec x hx e h1
      rw [hspec v hvD e he] at h2
      exact hn (by rw [h2]; exact List.mem_cons_self)

/-! ### All together -/

structure BInv (G : Graph V E) (rev : E → E) (T : V → Int) (pe : V → Option E) (P : List V) (D : Set V)
    (s : BridgeState V E) : Prop where
  blow : BLow G rev T pe P D s.timeLow s.notRoot s.now
  ok : CompOK (G.ReachNB rev) P D s.components
  exact_ : CompX (G.ReachNB rev) T D s.components
  out : BOut G rev pe P D s.bridges

theorem BLow.sub_nb (hU : G.Undirected rev) (hG : G.WF) {v : V} {low : V → Int} {nr : V → Bool} {now : Int}
    (h : BLow G rev T pe (v :: P) D low nr now)
    (hclosed : ∀ f ∈ G.out v, G.tgt f ∈ D) (hdone : ∀ f ∈ G.out v, pe v ≠ some (rev f) → low v ≤ T (G.tgt f))
    (hn : ¬nr v = true) : ∀ y ∈ D, T v ≤ T y → ∀ z, G.ReachNB rev y z → z ∈ D ∧ T v ≤ T z := by
  have hvD := h.gray v List.mem_cons_self
  have hv : low v = T v := by
    by_contra hh
    exact hn ((h.root v hvD).mpr hh)
  intro y hy hvy z hr
  induction hr with
  | refl => exact ⟨hy, hvy⟩
  | tail _ hadj ih =>
    obtain ⟨hm, f, hf, rfl, hb⟩ := hadj
    refine h.sub_closed hU hG hclosed hdone hv ih.1 ih.2 hf (fun hh => ?_)
    have h1 := not_not.mp (mt (h.bridge_iff hU hG hclosed hdone hh).mpr hn)
    exact hb ((hU.bridge_rev hG hm hf).mp h1)

theorem bridgeFinish_same (G : Graph V E) (par : Bool) (v : V) (s : BridgeState V E) :
    (bridgeFinder G par).on (.finish v) s =
      { s with components := if s.notRoot v then s.components else s.components.pop v } := by
  show (if !s.notRoot v then { s with components := s.components.pop v } else s) = _
  cases s.notRoot v <;> rfl

/-- Components and output at the finish of a vertex. -/
theorem BInv.finish_comp (hU : G.Undirected rev) (hG : G.WF) {v : V} {s : BridgeState V E} (h : BInv G rev T pe (v :: P) D s)
    (hclosed : ∀ f ∈ G.out v, G.tgt f ∈ D) (hdone : ∀ f ∈ G.out v, pe v ≠ some (rev f) → s.timeLow v ≤ T (G.tgt f))
    (hn : ¬s.notRoot v = true) :
    CompOK (G.ReachNB rev) P D (s.components.pop v) ∧ CompX (G.ReachNB rev) T D (s.components.pop v) :=
  ⟨h.ok.pop (hU.nb_equiv hG), h.exact_.pop (hU.nb_equiv hG) h.ok (h.blow.sub_nb hU hG hclosed hdone hn)⟩

theorem BInv.leave (hU : G.Undirected rev) (hG : G.WF) {u v : V} {s : BridgeState V E} {e : E} {x : Bool}
    {st : List (V × Bool)} (h : BInv G rev T pe (v :: u :: P) D s) (he : pe v = some e) (hsrc : G.src e = u)
    (hstk : s.dfsStack = (u, x) :: st) (hst : StkOK G pe u st)
    (hclosed : ∀ f ∈ G.out v, G.tgt f ∈ D) (hdone : ∀ f ∈ G.out v, pe v ≠ some (rev f) → s.timeLow v ≤ T (G.tgt f))
    (hnb : ∀ f ∈ G.out v, (∃ x ∈ D, pe x = some f ∨ pe x = some (rev f)) ∨ ¬G.Bridge rev f) :
    ∃ s', (bridgeFinder G par).on (.treeFinish e) ((bridgeFinder G par).on (.finish v) s) = s' ∧
      BInv G rev T pe (u :: P) D s' ∧ s'.dfsStack = st ∧ s'.timeLow u ≤ s.timeLow u ∧
      ∀ y, y ≠ u → s'.timeLow y = s.timeLow y := by
  have hb := h.blow
  have hvD := hb.gray v List.mem_cons_self
  have huD := hb.gray u (by simp)
  obtain ⟨p1, p2, p3, p4, p5⟩ := hb.pe_spec v hvD e he
  have hinc := List.pairwise_cons.mp hb.incr
  have huv : T u < T v := hinc.1 u (by simp)
  have hne : u ≠ v := fun hh => by rw [hh] at huv; omega
  have hum := hb.mem u huD
  -- the components
  have hcomp : CompOK (G.ReachNB rev) (u :: P) D (if s.notRoot v then s.components else s.components.pop v) ∧
      CompX (G.ReachNB rev) T D (if s.notRoot v then s.components else s.components.pop v) := by
    by_cases hn : s.notRoot v = true
    · rw [if_pos hn]
      refine ⟨h.ok.keep (hU.nb_equiv hG) (.single ⟨hum, e, ?_, p1, (hb.bridge_iff hU hG hclosed hdone he).mp hn⟩), h.exact_⟩
      rw [← hsrc]; exact p3
    · rw [if_neg hn]
      exact h.finish_comp hU hG hclosed hdone hn
  -- the edge is not skipped
  generalize hs1 : (⟨s.bridges, if s.notRoot v then s.components else s.components.pop v, s.timeLow, s.notRoot, st, s.now⟩ :
    BridgeState V E) = s1
  have hs1' : { (bridgeFinder G par).on (.finish v) s with dfsStack := ((bridgeFinder G par).on (.finish v) s).dfsStack.tail } = s1 := by
    rw [bridgeFinish_same, ← hs1, hstk]
    rfl
  have hrel : s1.edge G par e = s1.relax G e := by
    rcases s1.edge_eq G par e with ⟨p, x', st', e1, e2, -, -⟩ | ⟨-, e2⟩
    · exfalso
      rw [← hs1] at e1
      simp only at e1
      rcases hst with ⟨_, k⟩ | ⟨g, x'', st'', k1, k2⟩
      · rw [k] at e1; cases e1
      · rw [k2] at e1
        simp only [List.cons.injEq, Prod.mk.injEq] at e1
        have := (hb.pe_spec u huD g k1).2.2.2.1
        rw [e1.1.1, e2, p1] at this
        omega
    · exact e2
  have hfin : (bridgeFinder G par).on (.treeFinish e) ((bridgeFinder G par).on (.finish v) s) =
      if !(s1.relax G e).notRoot (G.tgt e) then { s1.relax G e with bridges := (s1.relax G e).bridges ++ [e] }
      else s1.relax G e := by
    rw [← hrel, ← hs1']
    rfl
  -- the times
  have key : ∃ low' nr', s1.relax G e = ⟨s.bridges, s1.components, low', nr', st, s.now⟩ ∧
      BLow G rev T pe (u :: P) D low' nr' s.now ∧ low' u ≤ s.timeLow u ∧ (∀ y, y ≠ u → low' y = s.timeLow y) ∧
      nr' v = s.notRoot v := by
    rw [BridgeState.relax_eq, ← hs1]
    simp only
    rw [hsrc, p1]
    by_cases hlt : s.timeLow u > s.timeLow v
    · rw [if_pos hlt]
      have hself : put s.timeLow u (s.timeLow v) u = s.timeLow v := by simp [put]
      have hother : ∀ y, y ≠ u → put s.timeLow u (s.timeLow v) y = s.timeLow y := fun y hy => by simp [put, hy]
      refine ⟨_, _, rfl, ?_, by rw [hself]; omega, hother, by simp [put, hne.symm]⟩
      obtain ⟨a, ha, a1, a2⟩ := hb.lows v List.mem_cons_self
      have hul := (hb.low_pos u huD).2
      have hav : a ≠ v := fun hh => by rw [hh] at a1; omega
      have hlow := hb.lower (u := u) (a := a) (by simp) ha (by omega) (fun z hz g hg h1 h2 => by
        have h3 := a2 z hz g hg h1 (by omega)
        obtain ⟨q1, q2, q3, q4, q5⟩ := hb.pe_spec z (hb.gray z hz) g hg
        refine .head (b := v) ⟨e, by rw [← hsrc]; exact p3, p1, fun hh => ?_, fun hh => ?_⟩ h3
        · rw [← hh, p1] at q1
          rw [← q1] at h2
          omega
        · have := hU.tgt_rev _ (hb.mem _ q2) g q3
          rw [← hh, p1] at this
          rw [← this] at q4
          omega)
      rw [← a1] at hlow
      refine hlow.drop hclosed (fun f hf hp => ?_) (fun w hw hmax => ?_)
      · rw [hother v hne.symm]; exact hdone f hf hp
      · rw [hother v hne.symm]
        have hwu : w = u := by
          rcases List.mem_cons.mp hw with hw | hw
          · exact hw
          · have h1 := hmax u List.mem_cons_self
            have h2 := (List.pairwise_cons.mp hinc.2).1 w hw
            omega
        rw [hwu, hself]
    · rw [if_neg hlt]
      refine ⟨_, _, rfl, ?_, Int.le_refl _, fun _ _ => rfl, rfl⟩
      refine hb.drop hclosed hdone (fun w hw hmax => ?_)
      have hwu : w = u := by
        rcases List.mem_cons.mp hw with hw | hw
        · exact hw
        · have h1 := hmax u List.mem_cons_self
          have h2 := (List.pairwise_cons.mp hinc.2).1 w hw
          omega
      rw [hwu]; omega
  obtain ⟨low', nr', k1, k2, k3, k4, k5⟩ := key
  have hc1 : s1.components = if s.notRoot v then s.components else s.components.pop v := by rw [← hs1]
  rw [hfin, k1, p1]
  simp only [k5]
  have hvP : v ∉ u :: P := fun hm => by have := hinc.1 v hm; omega
  by_cases hn : s.notRoot v = true
  · have hno := (hb.bridge_iff hU hG hclosed hdone he).mp hn
    rw [if_neg (by simp [hn])]
    refine ⟨_, rfl, ⟨k2, by rw [hc1]; exact hcomp.1, by rw [hc1]; exact hcomp.2, ?_⟩, rfl, k3, k4⟩
    refine h.out.leave hvD hvP (fun x hx g hg => (hb.pe_spec x hx g hg).1) hnb (Or.inl ⟨rfl, fun g hg => ?_⟩)
    rw [he] at hg
    injection hg with hg
    rwa [← hg]
  · have hyes := not_not.mp (mt (hb.bridge_iff hU hG hclosed hdone he).mpr hn)
    rw [if_pos (by simp [hn])]
    refine ⟨_, rfl, ⟨k2, by rw [hc1]; exact hcomp.1, by rw [hc1]; exact hcomp.2, ?_⟩, rfl, k3, k4⟩
    exact h.out.leave hvD hvP (fun x hx g hg => (hb.pe_spec x hx g hg).1) hnb (Or.inr ⟨e, he, hyes, rfl⟩)

theorem BInv.enter {s : BridgeState V E} (h : BInv G rev T pe P D s) {v : V} (hv : v ∈ G.vertices) (hD : v ∉ D)
    (o : Option E) (ho : ∀ e, o = some e → G.tgt e = v ∧ G.src e ∈ P ∧ e ∈ G.out (G.src e) ∧ ∀ w ∈ P, T w ≤ T (G.src e))
    (hnone : o = none → P = []) (stk : List (V × Bool)) :
    BInv G rev (put T v (s.now + 1)) (put pe v o) (v :: P) (insert v D)
      ((bridgeFinder G par).on (.start v) { s with dfsStack := stk }) := by
  have hne : ∀ x ∈ D, x ≠ v := fun x hx hxv => hD (hxv ▸ hx)
  have hT : ∀ x ∈ D, put T v (s.now + 1) x = T x := fun x hx => by simp [put, hne x hx]
  have hpe : ∀ x ∈ D, put pe v o x = pe x := fun x hx => by simp [put, hne x hx]
  refine ⟨h.blow.enter hv hD o ho hnone, h.ok.push hD, h.exact_.push h.ok.sub hD hT (fun x hx => ?_), h.out.enter hD hpe⟩
  have := h.blow.times x hx
  simp only [put, if_true]
  omega

theorem BDone.nil (lo : Int) (p : V) (st : List (V × Bool)) (u : V) :
    BDone G rev par T pe D lo ((p, true) :: st) u [] := by
  refine ⟨fun f hf => absurd hf List.not_mem_nil, fun f hf => absurd hf List.not_mem_nil,
    ⟨fun _ => False, fun f hf => absurd hf List.not_mem_nil, fun f hf => hf.elim, fun _ f g hf => hf.elim,
    fun _ _ _ _ f hf => hf⟩, fun _ q st' h => ?_⟩
  simp at h

theorem BDone.nil' (lo : Int) (u : V) : BDone G rev par T pe D lo [] u [] := by
  refine ⟨fun f hf => absurd hf List.not_mem_nil, fun f hf => absurd hf List.not_mem_nil,
    ⟨fun _ => False, fun f hf => absurd hf List.not_mem_nil, fun f hf => hf.elim, fun _ f g hf => hf.elim,
    fun _ _ _ _ f hf => hf⟩, fun _ q st' h => ?_⟩
  simp at h

theorem BDone.snoc {lo : Int} {stk : List (V × Bool)} {u : V} {done : List E} {e : E}
    (h : BDone G rev par T pe D lo stk u done) (ht : G.tgt e ∈ D) (hp : pe (G.tgt e) = some e) (hlo : lo ≤ T (G.tgt e)) :
    BDone G rev par T pe D lo stk u (done ++ [e]) := by
  obtain ⟨Sk, h1, h2, h3, h4⟩ := h.skip
  refine ⟨fun f hf => ?_, fun f hf => ?_, ⟨Sk, fun f hf => ?_, fun f hf => ⟨List.mem_append_left _ (h2 f hf).1, (h2 f hf).2⟩,
    h3, h4⟩, fun a b c d => ?_⟩
  · rcases List.mem_append.mp hf with hf | hf
    · exact h.tgts f hf
    · rw [List.mem_singleton.mp hf]; exact ht
  · rcases List.mem_append.mp hf with hf | hf
    · exact h.nb f hf
    · rw [List.mem_singleton.mp hf]; exact Or.inl ⟨_, ht, Or.inl hp⟩
  · rcases List.mem_append.mp hf with hf | hf
    · exact h1 f hf
    · rw [List.mem_singleton.mp hf]; exact Or.inr hlo
  · obtain ⟨g, hg, hgt⟩ := h.flag a b c d
    exact ⟨g, List.mem_append_left _ hg, hgt⟩

theorem Run.bridges (hU : G.Undirected rev) (hG : G.WF) (hpar : par = false → G.Simple) {D D' : Set V} {es : List E}
    {l : List (Event V E)} (r : Run G D es l D') (u : V) (P : List V) (s : BridgeState V E) (T : V → Int) (pe : V → Option E)
    (done : List E) (hout : G.out u = done ++ es) (h : BInv G rev T pe (u :: P) D s)
    (hd : BDone G rev par T pe D (s.timeLow u) s.dfsStack u done) (hs : StkOK G pe u s.dfsStack) :
    ∃ T' pe', BInv G rev T' pe' (u :: P) D' (after (bridgeFinder G par) s l) ∧
      BDone G rev par T' pe' D' ((after (bridgeFinder G par) s l).timeLow u) (after (bridgeFinder G par) s l).dfsStack u (G.out u) ∧
      StkOK G pe' u (after (bridgeFinder G par) s l).dfsStack ∧
      (∀ x ∈ D, T' x = T x ∧ pe' x = pe x) ∧ (∀ x ∈ P, (after (bridgeFinder G par) s l).timeLow x = s.timeLow x) ∧
      (after (bridgeFinder G par) s l).dfsStack.tail = s.dfsStack.tail := by
  induction r generalizing u P s T pe done with
  | nil D =>
    rw [List.append_nil] at hout
    rw [← hout] at hd
    exact ⟨T, pe, h, hd, hs, fun _ _ => ⟨rfl, rfl⟩, fun _ _ => rfl, rfl⟩
  | @skip D D' f es l ht r ih =>
    obtain ⟨b1, b2, b3, b4, b5, b6, b7⟩ := BridgeState.nonTree hU hG h.blow hd hs hout ht
    have hne : ∀ x ∈ P, x ≠ u := fun x hx hh => by
      have := (List.pairwise_cons.mp h.blow.incr).1 x hx
      rw [hh] at this
      omega
    obtain ⟨T', pe', c1, c2, c3, c4, c5, c6⟩ := ih u P (s.edge G par f) T pe (done ++ [f]) (by rw [hout]; simp)
      ⟨b1, by rw [b6]; exact h.ok, by rw [b6]; exact h.exact_, by rw [b7]; exact h.out⟩ b2 b3
    exact ⟨T', pe', c1, c2, c3, c4, fun x hx => (c5 x hx).trans (b5 x (hne x hx)), c6.trans b4⟩
  | @tree D D1 D2 e es l1 l2 ht r1 r2 ih1 ih2 =>
    have huD := h.blow.gray u List.mem_cons_self
    have hum := h.blow.mem u huD
    have he : e ∈ G.out u := by rw [hout]; simp
    have hsrc := hG.src u hum e he
    have htm := hG.tgt u hum e he
    rw [after_append, after_append, after_append]
    have hne : ∀ x ∈ D, x ≠ G.tgt e := fun x hx hxv => ht (hxv ▸ hx)
    -- enter the child
    have h1 := h.enter (par := par) htm ht (some e) (fun g hg => by
      injection hg with hg
      subst hg
      rw [hsrc]
      exact ⟨rfl, List.mem_cons_self, he, h.blow.head_max⟩) (fun hh => by cases hh) ((G.src e, true) :: s.dfsStack)
    have hpe0 : put pe (G.tgt e) (some e) (G.tgt e) = some e := by simp [put]
    generalize hs1 : (bridgeFinder G par).on (.start (G.tgt e)) { s with dfsStack := (G.src e, true) :: s.dfsStack } = s1 at h1
    have hs1a : after (bridgeFinder G par) s [.treeStart e, .discover (G.tgt e), .start (G.tgt e)] = s1 := hs1
    have hstk1 : s1.dfsStack = (G.src e, true) :: s.dfsStack := by rw [← hs1]; rfl
    have hlow1 : ∀ x ∈ D, s1.timeLow x = s.timeLow x := fun x hx => by
      rw [← hs1]
      show put s.timeLow (G.tgt e) _ x = _
      simp [put, hne x hx]
    rw [hs1a]
    obtain ⟨T1, pe1, c1, c2, c3, c4, c5, c6⟩ := ih1 (G.tgt e) (u :: P) s1 _ _ [] rfl h1
      (by rw [hstk1]; exact BDone.nil _ _ _ _) (Or.inr ⟨e, true, s.dfsStack, hpe0, hstk1⟩)
    generalize after (bridgeFinder G par) s1 l1 = s2 at c1 c2 c3 c5 c6
    have hagree : ∀ x ∈ D, T1 x = T x ∧ pe1 x = pe x := fun x hx => by
      obtain ⟨k1, k2⟩ := c4 x (Set.mem_insert_of_mem _ hx)
      rw [k1, k2]
      simp [put, hne x hx]
    have hpe1 : pe1 (G.tgt e) = some e := by rw [(c4 _ (Set.mem_insert _ _)).2, hpe0]
    have hD1 : D ⊆ D1 := fun x hx => r1.subset (Set.mem_insert_of_mem _ hx)
    have hstk2 : ∃ x, s2.dfsStack = (u, x) :: s.dfsStack := by
      rcases c3 with ⟨k, _⟩ | ⟨g, x, st, k1, k2⟩
      · rw [hpe1] at k; cases k
      · rw [hpe1] at k1
        injection k1 with k1
        rw [hstk1, k2] at c6
        simp only [List.tail_cons] at c6
        exact ⟨x, by rw [k2, ← k1, hsrc, c6]⟩
    obtain ⟨x, hstk2⟩ := hstk2
    have hsD1 : StkOK G pe1 u s.dfsStack := by
      unfold StkOK
      rw [(hagree u huD).2]; exact hs
    obtain ⟨s3, d0, d1, d2, d3, d4⟩ := c1.leave (par := par) hU hG hpe1 hsrc hstk2 hsD1 c2.tgts
      (c2.all hU hpar c1.blow (c1.blow.gray _ List.mem_cons_self)) c2.nb
    have hs3 : after (bridgeFinder G par) s2 [.finish (G.tgt e), .treeFinish e] = s3 := d0
    rw [hs3]
    have hlu : s3.timeLow u ≤ s.timeLow u := by
      rw [← hlow1 u huD, ← c5 u List.mem_cons_self]; exact d3
    have hdone3 : BDone G rev par T1 pe1 D1 (s3.timeLow u) s3.dfsStack u (done ++ [e]) := by
      rw [d2]
      have htD1 := c1.blow.gray _ List.mem_cons_self
      refine (hd.mono huD hD1 hagree hlu).snoc htD1 hpe1 ?_
      have k1 := (d1.blow.low_pos u (hD1 huD)).2
      have k2 := (c1.blow.pe_spec _ htD1 e hpe1).2.2.2.1
      rw [hsrc] at k2
      omega
    obtain ⟨T2, pe2, f1, f2, f3, f4, f5, f6⟩ := ih2 u P s3 T1 pe1 (done ++ [e]) (by rw [hout]; simp) d1 hdone3
      (by rw [d2]; exact hsD1)
    refine ⟨T2, pe2, f1, f2, f3, fun x hx => ?_, fun x hx => ?_, ?_⟩
    · obtain ⟨k1, k2⟩ := f4 x (hD1 hx)
      rw [k1, k2]; exact hagree x hx
    · have hxu : x ≠ u := fun hh => by
        have := (List.pairwise_cons.mp h.blow.incr).1 x hx
        rw [hh] at this
        omega
      rw [f5 x hx, d4 x hxu, c5 x (List.mem_cons_of_mem _ hx), hlow1 x (h.blow.gray x (List.mem_cons_of_mem _ hx))]
    · rw [f6, d2]

theorem VisitAll.bridges (hU : G.Undirected rev) (hG : G.WF) (hpar : par = false → G.Simple) {D D' : Set V} {us : List V}
    {l : List (Event V E)} (r : VisitAll G D us l D') (s : BridgeState V E) (hus : ∀ u ∈ us, u ∈ G.vertices)
    (h : ∃ T pe, BInv G rev T pe [] D s) : ∃ T pe, BInv G rev T pe [] D' (after (bridgeFinder G par) s l) := by
  induction r generalizing s with
  | nil D => exact h
  | skip hu r ih => exact ih s (fun u hu => hus u (List.mem_cons_of_mem _ hu)) h
  | @visit D D1 D2 u us l1 l2 hu hv r ih =>
    have hum := hus u List.mem_cons_self
    rw [after_append]
    refine ih _ (fun u hu => hus u (List.mem_cons_of_mem _ hu)) ?_
    obtain ⟨l', hr, rfl⟩ := hv
    obtain ⟨T, pe, h⟩ := h
    rw [after_append, after_append]
    have h1 := h.enter (par := par) hum hu none (fun e he => by cases he) (fun _ => rfl) []
    generalize hs1 : (bridgeFinder G par).on (.start u) { s with dfsStack := [] } = s1 at h1
    have hs1a : after (bridgeFinder G par) s [.searchStart u, .discover u, .start u] = s1 := hs1
    have hstk : s1.dfsStack = [] := by rw [← hs1]; rfl
    rw [hs1a]
    have hpe0 : put pe u none u = none := by simp [put]
    obtain ⟨T1, pe1, c1, c2, c3, c4, c5, c6⟩ := hr.bridges (par := par) hU hG hpar u [] s1 _ _ [] rfl h1
      (by rw [hstk]; exact BDone.nil' _ _) (Or.inl ⟨hpe0, hstk⟩)
    generalize after (bridgeFinder G par) s1 l' = s2 at c1 c2 c3 c5 c6
    have hpe1 : pe1 u = none := by rw [(c4 u (Set.mem_insert _ _)).2, hpe0]
    have huD := c1.blow.gray u List.mem_cons_self
    have hdone := c2.all hU hpar c1.blow huD
    have hn : ¬s2.notRoot u = true := by
      intro hn
      obtain ⟨a, ha, a1, _⟩ := c1.blow.lows u List.mem_cons_self
      rw [List.mem_singleton.mp ha] at a1
      exact (c1.blow.root u huD).mp hn a1
    obtain ⟨k1, k2⟩ := c1.finish_comp hU hG c2.tgts hdone hn
    have hfin : after (bridgeFinder G par) s2 [.finish u, .searchFinish u] = { s2 with components := s2.components.pop u } := by
      show (bridgeFinder G par).on (.finish u) s2 = _
      rw [bridgeFinish_same, if_neg hn]
    rw [hfin]
    exact ⟨T1, pe1, c1.blow.drop c2.tgts hdone (fun w hw => absurd hw List.not_mem_nil), k1, k2,
      c1.out.leave huD List.not_mem_nil (fun x hx g hg => (c1.blow.pe_spec x hx g hg).1) c2.nb
        (Or.inl ⟨rfl, fun e he => by rw [hpe1] at he; cases he⟩)⟩

end Actl.Traversal
