import Verif.Lemmas.BridgeRun
import Verif.Props.Components

/-!
C50: bridges and two-edge-connected components.
-/

namespace Actl.Traversal

variable {V E : Type} [DecidableEq V] {G : Graph V E} {rev : E → E} {par : Bool}

/-! ### The finder knows the discovered vertices -/

def BridgeI (s : BridgeState V E) (D : Set V) : Prop := 0 ≤ s.now ∧ ∀ v, s.timeLow v ≠ 0 ↔ v ∈ D

theorem BridgeI.relax {s : BridgeState V E} {D : Set V} {e : E} (h : BridgeI s D) (hs : G.src e ∈ D) (ht : G.tgt e ∈ D) :
    BridgeI (s.relax G e) D := by
  rw [BridgeState.relax_eq]
  split
  · refine ⟨h.1, fun v => ?_⟩
    by_cases hvu : v = G.src e
    · subst hvu
      simp only [put, if_true]
      exact ⟨fun _ => hs, fun _ => (h.2 _).mpr ht⟩
    · simp only [put, hvu, if_false]
      exact h.2 v
  · exact h

theorem BridgeI.edge {s : BridgeState V E} {D : Set V} {e : E} (h : BridgeI s D) (hs : G.src e ∈ D) (ht : G.tgt e ∈ D) :
    BridgeI (s.edge G par e) D := by
  rcases s.edge_eq G par e with ⟨p, x, st, _, _, _, e4⟩ | ⟨_, e2⟩
  · rw [e4]; exact h
  · rw [e2]; exact h.relax hs ht

theorem BridgeI.start {s : BridgeState V E} {D : Set V} {v : V} (h : BridgeI s D) :
    BridgeI ((bridgeFinder G par).on (.start v) s) (insert v D) := by
  have h0 := h.1
  refine ⟨by show 0 ≤ s.now + 1; omega, fun x => ?_⟩
  show put s.timeLow v (s.now + 1) x ≠ 0 ↔ _
  by_cases hxv : x = v
  · simp only [put, hxv, if_true, Set.mem_insert_iff, true_or, iff_true]
    omega
  · simp only [put, hxv, if_false, Set.mem_insert_iff, false_or]
    exact h.2 x

theorem bridge_tracks : Tracks G (bridgeFinder G par) BridgeI where
  disc s D v h _ := by
    rw [← h.2 v]
    show (s.timeLow v != 0) = true ↔ _
    simp
  nonTree s D e h hs ht := h.edge hs ht
  treeFinish s D e h hs ht := by
    have h1 : BridgeI { s with dfsStack := s.dfsStack.tail } D := h
    have h2 := h1.edge (par := par) hs ht
    show BridgeI (if !(BridgeState.edge G par e { s with dfsStack := s.dfsStack.tail }).notRoot (G.tgt e) then _ else _) D
    split
    · exact h2
    · exact h2
  finish s D u h _ := by rw [bridgeFinish_same]; exact h
  searchFinish s D u h hu := h
  enterTree s D e h _ _ _ := BridgeI.start (s := { s with dfsStack := (G.src e, true) :: s.dfsStack }) h
  enterRoot s D u h _ _ := BridgeI.start (s := { s with dfsStack := [] }) h

theorem bridge_initAll (vs : List V) (map : V → Int) :
    initAll (bridgeFinder G par) vs (BridgeState.fresh map) = BridgeState.fresh map := by
  induction vs with
  | nil => rfl
  | cons v vs ih =>
    have : (bridgeFinder G par).on (.init v) (BridgeState.fresh map) = BridgeState.fresh map := by
      show (⟨_, _, put (fun _ => 0) v 0, _, _, _⟩ : BridgeState V E) = ⟨_, _, fun _ => 0, _, _, _⟩
      congr 1
      funext x
      simp [put]
    rw [initAll, this, ih]

theorem bridge_init (map : V → Int) : BInv G rev (fun _ => 0) (fun _ => none) [] ∅ (BridgeState.fresh map) := by
  have hn : ∀ x : V, x ∈ (∅ : Set V) → False := fun x hx => Set.notMem_empty x hx
  refine ⟨⟨Int.le_refl 0, fun x hx => (hn x hx).elim, fun x hx => (hn x hx).elim, .nil,
    fun x hx => absurd hx List.not_mem_nil, fun x hx => (hn x hx).elim, fun x hx => (hn x hx).elim, fun x hx => (hn x hx).elim,
    fun x hx => (hn x hx).elim, fun x _ => rfl, fun x hx => (hn x hx).elim, fun x hx => absurd hx List.not_mem_nil,
    fun x hx => (hn x hx).elim, fun x hx => (hn x hx).elim, fun x hx => (hn x hx).elim⟩,
    ⟨.nil, List.nodup_nil, fun x hx => absurd hx List.not_mem_nil, Int.le_refl 0, fun x hx => (hn x hx).elim,
    fun x hx => (hn x hx).elim, fun k h1 h2 => ?_, rfl⟩,
    ⟨.nil, fun x hx => (hn x hx).elim, fun x hx => (hn x hx).elim⟩,
    ⟨fun e he => absurd he List.not_mem_nil, fun x hx => (hn x hx).elim, List.nodup_nil, fun x hx => (hn x hx).elim⟩⟩
  exact absurd (show k < 0 from h2) (by omega)

/-! ### Paths without bridges -/

/-- A path without bridges survives the removal of any edge; conversely a bridge on the way separates. -/
theorem Graph.Undirected.nb_iff (hU : G.Undirected rev) (hG : G.WF) {u v : V} (hu : u ∈ G.vertices) :
    G.ReachNB rev u v ↔ G.TwoEdgeConnected rev u v := by
  constructor
  · intro h
    induction h with
    | refl => exact ⟨.refl, fun _ _ _ _ => .refl⟩
    | tail _ hadj ih =>
      obtain ⟨hx, f, hf, rfl, hb⟩ := hadj
      refine ⟨ih.1.tail ⟨f, hf, rfl⟩, fun w hw e he => (ih.2 w hw e he).trans ?_⟩
      have hr := not_not.mp hb
      rw [hG.src _ hx f hf] at hr
      by_cases h1 : f = e
      · rw [← h1]; exact hr
      · by_cases h2 : f = rev e
        · have hee : e = rev f := by rw [h2, hU.invol]
          rw [hee, hU.without_rev]; exact hr
        · exact .single ⟨f, hf, rfl, h1, h2⟩
  · rintro ⟨hr, hall⟩
    by_contra hn
    -- the last vertex of the way related to `u`
    have key : ∀ y, G.Reach u y → G.ReachNB rev u y ∨ ∃ x f, G.ReachNB rev u x ∧ x ∈ G.vertices ∧ f ∈ G.out x ∧
        ¬G.ReachNB rev u (G.tgt f) ∧ G.ReachWithout rev f (G.tgt f) y ∧ ¬G.ReachNB rev u y := by
      intro y hy
      induction hy with
      | refl => exact Or.inl .refl
      | @tail b c h1 hadj ih =>
        have hbm := hG.reach_mem hu h1
        obtain ⟨f, hf, rfl⟩ := hadj
        by_cases hc : G.ReachNB rev u (G.tgt f)
        · exact Or.inl hc
        · right
          rcases ih with ih | ⟨x, g, i1, i2, i3, i4, i5, i6⟩
          · exact ⟨b, f, ih, hbm, hf, hc, .refl, hc⟩
          · refine ⟨x, g, i1, i2, i3, i4, i5.tail ⟨f, hf, rfl, fun hh => ?_, fun hh => ?_⟩, hc⟩
            · have := hG.src b hbm f hf
              rw [hh, hG.src x i2 g i3] at this
              exact i6 (this ▸ i1)
            · rw [hh, hU.tgt_rev x i2 g i3] at hc
              exact hc i1
    rcases key v hr with h | ⟨x, f, i1, i2, i3, i4, i5, _⟩
    · exact hn h
    · have hb : G.Bridge rev f := by
        by_contra hb
        exact i4 (i1.tail ⟨i2, f, i3, rfl, hb⟩)
      apply hb
      rw [hG.src x i2 f i3]
      -- from x back to u without bridges, to v by hypothesis, back to the end of f
      have hux : G.ReachWithout rev f u x := by
        clear i2 i3 i4 i5
        induction i1 with
        | refl => exact .refl
        | tail _ hadj ih =>
          obtain ⟨hm, g, hg, rfl, hgb⟩ := hadj
          have hgf : g ≠ f := fun hh => hgb (hh ▸ hb)
          by_cases hgr : g = rev f
          · exfalso
            apply hgb
            have hfg : f = rev g := by rw [hgr, hU.invol]
            rw [hfg] at hb
            exact (hU.bridge_rev hG hm hg).mp hb
          · exact (ih).tail ⟨g, hg, rfl, hgf, hgr⟩
      have hxu := (hU.reachWithout_symm hG hu hux).2
      exact hxu.trans ((hall x i2 f i3).trans (hU.reachWithout_symm hG (hG.tgt x i2 f i3) i5).2)

/-- `find_bridges`, `find_two_edge_connected_components` and both together, on an undirected graph, with
parallel edges or, if these are told not to exist, without: the search terminates without undefined
behaviour whatever the component map holds before.  An edge is output (in one of its directions, once)
just if its removal disconnects its ends.  Two vertices get the same number just if they stay connected
whatever edge is removed; the numbers used are 0, 1, .., k-1 for some k. -/
theorem findBridges_spec (hG : G.WF) (hU : G.Undirected rev) (hpar : par = false → G.Simple) (map : V → Int) :
    (∃ fuel r, findBridges G par fuel map = some r) ∧
    ∀ fuel bridges comp, findBridges G par fuel map = some (bridges, comp) →
      (∀ u ∈ G.vertices, ∀ e ∈ G.out u, (e ∈ bridges ∨ rev e ∈ bridges ↔ G.Bridge rev e)) ∧
      (∀ e ∈ bridges, ∃ u ∈ G.vertices, e ∈ G.out u) ∧ bridges.Nodup ∧ (∀ e ∈ bridges, rev e ∉ bridges) ∧
      (∀ u ∈ G.vertices, ∀ v ∈ G.vertices, (comp u = comp v ↔ G.TwoEdgeConnected rev u v)) ∧
      ∃ count : Int, ∀ k, (∃ v ∈ G.vertices, comp v = k) ↔ 0 ≤ k ∧ k < count := by
  obtain ⟨l, D', hva, hi, fuel, hf⟩ := dfsAll_ref (bridge_tracks (G := G) (par := par)) hG (BridgeState.fresh map)
    (by rw [bridge_initAll]; exact ⟨Int.le_refl 0, fun v => by simp [BridgeState.fresh]⟩)
  rw [bridge_initAll] at hi hf
  obtain ⟨T, pe, hinv⟩ := hva.bridges hU hG hpar (BridgeState.fresh map) (fun u hu => hu)
    ⟨_, _, bridge_init (rev := rev) map⟩
  generalize after (bridgeFinder G par) (BridgeState.fresh map) l = s at hi hf hinv
  have hok := hinv.ok
  refine ⟨⟨fuel, (s.bridges, s.components.map), by unfold findBridges; rw [hf]; simp [hok.good]⟩,
    fun fuel' bridges comp h => ?_⟩
  have hres : bridges = s.bridges ∧ comp = s.components.map := by
    unfold findBridges at h
    split at h
    · cases h
    · rename_i s' hs'
      have := dfsAll_det _ _ _ _ _ _ hf hs'
      subst this
      rw [hok.good] at h
      simp only [Bool.false_eq_true, if_false, Option.some.injEq, Prod.mk.injEq] at h
      exact ⟨h.1.symm, h.2.symm⟩
  obtain ⟨rfl, rfl⟩ := hres
  have hstack : s.components.stack = [] := by
    have := hok.ok
    generalize s.components.stack = st at this
    cases this
    rfl
  have hn : ∀ v, v ∉ s.components.stack := fun v => by rw [hstack]; exact List.not_mem_nil
  have hmem : ∀ v, v ∈ D' ↔ v ∈ G.vertices := by
    intro v
    rw [hva.mem_iff]
    constructor
    · rintro ⟨u, hu, hr⟩
      exact hG.reach_mem hu hr
    · exact fun h => ⟨v, h, .refl⟩
  refine ⟨fun u hu e he => ⟨?_, fun hb => ?_⟩, fun e he => ?_, hinv.out.nodup, fun e he he' => ?_,
    fun u hu v hv => ⟨fun hc => ?_, fun hc => ?_⟩, s.components.n, fun k => ⟨?_, ?_⟩⟩
  · rintro (h1 | h1)
    · obtain ⟨x, _, _, _, hb⟩ := hinv.out.sound e h1
      exact hb
    · obtain ⟨x, _, _, _, hb⟩ := hinv.out.sound _ h1
      exact (hU.bridge_rev hG hu he).mp hb
  · rcases hinv.out.nb u ((hmem u).mpr hu) List.not_mem_nil e he with ⟨x, hx, hp | hp⟩ | hno
    · exact Or.inl (hinv.out.complete x hx List.not_mem_nil e hp hb)
    · exact Or.inr (hinv.out.complete x hx List.not_mem_nil _ hp ((hU.bridge_rev hG hu he).mpr hb))
    · exact absurd hb hno
  · obtain ⟨x, hx, _, hp, _⟩ := hinv.out.sound e he
    obtain ⟨_, p2, p3, _, _⟩ := hinv.blow.pe_spec x hx e hp
    exact ⟨_, hinv.blow.mem _ p2, p3⟩
  · obtain ⟨x, hx, _, hp, _⟩ := hinv.out.sound e he
    obtain ⟨y, hy, _, hq, _⟩ := hinv.out.sound _ he'
    obtain ⟨p1, p2, p3, p4, _⟩ := hinv.blow.pe_spec x hx e hp
    obtain ⟨q1, q2, q3, q4, _⟩ := hinv.blow.pe_spec y hy _ hq
    rw [hU.src_rev hG (hinv.blow.mem _ p2) p3, p1] at q4
    rw [hU.tgt_rev _ (hinv.blow.mem _ p2) e p3] at q1
    rw [← q1] at q4
    omega
  · exact (hU.nb_iff hG hu).mp (hok.same u ((hmem u).mpr hu) (hn u) v ((hmem v).mpr hv) (hn v) hc)
  · exact hinv.exact_.eq u ((hmem u).mpr hu) (hn u) v ((hmem v).mpr hv) (hn v) ((hU.nb_iff hG hu).mpr hc)
  · rintro ⟨v, hv, rfl⟩
    exact hok.range v ((hmem v).mpr hv) (hn v)
  · rintro ⟨h1, h2⟩
    obtain ⟨y, y1, _, y3⟩ := hok.used k h1 h2
    exact ⟨y, (hmem y).mp y1, y3⟩

/-- Edges 0-1 twice, 1-2, loop at 2, 2-3, 3-4, 4-2, and the vertex 5: `(source, target, number)`. -/
def sampleBridges : Graph Nat (Nat × Nat × Nat) where
  vertices := [0, 1, 2, 3, 4, 5]
  out u := match u with
    | 0 => [(0, 1, 0), (0, 1, 1)]
    | 1 => [(1, 0, 1), (1, 0, 0), (1, 2, 2)]
    | 2 => [(2, 2, 6), (2, 3, 3), (2, 1, 2), (2, 4, 5)]
    | 3 => [(3, 2, 3), (3, 4, 4)]
    | 4 => [(4, 3, 4), (4, 2, 5)]
    | _ => []
  src e := e.1
  tgt e := e.2.1

theorem sampleBridges_wf : sampleBridges.WF := ⟨by decide, by decide, by decide⟩

theorem sampleBridges_undirected : sampleBridges.Undirected (fun e => (e.2.1, e.1, e.2.2)) :=
  ⟨fun _ => rfl, by decide, by decide, by decide⟩

/-- The only bridge is 1-2; the components are 2, 3, 4; 0, 1; 5. -/
example : (findBridges sampleBridges true 50 (fun _ => 9)).map (fun r => (r.1, sampleBridges.vertices.map r.2)) =
    some ([(1, 2, 2)], [1, 1, 0, 0, 0, 2]) := by decide +kernel

/-- Told that there are no parallel edges although there are, the search outputs one of them: the
condition on `par` is needed. -/
example : (findBridges sampleBridges false 50 (fun _ => 9)).map (fun r => r.1) = some [(1, 2, 2), (0, 1, 0)] := by
  decide +kernel

end Actl.Traversal
