import Verif.Props.Articulation
import Verif.Lemmas.RecorderTracks

/-!
C51, what the code does mark: exactly which vertices, and the graphs for which this is wrong.
-/

namespace Actl.Traversal

variable {V E : Type} [DecidableEq V] {G : Graph V E}

theorem VisitAll.det {D D1 D2 : Set V} {us : List V} {l1 l2 : List (Event V E)} (h1 : VisitAll G D us l1 D1)
    (h2 : VisitAll G D us l2 D2) : l1 = l2 ∧ D1 = D2 := by
  induction h1 generalizing l2 D2 with
  | nil D => cases h2; exact ⟨rfl, rfl⟩
  | skip h r ih =>
    cases h2 with
    | skip h' r' => exact ih r'
    | visit h' v r' => exact absurd h h'
  | visit h v r ih =>
    cases h2 with
    | skip h' r' => exact absurd h' h
    | visit h' v' r' =>
      obtain ⟨l, w1, rfl⟩ := v
      obtain ⟨l', w2, rfl⟩ := v'
      obtain ⟨rfl, rfl⟩ := w1.det w2
      obtain ⟨rfl, rfl⟩ := ih r'
      exact ⟨rfl, rfl⟩

/-- The finder numbers vertices as `time_stamper` does, up to a constant. -/
theorem art_stamps (l : List (Event V E)) (s : ArtState V) (t : Stamps V) (h0 : 0 ≤ s.now)
    (h : ∀ x, s.time x ≠ 0 → t.inTime x = s.time x + (t.now - s.now - 1)) :
    ∃ c, ∀ x, (after (artFinder G) s l).time x ≠ 0 →
      (after (timeStamper (-1)) t l).inTime x = (after (artFinder G) s l).time x + c := by
  induction l generalizing s t with
  | nil => exact ⟨_, h⟩
  | cons ev l ih =>
    rw [after_cons, after_cons]
    cases ev with
    | init u =>
      refine ih _ _ h0 (fun x hx => ?_)
      show put t.inTime u (-1) x = put s.time u 0 x + (t.now - s.now - 1)
      have hx : put s.time u 0 x ≠ 0 := hx
      by_cases hxu : x = u
      · simp [put, hxu] at hx
      · simp only [put, hxu, if_false] at hx ⊢
        exact h x hx
    | start u =>
      refine ih _ _ (by show 0 ≤ s.now + 1; omega) (fun x hx => ?_)
      show put t.inTime u t.now x = put s.time u (s.now + 1) x + (t.now + 1 - (s.now + 1) - 1)
      have hx : put s.time u (s.now + 1) x ≠ 0 := hx
      by_cases hxu : x = u
      · simp only [put, hxu, if_true]
        omega
      · simp only [put, hxu, if_false] at hx ⊢
        have := h x hx
        omega
    | nonTree e =>
      rw [artNonTree]
      split
      · exact ih _ _ h0 h
      · exact ih _ _ h0 h
    | treeFinish e =>
      rw [artTreeFinish]
      split
      · split
        · exact ih _ _ h0 h
        · exact ih _ _ h0 h
      · exact ih _ _ h0 h
    | searchFinish u =>
      have e : (artFinder G).on (.searchFinish u) s =
        if s.rootChildren > 1 then { s with marks := put s.marks u true } else s := rfl
      rw [e]
      split
      · exact ih _ _ h0 h
      · exact ih _ _ h0 h
    | searchStart u => exact ih _ _ h0 h
    | discover u => exact ih _ _ h0 h
    | treeStart e => exact ih _ _ h0 h
    | finish u => exact ih _ _ h0 h

/-- The final state of the finder. -/
theorem art_final (hG : G.WF) (hS : G.Symmetric) {marks : V → Bool} {fuel : Nat} {res : V → Bool}
    (h : findArticulationPoints G fuel marks = some res) (p : V → Option V) :
    ∃ l D' s, VisitAll G ∅ G.vertices l D' ∧ (∀ v, v ∈ D' ↔ v ∈ G.vertices) ∧
      s = after (artFinder G) ⟨marks, fun _ => 0, fun _ => 0, none, 0, 0⟩ l ∧ s.marks = res ∧ ArtI s D' ∧
      AInv G marks (parentOf (after (predecessorRecorder G) p l)) [] D' s ∧
      (∀ a u b, G.vertices = a ++ u :: b → (∀ w ∈ a, ¬G.Reach w u) →
        parentOf (after (predecessorRecorder G) p l) u = none) ∧
      ∀ x ∈ G.vertices, parentOf (after (predecessorRecorder G) p l) x = none →
        ∃ a b, G.vertices = a ++ x :: b ∧ ∀ w ∈ a, ¬G.Reach w x := by
  obtain ⟨l, D', hva, hi, fuel', hf⟩ := dfsAll_ref (art_tracks (G := G)) hG ⟨marks, fun _ => 0, fun _ => 0, none, 0, 0⟩
    (by rw [art_initAll]; exact ⟨Int.le_refl 0, fun v => by simp⟩)
  rw [art_initAll] at hi hf
  obtain ⟨par, hinv, -, hroot, hpar, hnone⟩ :=
    hva.articulation hS hG _ (fun u hu => hu) _ (art_init marks (parentOf p))
  have hp := hpar p rfl
  rw [hp] at hinv hroot hnone
  have hmem : ∀ v, v ∈ D' ↔ v ∈ G.vertices := by
    intro v
    rw [hva.mem_iff]
    constructor
    · rintro ⟨u, hu, hr⟩
      exact hG.reach_mem hu hr
    · exact fun h => ⟨v, h, .refl⟩
  refine ⟨l, D', _, hva, hmem, rfl, ?_, hi, hinv, fun a u b hab ha => hroot a u b hab (Set.notMem_empty u) ha,
    fun x hx h0 => hnone x ((hmem x).mpr hx) (Set.notMem_empty x) h0⟩
  unfold findArticulationPoints at h
  split at h
  · cases h
  · rename_i s' hs'
    have := dfsAll_det _ _ _ _ _ _ hf hs'
    subst this
    injection h

theorem parentOf_eq_some {p : V → Option V} {v u : V} : parentOf p v = some u ↔ p v = some u ∧ v ≠ u := by
  unfold parentOf
  split
  · rename_i h
    rw [h]
    constructor
    · intro hh; cases hh
    · rintro ⟨h1, h2⟩
      injection h1 with h1
      exact absurd h1 h2
  · rename_i h
    constructor
    · intro h1
      exact ⟨h1, fun hh => h (hh ▸ h1)⟩
    · exact fun hh => hh.1

theorem AInv.low_iff {marks : V → Bool} {par : V → Option V} {D : Set V} {s : ArtState V} (h : AInv G marks par [] D s)
    {u v : V} (hv : v ∈ D) (hp : par v = some u) :
    s.time u ≤ s.low v ↔ ∀ w, G.Adj v w → s.time u ≤ s.time w := by
  obtain ⟨q1, q2, q3, -⟩ := h.alow.par_spec v hv u hp
  constructor
  · intro hle w hw
    exact Int.le_trans hle (h.alow.closed v hv List.not_mem_nil w hw).2.2
  · intro hall
    rcases h.alow.low_mem v hv with k | ⟨y, k1, k2, k3⟩
    · omega
    · rw [k3]; exact hall y k2

/-- Exactly which vertices `find_articulation_points` marks, in terms of what the recorders of a
depth-first search of the same graph say (`p`: the predecessors, a vertex where a search starts
being its own predecessor; `t`: the times of discovery).  A vertex where a search starts is marked
if its removal disconnects two of its neighbours.  Any other vertex is marked if it is the
predecessor of a vertex without edges to vertices discovered earlier than it. -/
theorem findArticulationPoints_char (hG : G.WF) (hS : G.Symmetric) {marks : V → Bool} {fuel : Nat} {res : V → Bool}
    (h : findArticulationPoints G fuel marks = some res) {n : Nat} {p0 p : V → Option V}
    (hp : dfsAll G (predecessorRecorder G) (fun _ => false) n p0 = some p) {m : Nat} {t0 t : Stamps V}
    (h0 : 0 ≤ t0.now) (ht : dfsAll G (timeStamper (-1)) (fun _ => false) m t0 = some t) (u : V) (hu : u ∈ G.vertices) :
    res u = true ↔ marks u = true ∨ (p u = some u ∧ G.Articulation u) ∨
      (p u ≠ some u ∧ ∃ v ∈ G.vertices, p v = some u ∧ ∀ w, G.Adj v w → t.inTime u ≤ t.inTime w) := by
  obtain ⟨l, D', s, hva, hmem, hs, hres, hI, hinv, -, -⟩ :=
    art_final hG hS h (initAll (predecessorRecorder G) G.vertices p0)
  -- the other two searches have the same events
  obtain ⟨l1, D1, hva1, hi1, f1, hf1⟩ := dfsAll_ref (pred_tracks (G := G)) hG p0 (pred_init p0)
  obtain ⟨rfl, rfl⟩ := hva.det hva1
  obtain ⟨l2, D2, hva2, -, f2, hf2⟩ := dfsAll_ref (stamp_tracks (G := G)) hG t0 (stamp_init t0 h0)
  obtain ⟨rfl, rfl⟩ := hva.det hva2
  have hpe := dfsAll_det _ _ _ _ _ _ hf1 hp
  have hte := dfsAll_det _ _ _ _ _ _ hf2 ht
  rw [hpe] at hinv hi1
  obtain ⟨c, hc⟩ := art_stamps (G := G) l ⟨marks, fun _ => 0, fun _ => 0, none, 0, 0⟩
    (initAll (timeStamper (-1) : Comp _ V E) G.vertices t0) (Int.le_refl 0) (fun x hx => absurd rfl hx)
  rw [hte, ← hs] at hc
  have htime : ∀ x ∈ G.vertices, t.inTime x = s.time x + c := fun x hx => hc x ((hI.2 x).mpr ((hmem x).mpr hx))
  have hm := hinv.marks
  have huD := (hmem u).mpr hu
  have hsome : ∃ w, p u = some w := Option.isSome_iff_exists.mp ((hi1 u hu).mpr huD)
  have hiff : ∀ v ∈ G.vertices, parentOf p v = some u →
      (s.time u ≤ s.low v ↔ ∀ w, G.Adj v w → t.inTime u ≤ t.inTime w) := by
    intro v hv hpv
    rw [hinv.low_iff ((hmem v).mpr hv) hpv]
    refine forall_congr' fun w => ⟨fun hh hw => ?_, fun hh hw => ?_⟩
    all_goals
      have hwv : w ∈ G.vertices := by
        obtain ⟨e, he, rfl⟩ := hw
        exact hG.tgt v hv e he
      have := hh hw
      rw [htime u hu, htime w hwv] at *
      omega
  rw [← hres]
  by_cases hr : p u = some u
  · have hnone : parentOf p u = none := by unfold parentOf; rw [if_pos hr]
    constructor
    · intro hk
      rcases hm.sound u hk with h1 | ⟨_, _, h3, _⟩
      · exact Or.inl h1
      · exact Or.inr (Or.inl ⟨hr, h3 hnone⟩)
    · rintro (h1 | ⟨_, h1⟩ | ⟨h1, _⟩)
      · exact hm.kept u h1
      · exact hm.complete u huD List.not_mem_nil h1
      · exact absurd hr h1
  · have hne : parentOf p u ≠ none := by
      unfold parentOf
      rw [if_neg hr]
      obtain ⟨w, hw⟩ := hsome
      rw [hw]; simp
    constructor
    · intro hk
      rcases hm.sound u hk with h1 | ⟨_, _, _, h4⟩
      · exact Or.inl h1
      · obtain ⟨v, k1, _, k3, k4⟩ := h4 hne
        have hv := (hmem v).mp k1
        exact Or.inr (Or.inr ⟨hr, v, hv, (parentOf_eq_some.mp k3).1, (hiff v hv k3).mp k4⟩)
    · rintro (h1 | ⟨h1, _⟩ | ⟨_, v, hv, h2, h3⟩)
      · exact hm.kept u h1
      · exact absurd h1 hr
      · have hvu : v ≠ u := fun hh => hr (hh ▸ h2)
        have hpv := parentOf_eq_some.mpr ⟨h2, hvu⟩
        exact hm.set v ((hmem v).mpr hv) List.not_mem_nil u hpv hne ((hiff v hv hpv).mpr h3)

theorem exists_min {D : List V} {T : V → Int} {Q : V → Prop} (hne : ∃ x ∈ D, Q x) :
    ∃ x ∈ D, Q x ∧ ∀ y ∈ D, Q y → T x ≤ T y := by
  classical
  induction D with
  | nil => obtain ⟨x, hx, -⟩ := hne; cases hx
  | cons a D ih =>
    by_cases hq : ∃ x ∈ D, Q x
    · obtain ⟨x, h1, h2, h3⟩ := ih hq
      by_cases ha : Q a ∧ T a < T x
      · refine ⟨a, List.mem_cons_self, ha.1, fun y hy hQ => ?_⟩
        rcases List.mem_cons.mp hy with rfl | hy
        · exact Int.le_refl _
        · have := h3 y hy hQ; omega
      · refine ⟨x, List.mem_cons_of_mem _ h1, h2, fun y hy hQ => ?_⟩
        rcases List.mem_cons.mp hy with rfl | hy
        · by_contra hlt
          exact ha ⟨hQ, by omega⟩
        · exact h3 y hy hQ
    · obtain ⟨x, hx, hQ⟩ := hne
      rcases List.mem_cons.mp hx with rfl | hx
      · refine ⟨x, List.mem_cons_self, hQ, fun y hy hQy => ?_⟩
        rcases List.mem_cons.mp hy with rfl | hy
        · exact Int.le_refl _
        · exact absurd ⟨y, hy, hQy⟩ hq
      · exact absurd ⟨x, hx, hQ⟩ hq

/-- The claim is false of every connected graph with three vertices or more, without triangles and
without articulation points (cycles of at least four vertices, grids, cubes): a vertex gets marked. -/
theorem findArticulationPoints_triangle_free (hG : G.WF) (hS : G.Symmetric)
    (hC : ∀ x ∈ G.vertices, ∀ y ∈ G.vertices, G.Reach x y) (h3 : 3 ≤ G.vertices.length) (hnd : G.vertices.Nodup)
    (hT : ∀ x y z, G.Adj x y → G.Adj y z → G.Adj x z → x = y ∨ y = z ∨ x = z)
    (hA : ∀ u ∈ G.vertices, ¬G.Articulation u) {fuel : Nat} {res : V → Bool}
    (h : findArticulationPoints G fuel (fun _ => false) = some res) : ∃ u ∈ G.vertices, res u = true := by
  obtain ⟨l, D', s, hva, hmem, hs, hres, hI, hinv, hroot, hnone⟩ := art_final hG hS h (fun _ => none)
  generalize parentOf (after (predecessorRecorder G) (fun _ => none) l) = par at hinv hroot hnone
  have hl := hinv.alow
  obtain ⟨r, rest, hv⟩ : ∃ r rest, G.vertices = r :: rest := by
    match hvs : G.vertices, h3 with
    | r :: rest, _ => exact ⟨r, rest, rfl⟩
  have hrV : r ∈ G.vertices := by rw [hv]; exact List.mem_cons_self
  have hpr : par r = none := hroot [] r rest hv (fun w hw => absurd hw List.not_mem_nil)
  have hothers : ∀ x ∈ G.vertices, x ≠ r → ∃ q, par x = some q := by
    intro x hx hxr
    cases hp : par x with
    | some q => exact ⟨q, rfl⟩
    | none =>
      obtain ⟨a, b, hab, hw⟩ := hnone x hx hp
      cases a with
      | nil =>
        rw [hv] at hab
        simp only [List.nil_append, List.cons.injEq] at hab
        exact absurd hab.1.symm hxr
      | cons y a =>
        rw [hv] at hab
        simp only [List.cons_append, List.cons.injEq] at hab
        exact absurd (hC r hrV x hx) (hab.1 ▸ hw y List.mem_cons_self)
  have hex : ∃ x ∈ G.vertices, ∃ y ∈ G.vertices, x ≠ r ∧ y ≠ r ∧ x ≠ y := by
    match rest, hv, h3 with
    | [], hv, h3 => rw [hv] at h3; simp at h3
    | [x], hv, h3 => rw [hv] at h3; simp at h3
    | x :: y :: _, hv, _ =>
      rw [hv] at hnd
      simp only [List.nodup_cons, List.mem_cons, not_or] at hnd
      exact ⟨x, by rw [hv]; simp, y, by rw [hv]; simp, fun hh => hnd.1.1 hh.symm, fun hh => hnd.1.2.1 hh.symm, hnd.2.1.1⟩
  obtain ⟨x, hx, y, hy, hxr, hyr, hxy⟩ := hex
  obtain ⟨c, hcV, hcr, hcmin⟩ := exists_min (T := s.time) (Q := fun z => z ≠ r) ⟨x, hx, hxr⟩
  have hv' : ∃ z ∈ G.vertices, z ≠ r ∧ z ≠ c := by
    by_cases hxc : x = c
    · exact ⟨y, hy, hyr, fun hh => hxy (hxc.trans hh.symm)⟩
    · exact ⟨x, hx, hxr, hxc⟩
  obtain ⟨v, hvV, ⟨hvr, hvc⟩, hvmin⟩ := exists_min (T := s.time) (Q := fun z => z ≠ r ∧ z ≠ c) hv'
  have hD : ∀ z ∈ G.vertices, z ∈ D' := fun z hz => (hmem z).mpr hz
  -- the second vertex is a child of the first
  obtain ⟨q, hq⟩ := hothers c hcV hcr
  obtain ⟨q1, q2, q3, -⟩ := hl.par_spec c (hD c hcV) q hq
  have hqr : q = r := by
    by_contra hne
    have := hcmin q ((hmem q).mp q1) hne
    omega
  rw [hqr] at hq q2 q3
  -- the third vertex is a child of the second
  obtain ⟨w, hw⟩ := hothers v hvV hvr
  obtain ⟨w1, w2, w3, -⟩ := hl.par_spec v (hD v hvV) w hw
  have hcv : s.time c < s.time v := by
    have h1 := hcmin v hvV hvr
    have h2 : s.time c ≠ s.time v := fun hh => hvc (hl.inj c (hD c hcV) v (hD v hvV) hh).symm
    omega
  have hwc : w = c := by
    by_contra hne
    have hwr : w = r := by
      by_contra hne2
      have := hvmin w ((hmem w).mp w1) ⟨hne2, hne⟩
      omega
    rw [hwr] at hw w2 w3
    refine hA r hrV ⟨c, v, q2, w2, hcr, hvr, fun hreach => ?_⟩
    have : ∀ z, G.ReachAvoid r c z → z ∈ D' ∧ s.time r < s.time z ∧ s.time z < s.time v := by
      intro z hz
      induction hz with
      | refl => exact ⟨hD c hcV, q3, hcv⟩
      | @tail b z _ hadj ih =>
        obtain ⟨i1, i2, i3⟩ := ih
        refine ⟨(hl.closed b i1 List.not_mem_nil z hadj.1).1, ?_⟩
        exact (hl.sep v (hD v hvV) r hw hpr b i1 i2 i3 z hadj.1).resolve_left hadj.2.2
    have := this v hreach
    omega
  rw [hwc] at hw w2 w3
  refine ⟨c, hcV, ?_⟩
  rw [← hres]
  refine hinv.marks.set v (hD v hvV) List.not_mem_nil c hw (by rw [hq]; simp) ?_
  rw [hinv.low_iff (hD v hvV) hw]
  intro z hz
  by_contra hlt
  have hzV : z ∈ G.vertices := by
    obtain ⟨e, he, rfl⟩ := hz
    exact hG.tgt v hvV e he
  have hzr : z = r := by
    by_contra hne
    have := hcmin z hzV hne
    omega
  rw [hzr] at hz
  rcases hT r c v q2 w2 (hS v hvV r hz) with h1 | h1 | h1
  · exact hcr h1.symm
  · exact hvc h1.symm
  · exact hvr h1.symm

/-- The four-cycle meets the hypotheses. -/
example : (∀ x ∈ fourCycle.vertices, ∀ y ∈ fourCycle.vertices, fourCycle.Reach x y) ∧ 3 ≤ fourCycle.vertices.length ∧
    fourCycle.vertices.Nodup ∧
    (∀ x y z, fourCycle.Adj x y → fourCycle.Adj y z → fourCycle.Adj x z → x = y ∨ y = z ∨ x = z) ∧
    ∀ u ∈ fourCycle.vertices, ¬fourCycle.Articulation u := by
  refine ⟨?_, by decide, by decide, ?_, findArticulationPoints_cycle.2.2.1⟩
  · have step : ∀ x ∈ fourCycle.vertices, fourCycle.Adj x ((x + 1) % 4) := by unfold Graph.Adj; decide +kernel
    have hm : ∀ x, (x + 1) % 4 ∈ fourCycle.vertices := fun x => by
      have : (x + 1) % 4 < 4 := Nat.mod_lt _ (by decide)
      show _ ∈ [0, 1, 2, 3]
      simp only [List.mem_cons, List.not_mem_nil, or_false]
      omega
    have many : ∀ n x, x ∈ fourCycle.vertices → fourCycle.Reach x ((x + n) % 4) := by
      intro n
      induction n with
      | zero =>
        intro x hx
        have : (x + 0) % 4 = x := by revert x; decide
        rw [this]; exact .refl
      | succ n ih =>
        intro x hx
        have := ih _ (hm x)
        rw [show ((x + 1) % 4 + n) % 4 = (x + (n + 1)) % 4 by omega] at this
        exact .head (step x hx) this
    intro x hx y hy
    have h2 : ∀ x ∈ fourCycle.vertices, ∀ y ∈ fourCycle.vertices, (x + (y + 4 - x)) % 4 = y := by decide
    have h1 := many (y + 4 - x) x hx
    rwa [h2 x hx y hy] at h1
  · have key : ∀ x ∈ fourCycle.vertices, ∀ e ∈ fourCycle.out x, ∀ f ∈ fourCycle.out (fourCycle.tgt e), ∀ g ∈ fourCycle.out x,
        fourCycle.tgt g = fourCycle.tgt f → x = fourCycle.tgt e ∨ fourCycle.tgt e = fourCycle.tgt f ∨ x = fourCycle.tgt f := by
      decide +kernel
    rintro x _ _ ⟨e, he, rfl⟩ ⟨f, hf, rfl⟩ ⟨g, hg, hgf⟩
    by_cases hx : x ∈ fourCycle.vertices
    · exact key x hx e he f hf g hg hgf
    · exfalso
      have : fourCycle.out x = [] := by
        match x, hx with
        | 0, hx => exact absurd (by decide) hx
        | 1, hx => exact absurd (by decide) hx
        | 2, hx => exact absurd (by decide) hx
        | 3, hx => exact absurd (by decide) hx
        | _ + 4, _ => rfl
      rw [this] at he; cases he

/-- The recorders on the four-cycle; 1 is marked for the sake of 2, whose neighbours are 1 and 3. -/
example : (dfsAll fourCycle (predecessorRecorder fourCycle) (fun _ => false) 30 fun _ => none).map (fun p => [0, 1, 2, 3].map p) =
      some [some 0, some 0, some 1, some 2] ∧
    (dfsAll fourCycle (timeStamper (-1)) (fun _ => false) 30 ⟨fun _ => 0, fun _ => 0, 0⟩).map (fun t => [0, 1, 2, 3].map t.inTime) =
      some [0, 1, 2, 3] ∧
    (findArticulationPoints fourCycle 30 fun _ => false).map (fun r => [0, 1, 2, 3].map r) = some [false, true, false, false] := by
  decide +kernel

end Actl.Traversal
