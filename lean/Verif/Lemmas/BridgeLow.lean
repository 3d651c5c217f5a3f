import Verif.Lemmas.CompStack
import Verif.Lemmas.DfsAll
import Verif.Lemmas.RecorderTracks
import Verif.Spec.Bridges

/-!
Invariants of the search for bridges.
-/

namespace Actl.Traversal

variable {V E : Type} [DecidableEq V] {G : Graph V E} {rev : E → E}

namespace Graph.Undirected

theorem src_rev (hU : G.Undirected rev) (hG : G.WF) {u : V} (hu : u ∈ G.vertices) {e : E} (he : e ∈ G.out u) :
    G.src (rev e) = G.tgt e := hG.src _ (hG.tgt u hu e he) _ (hU.mem_rev u hu e he)

theorem without_symm (hU : G.Undirected rev) {e : E} {x y : V} (hx : x ∈ G.vertices)
    (h : G.AdjWithout rev e x y) : G.AdjWithout rev e y x := by
  obtain ⟨f, hf, rfl, h1, h2⟩ := h
  refine ⟨rev f, hU.mem_rev x hx f hf, hU.tgt_rev x hx f hf, fun h => h2 ?_, fun h => h1 ?_⟩
  · rw [← h, hU.invol]
  · rw [← hU.invol f, h, hU.invol]

theorem reachWithout_symm (hU : G.Undirected rev) (hG : G.WF) {e : E} {x y : V} (hx : x ∈ G.vertices)
    (h : G.ReachWithout rev e x y) : y ∈ G.vertices ∧ G.ReachWithout rev e y x := by
  induction h with
  | refl => exact ⟨hx, .refl⟩
  | tail _ hadj ih =>
    obtain ⟨hm, hr⟩ := ih
    refine ⟨?_, .head (hU.without_symm hm hadj) hr⟩
    obtain ⟨f, hf, rfl, _⟩ := hadj
    exact hG.tgt _ hm f hf

theorem without_rev (hU : G.Undirected rev) (e : E) : G.AdjWithout rev (rev e) = G.AdjWithout rev e := by
  funext x y
  unfold Graph.AdjWithout
  rw [hU.invol]
  refine propext ⟨?_, ?_⟩ <;> rintro ⟨f, a, b, c, d⟩ <;> exact ⟨f, a, b, d, c⟩

theorem bridge_rev (hU : G.Undirected rev) (hG : G.WF) {u : V} (hu : u ∈ G.vertices) {e : E} (he : e ∈ G.out u) :
    G.Bridge rev (rev e) ↔ G.Bridge rev e := by
  unfold Graph.Bridge Graph.ReachWithout
  rw [hU.without_rev, hU.src_rev hG hu he, hU.tgt_rev u hu e he, hG.src u hu e he]
  exact not_congr ⟨fun h => (hU.reachWithout_symm hG (hG.tgt u hu e he) h).2,
    fun h => (hU.reachWithout_symm hG hu h).2⟩

end Graph.Undirected

/-- The invariant of the times.  `P` is the path of the search, current vertex first; `T` tells when
discovered vertices were started, `pe` the tree edge to a discovered vertex. -/
structure BLow (G : Graph V E) (rev : E → E) (T : V → Int) (pe : V → Option E) (P : List V) (D : Set V)
    (low : V → Int) (nr : V → Bool) (now : Int) : Prop where
  pos : 0 ≤ now
  times : ∀ x ∈ D, 1 ≤ T x ∧ T x ≤ now
  inj : ∀ x ∈ D, ∀ y ∈ D, T x = T y → x = y
  incr : P.Pairwise (fun x y => T y < T x)
  gray : ∀ x ∈ P, x ∈ D
  mem : ∀ x ∈ D, x ∈ G.vertices
  pe_spec : ∀ x ∈ D, ∀ e, pe x = some e → G.tgt e = x ∧ G.src e ∈ D ∧ e ∈ G.out (G.src e) ∧ T (G.src e) < T x ∧
    ∀ w ∈ P, T w < T x → T w ≤ T (G.src e)
  pe_none : ∀ x ∈ D, pe x = none → ∀ w ∈ P, T x ≤ T w
  low_pos : ∀ x ∈ D, 1 ≤ low x ∧ low x ≤ T x
  white : ∀ x, x ∉ D → nr x = false
  root : ∀ x ∈ D, (nr x = true ↔ low x ≠ T x)
  lows : ∀ x ∈ P, ∃ a ∈ P, low x = T a ∧
    ∀ z ∈ P, ∀ e, pe z = some e → T a < T z → T z ≤ T x → G.ReachWithout rev e x a
  closed : ∀ y ∈ D, y ∉ P → ∀ f ∈ G.out y, G.tgt f ∈ D ∧ ∀ w ∈ P, T y < T w → T (G.tgt f) < T w
  own : ∀ y ∈ D, y ∉ P → ∀ w ∈ P, T w < T y → (∀ w' ∈ P, T w < T w' → T y < T w') → low w ≤ low y
  done : ∀ y ∈ D, y ∉ P → ∀ f ∈ G.out y, pe y ≠ some (rev f) → low y ≤ T (G.tgt f)

variable {T : V → Int} {pe : V → Option E} {P : List V} {D : Set V} {low : V → Int} {nr : V → Bool} {now : Int}

/-- Up the tree to a vertex of the path. -/
theorem BLow.climb (hU : G.Undirected rev) (h : BLow G rev T pe P D low nr now) {w : V} (hw : w ∈ P) {y : V} (hy : y ∈ D)
    (hwy : T w ≤ T y) (e : E)
    (he : ∀ x ∈ D, T x ≤ T y → T w < T x → pe x ≠ some e ∧ pe x ≠ some (rev e)) : G.ReachWithout rev e y w := by
  induction hn : (T y - T w).toNat using Nat.strong_induction_on generalizing y with
  | _ n ih =>
    by_cases heq : T w = T y
    · rw [h.inj w (h.gray w hw) y hy heq]; exact .refl
    · cases hp : pe y with
      | none => exact absurd (h.pe_none y hy hp w hw) (by omega)
      | some g =>
        obtain ⟨h1, h2, h3, h4, h5⟩ := h.pe_spec y hy g hp
        have h6 := h5 w hw (by omega)
        obtain ⟨n1, n2⟩ := he y hy (Int.le_refl _) (by omega)
        rw [hp] at n1 n2
        refine .head (b := G.src g) ⟨rev g, ?_, ?_, fun hh => n2 ?_, fun hh => n1 ?_⟩ ?_
        · have := hU.mem_rev _ (h.mem _ h2) g h3
          rwa [h1] at this
        · exact hU.tgt_rev _ (h.mem _ h2) g h3
        · rw [← hh, hU.invol]
        · rw [← hU.invol g, hh, hU.invol]
        · exact ih _ (by omega) h2 h6 (fun x hx hx1 hx2 => he x hx (by omega) hx2) rfl

/-- Up the path, avoiding the tree edge to a later vertex. -/
theorem BLow.up (hU : G.Undirected rev) (hG : G.WF) (h : BLow G rev T pe P D low nr now) {a t z : V} (ha : a ∈ P) (ht : t ∈ D)
    (hz : z ∈ D) (hat : T a ≤ T t) (htz : T t < T z) {e : E} (he : pe z = some e) : G.ReachWithout rev e t a := by
  refine h.climb hU ha ht hat e (fun x hx h1 _ => ⟨fun hp => ?_, fun hp => ?_⟩)
  · have := (h.pe_spec x hx e hp).1
    rw [(h.pe_spec z hz e he).1] at this
    subst this
    omega
  · obtain ⟨a1, a2, a3, a4, _⟩ := h.pe_spec z hz e he
    obtain ⟨b1, b2, b3, b4, _⟩ := h.pe_spec x hx _ hp
    rw [hU.src_rev hG (h.mem _ a2) a3, a1] at b4
    omega

/-- A lower time for a vertex of the path. -/
theorem BLow.lower (h : BLow G rev T pe P D low nr now) {u a : V} (hu : u ∈ P) (ha : a ∈ P) (hlt : T a < low u)
    (hr : ∀ z ∈ P, ∀ e, pe z = some e → T a < T z → T z ≤ T u → G.ReachWithout rev e u a) :
    BLow G rev T pe P D (put low u (T a)) (put nr u true) now := by
  have hle : ∀ x, put low u (T a) x ≤ low x := by
    intro x
    unfold put
    split
    · rename_i hx; subst hx; omega
    · exact Int.le_refl _
  refine ⟨h.pos, h.times, h.inj, h.incr, h.gray, h.mem, h.pe_spec, h.pe_none, fun x hx => ?_, fun x hx => ?_, fun x hx => ?_,
    fun x hx => ?_, h.closed, fun y hy hn w hw h1 h2 => ?_, fun y hy hn f hf hp => ?_⟩
  · have h1 := h.low_pos x hx
    have h2 := hle x
    refine ⟨?_, by omega⟩
    unfold put
    split
    · exact (h.times a (h.gray a ha)).1
    · exact h1.1
  · have hxu : x ≠ u := fun hh => hx (hh ▸ h.gray u hu)
    simp only [put, hxu, if_false]
    exact h.white x hx
  · by_cases hxu : x = u
    · subst hxu
      have := h.low_pos x hx
      simp only [put, if_true, true_iff]
      omega
    · simp only [put, hxu, if_false]
      exact h.root x hx
  · by_cases hxu : x = u
    · subst hxu
      exact ⟨a, ha, by simp [put], hr⟩
    · obtain ⟨b, hb, b1, b2⟩ := h.lows x hx
      exact ⟨b, hb, by simp only [put, hxu, if_false]; exact b1, b2⟩
  · have hyu : y ≠ u := fun hh => hn (hh ▸ hu)
    have h3 := h.own y hy hn w hw h1 h2
    have h4 := hle w
    simp only [put, hyu, if_false] at h4 ⊢
    exact Int.le_trans h4 h3
  · have hyu : y ≠ u := fun hh => hn (hh ▸ hu)
    simp only [put, hyu, if_false]
    exact h.done y hy hn f hf hp

/-- The target of a non-tree edge of the current vertex. -/
theorem BLow.target (hU : G.Undirected rev) (h : BLow G rev T pe P D low nr now) {u : V} (hu : u ∈ P)
    (hhead : ∀ x ∈ P, T x ≤ T u) {f : E} (hf : f ∈ G.out u) (ht : G.tgt f ∈ D) :
    G.tgt f ∈ P ∨ G.tgt f ∉ P ∧ T u < T (G.tgt f) ∧ low u ≤ low (G.tgt f) := by
  by_cases hP : G.tgt f ∈ P
  · exact Or.inl hP
  · have hum := h.mem u (h.gray u hu)
    have hlt : T u < T (G.tgt f) := by
      by_contra hge
      have hne : T u ≠ T (G.tgt f) := fun hh => hP (h.inj u (h.gray u hu) _ ht hh ▸ hu)
      have h1 := (h.closed _ ht hP (rev f) (hU.mem_rev u hum f hf)).2 u hu (by omega)
      rw [hU.tgt_rev u hum f hf] at h1
      omega
    exact Or.inr ⟨hP, hlt, h.own _ ht hP u hu hlt (fun w hw h1 => absurd (hhead w hw) (by omega))⟩

/-- Entering a vertex. -/
theorem BLow.enter (h : BLow G rev T pe P D low nr now) {v : V} (hv : v ∈ G.vertices) (hD : v ∉ D)
    (o : Option E) (ho : ∀ e, o = some e → G.tgt e = v ∧ G.src e ∈ P ∧ e ∈ G.out (G.src e) ∧ ∀ w ∈ P, T w ≤ T (G.src e))
    (hnone : o = none → P = []) :
    BLow G rev (put T v (now + 1)) (put pe v o) (v :: P) (insert v D) (put low v (now + 1)) nr (now + 1) := by
  have hne : ∀ x ∈ D, x ≠ v := fun x hx hxv => hD (hxv ▸ hx)
  have hT : ∀ x ∈ D, put T v (now + 1) x = T x := fun x hx => by simp [put, hne x hx]
  have hpe : ∀ x ∈ D, put pe v o x = pe x := fun x hx => by simp [put, hne x hx]
  have hlow : ∀ x ∈ D, put low v (now + 1) x = low x := fun x hx => by simp [put, hne x hx]
  have hTv : put T v (now + 1) v = now + 1 := by simp [put]
  have hpv : put pe v o v = o := by simp [put]
  have hlv : put low v (now + 1) v = now + 1 := by simp [put]
  have hpos := h.pos
  have hmax : ∀ x ∈ D, T x < now + 1 := fun x hx => by have := h.times x hx; omega
  refine ⟨by omega, ?_, ?_, ?_, ?_, ?_, ?_, ?_, ?_, ?_, ?_, ?_, ?_, ?_, ?_⟩
  · intro x hx0
    rcases Set.mem_insert_iff.mp hx0 with rfl | hx
    · rw [hTv]; omega
    · rw [hT x hx]; have := h.times x hx; omega
  · intro x hx0 y hy0 he
    rcases Set.mem_insert_iff.mp hx0 with rfl | hx
    · rcases Set.mem_insert_iff.mp hy0 with rfl | hy
      · rfl
      · rw [hTv, hT y hy] at he
        have := hmax y hy; omega
    · rcases Set.mem_insert_iff.mp hy0 with rfl | hy
      · rw [hTv, hT x hx] at he
        have := hmax x hx; omega
      · rw [hT x hx, hT y hy] at he
        exact h.inj x hx y hy he
  · refine List.pairwise_cons.mpr ⟨fun x hx => ?_, ?_⟩
    · rw [hTv, hT x (h.gray x hx)]; exact hmax x (h.gray x hx)
    · refine h.incr.imp_of_mem (fun {a b} ha hb hab => ?_)
      rw [hT _ (h.gray _ ha), hT _ (h.gray _ hb)]
      exact hab
  · intro x hx
    rcases List.mem_cons.mp hx with rfl | hx
    · exact Set.mem_insert _ _
    · exact Set.mem_insert_of_mem _ (h.gray x hx)
  · intro x hx0
    rcases Set.mem_insert_iff.mp hx0 with rfl | hx
    · exact hv
    · exact h.mem x hx
  · intro x hx0 e he
    rcases Set.mem_insert_iff.mp hx0 with rfl | hx
    · rw [hpv] at he
      obtain ⟨h1, h2, h3, h4⟩ := ho e he
      have h5 := h.gray _ h2
      refine ⟨h1, Set.mem_insert_of_mem _ h5, h3, ?_, fun w hw h6 => ?_⟩
      · rw [hTv, hT _ h5]; exact hmax _ h5
      · rcases List.mem_cons.mp hw with rfl | hw
        · omega
        · rw [hT _ h5, hT w (h.gray w hw)]; exact h4 w hw
    · rw [hpe x hx] at he
      obtain ⟨h1, h2, h3, h4, h5⟩ := h.pe_spec x hx e he
      refine ⟨h1, Set.mem_insert_of_mem _ h2, h3, by rw [hT x hx, hT _ h2]; exact h4, fun w hw h6 => ?_⟩
      rw [hT x hx] at h6
      rcases List.mem_cons.mp hw with rfl | hw
      · rw [hTv] at h6
        have := hmax x hx
        omega
      · rw [hT w (h.gray w hw)] at h6
        rw [hT _ h2, hT w (h.gray w hw)]; exact h5 w hw h6
  · intro x hx0 he w hw
    rcases Set.mem_insert_iff.mp hx0 with rfl | hx
    · rw [hpv] at he
      rw [hnone he] at hw
      rw [List.mem_singleton.mp hw]
    · rw [hpe x hx] at he
      rw [hT x hx]
      rcases List.mem_cons.mp hw with rfl | hw
      · rw [hTv]; have := hmax x hx; omega
      · rw [hT w (h.gray w hw)]; exact h.pe_none x hx he w hw
  · intro x hx0
    rcases Set.mem_insert_iff.mp hx0 with rfl | hx
    · rw [hTv, hlv]; omega
    · rw [hT x hx, hlow x hx]; exact h.low_pos x hx
  · intro x hx
    exact h.white x (fun hh => hx (Set.mem_insert_of_mem _ hh))
  · intro x hx0
    rcases Set.mem_insert_iff.mp hx0 with rfl | hx
    · rw [hTv, hlv, h.white x hD]; simp
    · rw [hT x hx, hlow x hx]; exact h.root x hx
  · intro x hx
    rcases List.mem_cons.mp hx with rfl | hx
    · exact ⟨x, List.mem_cons_self, by rw [hTv, hlv], fun z _ e _ h1 h2 => by omega⟩
    · obtain ⟨a, ha, a1, a2⟩ := h.lows x hx
      have hxD := h.gray x hx
      refine ⟨a, List.mem_cons_of_mem _ ha, by rw [hlow x hxD, hT a (h.gray a ha)]; exact a1, fun z hz e he h1 h2 => ?_⟩
      rw [hT x hxD] at h2
      rw [hT a (h.gray a ha)] at h1
      rcases List.mem_cons.mp hz with rfl | hz
      · rw [hTv] at h2
        have := hmax x hxD
        omega
      · rw [hT z (h.gray z hz)] at h1 h2
        rw [hpe z (h.gray z hz)] at he
        exact a2 z hz e he h1 h2
  · intro y hy0 hn0 f hf
    have hn := not_or.mp (fun h => hn0 (List.mem_cons.mpr h))
    have hy := (Set.mem_insert_iff.mp hy0).resolve_left hn.1
    obtain ⟨c1, c2⟩ := h.closed y hy hn.2 f hf
    refine ⟨Set.mem_insert_of_mem _ c1, fun w hw h1 => ?_⟩
    rw [hT _ c1]
    rcases List.mem_cons.mp hw with rfl | hw
    · rw [hTv]; exact hmax _ c1
    · rw [hT y hy, hT w (h.gray w hw)] at h1
      rw [hT w (h.gray w hw)]; exact c2 w hw h1
  · intro y hy0 hn0 w hw h1 h2
    have hn := not_or.mp (fun h => hn0 (List.mem_cons.mpr h))
    have hy := (Set.mem_insert_iff.mp hy0).resolve_left hn.1
    rw [hlow y hy]
    rw [hT y hy] at h1
    rcases List.mem_cons.mp hw with rfl | hw
    · rw [hTv] at h1
      have := hmax y hy
      omega
    · rw [hT w (h.gray w hw)] at h1
      rw [hlow w (h.gray w hw)]
      refine h.own y hy hn.2 w hw h1 (fun w' hw' h3 => ?_)
      have := h2 w' (List.mem_cons_of_mem _ hw') (by rw [hT w (h.gray w hw), hT w' (h.gray w' hw')]; exact h3)
      rwa [hT y hy, hT w' (h.gray w' hw')] at this
  · intro y hy0 hn0 f hf hp
    have hn := not_or.mp (fun h => hn0 (List.mem_cons.mpr h))
    have hy := (Set.mem_insert_iff.mp hy0).resolve_left hn.1
    rw [hpe y hy] at hp
    rw [hlow y hy, hT _ (h.closed y hy hn.2 f hf).1]
    exact h.done y hy hn.2 f hf hp

/-- Leaving a vertex whose edges have all been examined. -/
theorem BLow.drop {v : V} (h : BLow G rev T pe (v :: P) D low nr now)
    (hclosed : ∀ f ∈ G.out v, G.tgt f ∈ D) (hdone : ∀ f ∈ G.out v, pe v ≠ some (rev f) → low v ≤ T (G.tgt f))
    (hlow : ∀ w ∈ P, (∀ w' ∈ P, T w' ≤ T w) → low w ≤ low v) : BLow G rev T pe P D low nr now := by
  have hinc := List.pairwise_cons.mp h.incr
  refine ⟨h.pos, h.times, h.inj, hinc.2, fun x hx => h.gray x (List.mem_cons_of_mem _ hx), h.mem, fun x hx e he => ?_,
    fun x hx he w hw => h.pe_none x hx he w (List.mem_cons_of_mem _ hw), h.low_pos, h.white, h.root, fun x hx => ?_,
    fun y hy hn f hf => ?_, fun y hy hn w hw h1 h2 => ?_, fun y hy hn f hf hp => ?_⟩
  · obtain ⟨h1, h2, h3, h4, h5⟩ := h.pe_spec x hx e he
    exact ⟨h1, h2, h3, h4, fun w hw => h5 w (List.mem_cons_of_mem _ hw)⟩
  · obtain ⟨a, ha, a1, a2⟩ := h.lows x (List.mem_cons_of_mem _ hx)
    have hle := (h.low_pos x (h.gray x (List.mem_cons_of_mem _ hx))).2
    have hxv := hinc.1 x hx
    refine ⟨a, ?_, a1, fun z hz => a2 z (List.mem_cons_of_mem _ hz)⟩
    rcases List.mem_cons.mp ha with rfl | ha
    · omega
    · exact ha
  · by_cases hyv : y = v
    · subst hyv
      refine ⟨hclosed f hf, fun w hw h1 => ?_⟩
      have := hinc.1 w hw
      omega
    · obtain ⟨c1, c2⟩ := h.closed y hy (fun hm => (List.mem_cons.mp hm).elim hyv hn) f hf
      exact ⟨c1, fun w hw => c2 w (List.mem_cons_of_mem _ hw)⟩
  · by_cases hyv : y = v
    · subst hyv
      refine hlow w hw (fun w' hw' => ?_)
      by_contra hh
      have h3 := h2 w' hw' (by omega)
      have := hinc.1 w' hw'
      omega
    · have hyn : y ∉ v :: P := fun hm => (List.mem_cons.mp hm).elim hyv hn
      by_cases hvy : T v < T y
      · -- now owned by the parent
        have h3 := h.own y hy hyn v List.mem_cons_self hvy (fun w' hw' h4 => by
          rcases List.mem_cons.mp hw' with rfl | hw'
          · omega
          · have := hinc.1 w' hw'; omega)
        refine Int.le_trans (hlow w hw (fun w' hw' => ?_)) h3
        by_contra hh
        have h4 := h2 w' hw' (by omega)
        have := hinc.1 w' hw'
        omega
      · refine h.own y hy hyn w (List.mem_cons_of_mem _ hw) h1 (fun w' hw' h4 => ?_)
        rcases List.mem_cons.mp hw' with rfl | hw'
        · have : T y ≠ T w' := fun hh => hyv (h.inj y hy w' (h.gray w' List.mem_cons_self) hh)
          omega
        · exact h2 w' hw' h4
  · by_cases hyv : y = v
    · subst hyv
      exact hdone f hf hp
    · exact h.done y hy (fun hm => (List.mem_cons.mp hm).elim hyv hn) f hf hp

end Actl.Traversal
