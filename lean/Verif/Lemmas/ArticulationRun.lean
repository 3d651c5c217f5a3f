import Verif.Lemmas.Articulation

/-!
The search for articulation points: runs.
-/

namespace Actl.Traversal

variable {V E : Type} [DecidableEq V] {G : Graph V E}
variable {par : V → Option V} {P : List V} {D : Set V} {marks0 : V → Bool}

/-- Both invariants. -/
structure AInv (G : Graph V E) (marks0 : V → Bool) (par : V → Option V) (P : List V) (D : Set V) (s : ArtState V) : Prop where
  alow : ALow G par P D s.time s.low s.now
  marks : AMarks G marks0 par P D s

theorem AMarks.congr_low {s : ArtState V} {u : V} {x : Int} (h : AMarks G marks0 par (u :: P) D s) :
    AMarks G marks0 par (u :: P) D { s with low := put s.low u x } := by
  refine ⟨h.kept, fun v hv hn w hw h1 h2 => ?_, fun w hw => ?_, h.complete, h.root, h.rootD, h.count⟩
  · have hvu : v ≠ u := fun hh => hn (by rw [hh]; exact List.mem_cons_self)
    simp only [put, hvu, if_false] at h2
    exact h.set v hv hn w hw h1 h2
  · refine (h.sound w hw).imp id (fun ⟨h1, h2, h3, h4⟩ => ⟨h1, h2, h3, fun hh => ?_⟩)
    obtain ⟨v, k1, k2, k3, k4⟩ := h4 hh
    have hvu : v ≠ u := fun hh => k2 (by rw [hh]; exact List.mem_cons_self)
    refine ⟨v, k1, k2, k3, ?_⟩
    simp only [put, hvu, if_false]
    exact k4

theorem artNonTree (G : Graph V E) (e : E) (s : ArtState V) :
    (artFinder G).on (.nonTree e) s =
      if s.time (G.tgt e) < s.low (G.src e) then { s with low := put s.low (G.src e) (s.time (G.tgt e)) } else s := rfl

theorem AInv.nonTree {s : ArtState V} {u : V} {e : E} (h : AInv G marks0 par (u :: P) D s) (hsrc : G.src e = u)
    (hadj : G.Adj u (G.tgt e)) (ht : G.tgt e ∈ D) :
    AInv G marks0 par (u :: P) D ((artFinder G).on (.nonTree e) s) ∧
    ((artFinder G).on (.nonTree e) s).time = s.time ∧
    (∀ x, ((artFinder G).on (.nonTree e) s).low x ≤ s.low x ∧ (x ≠ u → ((artFinder G).on (.nonTree e) s).low x = s.low x)) ∧
    ((artFinder G).on (.nonTree e) s).low u ≤ s.time (G.tgt e) := by
  rw [artNonTree, hsrc]
  by_cases hlt : s.time (G.tgt e) < s.low u
  · rw [if_pos hlt]
    refine ⟨⟨h.alow.relax ht hadj hlt, h.marks.congr_low⟩, rfl, fun x => ⟨?_, fun hx => by simp [put, hx]⟩, by simp [put]⟩
    by_cases hx : x = u
    · subst hx
      simp only [put, if_true]
      omega
    · simp [put, hx]
  · rw [if_neg hlt]
    exact ⟨h, rfl, fun x => ⟨Int.le_refl _, fun _ => rfl⟩, by omega⟩

theorem AInv.enterTree (hS : G.Symmetric) {s : ArtState V} {u v : V} (h : AInv G marks0 par (u :: P) D s)
    (hv : v ∈ G.vertices) (hD : v ∉ D) (hadj : G.Adj u v) :
    AInv G marks0 (put par v (some u)) (v :: u :: P) (insert v D) ((artFinder G).on (.start v) s) := by
  have hne : ∀ x ∈ D, x ≠ v := fun x hx hxv => hD (hxv ▸ hx)
  have hpar : ∀ x ∈ D, put par v (some u) x = par x := fun x hx => by simp [put, hne x hx]
  have hblack : ∀ x, x ∈ insert v D → x ∉ v :: u :: P → x ∈ D ∧ x ∉ u :: P := fun x hx hn => by
    have hn := not_or.mp (fun h => hn (List.mem_cons.mpr h))
    exact ⟨(Set.mem_insert_iff.mp hx).resolve_left hn.1, hn.2⟩
  have hm := h.marks
  refine ⟨h.alow.enter hv hD hS (some u) (fun p hp => ?_) (fun hh => by cases hh), hm.kept, ?_, ?_, ?_, ?_, fun r hr => Set.mem_insert_of_mem _ (hm.rootD r hr), ?_⟩
  · injection hp with hp
    subst hp
    exact ⟨List.mem_cons_self, hadj, h.alow.head_max⟩
  · intro x hx hn w hw h1 h2
    obtain ⟨hx, hn⟩ := hblack x hx hn
    rw [hpar x hx] at hw
    have hwD := (h.alow.par_spec x hx w hw).1
    rw [hpar w hwD] at h1
    have h2 : put s.time v (s.now + 1) w ≤ put s.low v (s.now + 1) x := h2
    simp only [put, hne x hx, hne w hwD, if_false] at h2
    exact hm.set x hx hn w hw h1 h2
  · intro x hx
    rcases hm.sound x hx with h1 | ⟨h1, h2, h3, h4⟩
    · exact Or.inl h1
    · refine Or.inr ⟨Set.mem_insert_of_mem _ h1, h2, by rw [hpar x h1]; exact h3, fun hh => ?_⟩
      rw [hpar x h1] at hh
      obtain ⟨w, k1, k2, k3, k4⟩ := h4 hh
      refine ⟨w, Set.mem_insert_of_mem _ k1, fun hh => (List.mem_cons.mp hh).elim (hne w k1) k2, by rw [hpar w k1]; exact k3, ?_⟩
      show put s.time v (s.now + 1) x ≤ put s.low v (s.now + 1) w
      simp only [put, hne x h1, hne w k1, if_false]
      exact k4
  · intro x hx hn
    obtain ⟨hx, hn⟩ := hblack x hx hn
    exact hm.complete x hx hn
  · intro r hr
    rcases List.mem_cons.mp hr with rfl | hr
    · simp only [put, if_true, reduceCtorEq, iff_false]
      intro hh
      exact hD (hm.rootD r hh)
    · rw [hpar r (h.alow.gray r hr)]
      exact hm.root r hr
  · intro r hr hrn
    rcases List.mem_cons.mp hr with rfl | hr
    · simp [put] at hrn
    · rw [hpar r (h.alow.gray r hr)] at hrn
      obtain ⟨cs, c1, c2, c3⟩ := hm.count r hr hrn
      refine ⟨cs, c1, c2, fun x => ⟨fun hx => ?_, fun hx => ?_⟩⟩
      · obtain ⟨k1, k2, k3⟩ := (c3 x).mp hx
        refine ⟨Set.mem_insert_of_mem _ k1, fun hh => ?_, by rw [hpar x k1]; exact k3⟩
        rcases List.mem_cons.mp hh with hh | hh
        · exact hne x k1 hh
        · exact k2 hh
      · obtain ⟨k1, k2⟩ := hblack x hx.1 hx.2.1
        rw [hpar x k1] at hx
        exact (c3 x).mpr ⟨k1, k2, hx.2.2⟩

theorem AInv.enterRoot (hS : G.Symmetric) {s : ArtState V} {v : V} (h : AInv G marks0 par [] D s)
    (hv : v ∈ G.vertices) (hD : v ∉ D) :
    AInv G marks0 (put par v none) [v] (insert v D) ((artFinder G).on (.start v) ((artFinder G).on (.searchStart v) s)) := by
  have hne : ∀ x ∈ D, x ≠ v := fun x hx hxv => hD (hxv ▸ hx)
  have hpar : ∀ x ∈ D, put par v none x = par x := fun x hx => by simp [put, hne x hx]
  have hpv : put par v none v = none := by simp [put]
  have hblack : ∀ x, x ∈ insert v D → x ∉ [v] → x ∈ D ∧ x ∉ ([] : List V) := fun x hx hn =>
    ⟨(Set.mem_insert_iff.mp hx).resolve_left (fun hh => hn (List.mem_singleton.mpr hh)), List.not_mem_nil⟩
  have hm := h.marks
  refine ⟨h.alow.enter hv hD hS none (fun p hp => by cases hp) (fun _ => rfl), hm.kept, ?_, ?_, ?_, ?_, ?_, ?_⟩
  · intro x hx hn w hw h1 h2
    obtain ⟨hx, hn⟩ := hblack x hx hn
    rw [hpar x hx] at hw
    have hwD := (h.alow.par_spec x hx w hw).1
    rw [hpar w hwD] at h1
    have h2 : put s.time v (s.now + 1) w ≤ put s.low v (s.now + 1) x := h2
    simp only [put, hne x hx, hne w hwD, if_false] at h2
    exact hm.set x hx hn w hw h1 h2
  · intro x hx
    rcases hm.sound x hx with h1 | ⟨h1, h2, h3, h4⟩
    · exact Or.inl h1
    · refine Or.inr ⟨Set.mem_insert_of_mem _ h1, h2, by rw [hpar x h1]; exact h3, fun hh => ?_⟩
      rw [hpar x h1] at hh
      obtain ⟨w, k1, k2, k3, k4⟩ := h4 hh
      refine ⟨w, Set.mem_insert_of_mem _ k1, fun hh => hne w k1 (List.mem_singleton.mp hh), by rw [hpar w k1]; exact k3, ?_⟩
      show put s.time v (s.now + 1) x ≤ put s.low v (s.now + 1) w
      simp only [put, hne x h1, hne w k1, if_false]
      exact k4
  · intro x hx hn
    obtain ⟨hx, hn⟩ := hblack x hx hn
    exact hm.complete x hx hn
  · intro r hr
    rw [List.mem_singleton.mp hr, hpv]
    exact ⟨fun _ => rfl, fun _ => rfl⟩
  · intro r hr
    have hr : some v = some r := hr
    injection hr with hr
    rw [← hr]
    exact Set.mem_insert _ _
  · intro r hr hrn
    refine ⟨[], List.nodup_nil, rfl, fun x => ⟨fun hx => absurd hx List.not_mem_nil, fun ⟨h1, h2, h3⟩ => ?_⟩⟩
    obtain ⟨k1, k2⟩ := hblack x h1 h2
    rw [hpar x k1, List.mem_singleton.mp hr] at h3
    exact absurd (h.alow.par_spec x k1 v h3).1 hD

theorem artTreeFinish (G : Graph V E) (e : E) (s : ArtState V) :
    (artFinder G).on (.treeFinish e) s =
      if s.time (G.src e) ≤ s.low (G.tgt e) then
        if some (G.src e) = s.root then { s with rootChildren := s.rootChildren + 1 }
        else { s with marks := put s.marks (G.src e) true }
      else s := rfl

theorem AInv.leave (hS : G.Symmetric) (hG : G.WF) {s : ArtState V} {u v : V} {e : E}
    (h : AInv G marks0 par (v :: u :: P) D s) (hsrc : G.src e = u) (htgt : G.tgt e = v) (hp : par v = some u)
    (hdone : ∀ z, G.Adj v z → z ∈ D ∧ s.low v ≤ s.time z) :
    AInv G marks0 par (u :: P) D ((artFinder G).on (.treeFinish e) s) ∧
    ((artFinder G).on (.treeFinish e) s).time = s.time ∧ ((artFinder G).on (.treeFinish e) s).low = s.low := by
  have hl := h.alow
  have hm := h.marks
  have hvD := hl.gray v List.mem_cons_self
  have huD := hl.gray u (by simp)
  have hinc := List.pairwise_cons.mp hl.incr
  have huv := hinc.1 u List.mem_cons_self
  have hvP : v ∉ u :: P := fun hh => by have := hinc.1 v hh; omega
  obtain ⟨q1, q2, q3, q4⟩ := hl.par_spec v hvD u hp
  have hl' := hl.drop hdone
  have hcompl : G.Articulation v → s.marks v = true := hl.complete hS hG hm hdone hp
  have hblack : ∀ x, x ∈ D → x ∉ u :: P → x = v ∨ x ∉ v :: u :: P := fun x _ hn => by
    by_cases hxv : x = v
    · exact Or.inl hxv
    · exact Or.inr (fun hh => (List.mem_cons.mp hh).elim hxv hn)
  -- children of the root come with every finished child
  have hrootle : par u = none → s.time u ≤ s.low v := by
    intro hu
    rcases hl.low_mem v hvD with k | ⟨y, k1, k2, k3⟩
    · omega
    · rw [k3]
      by_contra hlt
      have hy := hl.before hS (w := u) (by simp) k1 (by omega) hvD (Int.le_of_lt huv) k2
      have := hl.par_none u huD hu y hy
      omega
  have hsound : ∀ x, s.marks x = true → marks0 x = true ∨ x ∈ D ∧ G.Gap x ∧ (par x = none → G.Articulation x) ∧
      (par x ≠ none → ∃ w ∈ D, w ∉ u :: P ∧ par w = some x ∧ s.time x ≤ s.low w) := fun x hx =>
    (hm.sound x hx).imp id (fun ⟨h1, h2, h3, h4⟩ => ⟨h1, h2, h3, fun hh => by
      obtain ⟨w, k1, k2, k3⟩ := h4 hh
      exact ⟨w, k1, fun hh => k2 (List.mem_cons_of_mem _ hh), k3⟩⟩)
  rw [artTreeFinish, hsrc, htgt]
  by_cases hle : s.time u ≤ s.low v
  · rw [if_pos hle]
    by_cases hroot : some u = s.root
    · rw [if_pos hroot]
      have hun := (hm.root u (by simp)).mp hroot.symm
      refine ⟨⟨hl', hm.kept, fun x hx hn w hw h1 h2 => ?_, hsound, fun x hx hn hA => ?_,
        fun r hr => hm.root r (List.mem_cons_of_mem _ hr), hm.rootD, fun r hr hrn => ?_⟩, rfl, rfl⟩
      · rcases hblack x hx hn with rfl | hn'
        · rw [hp] at hw
          injection hw with hw
          exact absurd (hw ▸ hun) h1
        · exact hm.set x hx hn' w hw h1 h2
      · rcases hblack x hx hn with rfl | hn'
        · exact hcompl hA
        · exact hm.complete x hx hn' hA
      · have hru : r = u := by
          have := (hm.root r (List.mem_cons_of_mem _ hr)).mpr hrn
          rw [← hroot] at this
          injection this with this
          exact this.symm
        subst hru
        obtain ⟨cs, c1, c2, c3⟩ := hm.count r (List.mem_cons_of_mem _ hr) hrn
        have hvc : v ∉ cs := fun hh => ((c3 v).mp hh).2.1 List.mem_cons_self
        refine ⟨v :: cs, List.nodup_cons.mpr ⟨hvc, c1⟩, ?_, fun x => ⟨fun hx => ?_, fun ⟨k1, k2, k3⟩ => ?_⟩⟩
        · simp only [List.length_cons, c2]
          omega
        · rcases List.mem_cons.mp hx with rfl | hx
          · exact ⟨hvD, hvP, hp⟩
          · obtain ⟨k1, k2, k3⟩ := (c3 x).mp hx
            exact ⟨k1, fun hh => k2 (List.mem_cons_of_mem _ hh), k3⟩
        · rcases hblack x k1 k2 with rfl | k2'
          · exact List.mem_cons_self
          · exact List.mem_cons_of_mem _ ((c3 x).mpr ⟨k1, k2', k3⟩)
    · rw [if_neg hroot]
      have hun : par u ≠ none := fun hh => hroot ((hm.root u (by simp)).mpr hh).symm
      have hput : ∀ x, s.marks x = true → put s.marks u true x = true := by
        intro x hx
        unfold put
        split
        · rfl
        · exact hx
      refine ⟨⟨hl', fun x hx => hput x (hm.kept x hx), fun x hx hn w hw h1 h2 => ?_, fun x hx => ?_, fun x hx hn hA => ?_,
        fun r hr => hm.root r (List.mem_cons_of_mem _ hr), hm.rootD, fun r hr hrn => ?_⟩, rfl, rfl⟩
      · rcases hblack x hx hn with rfl | hn'
        · rw [hp] at hw
          injection hw with hw
          simp [put, hw]
        · exact hput w (hm.set x hx hn' w hw h1 h2)
      · by_cases hxu : x = u
        · subst hxu
          refine Or.inr ⟨huD, ?_, fun hh => absurd hh hun, fun _ => ⟨v, hvD, hvP, hp, hle⟩⟩
          cases hpu : par x with
          | none => exact absurd hpu hun
          | some p =>
            obtain ⟨r1, r2, r3, r4⟩ := hl.par_spec x huD p hpu
            refine ⟨v, p, q2, hS p (hl.mem p r1) x r2, fun hh => ?_, fun hh => ?_, fun hh => ?_, fun hh => ?_⟩
            · rw [hh] at q3; omega
            · rw [hh] at r3; omega
            · rw [hh] at q3; omega
            · have := (hdone p hh).2
              omega
        · have hx : put s.marks u true x = true := hx
          simp only [put, hxu, if_false] at hx
          exact hsound x hx
      · rcases hblack x hx hn with rfl | hn'
        · exact hput x (hcompl hA)
        · exact hput x (hm.complete x hx hn' hA)
      · obtain ⟨cs, c1, c2, c3⟩ := hm.count r (List.mem_cons_of_mem _ hr) hrn
        refine ⟨cs, c1, c2, fun x => ⟨fun hx => ?_, fun ⟨k1, k2, k3⟩ => ?_⟩⟩
        · obtain ⟨k1, k2, k3⟩ := (c3 x).mp hx
          exact ⟨k1, fun hh => k2 (List.mem_cons_of_mem _ hh), k3⟩
        · rcases hblack x k1 k2 with rfl | k2'
          · rw [hp] at k3
            injection k3 with k3
            exact absurd (k3 ▸ hrn) hun
          · exact (c3 x).mpr ⟨k1, k2', k3⟩
  · rw [if_neg hle]
    have hun : par u ≠ none := fun hh => hle (hrootle hh)
    refine ⟨⟨hl', hm.kept, fun x hx hn w hw h1 h2 => ?_, hsound, fun x hx hn hA => ?_,
      fun r hr => hm.root r (List.mem_cons_of_mem _ hr), hm.rootD, fun r hr hrn => ?_⟩, rfl, rfl⟩
    · rcases hblack x hx hn with rfl | hn'
      · rw [hp] at hw
        injection hw with hw
        rw [← hw] at h2
        exact absurd h2 hle
      · exact hm.set x hx hn' w hw h1 h2
    · rcases hblack x hx hn with rfl | hn'
      · exact hcompl hA
      · exact hm.complete x hx hn' hA
    · obtain ⟨cs, c1, c2, c3⟩ := hm.count r (List.mem_cons_of_mem _ hr) hrn
      refine ⟨cs, c1, c2, fun x => ⟨fun hx => ?_, fun ⟨k1, k2, k3⟩ => ?_⟩⟩
      · obtain ⟨k1, k2, k3⟩ := (c3 x).mp hx
        exact ⟨k1, fun hh => k2 (List.mem_cons_of_mem _ hh), k3⟩
      · rcases hblack x k1 k2 with rfl | k2'
        · rw [hp] at k3
          injection k3 with k3
          exact absurd (k3 ▸ hrn) hun
        · exact (c3 x).mpr ⟨k1, k2', k3⟩

theorem AInv.leaveRoot (hS : G.Symmetric) (hG : G.WF) {s : ArtState V} {r : V}
    (h : AInv G marks0 par [r] D s) (hp : par r = none) (hdone : ∀ z, G.Adj r z → z ∈ D ∧ s.low r ≤ s.time z) :
    AInv G marks0 par [] D ((artFinder G).on (.searchFinish r) s) := by
  have hl := h.alow
  have hm := h.marks
  have hrD := hl.gray r List.mem_cons_self
  obtain ⟨cs, c1, c2, c3⟩ := hm.count r List.mem_cons_self hp
  have hiff := hl.root_iff hS hG hp (fun z hz => (hdone z hz).1) c1 c3
  have hl' := hl.drop hdone
  have hsound : ∀ x, s.marks x = true → marks0 x = true ∨ x ∈ D ∧ G.Gap x ∧ (par x = none → G.Articulation x) ∧
      (par x ≠ none → ∃ w ∈ D, w ∉ ([] : List V) ∧ par w = some x ∧ s.time x ≤ s.low w) := fun x hx =>
    (hm.sound x hx).imp id (fun ⟨h1, h2, h3, h4⟩ => ⟨h1, h2, h3, fun hh => by
      obtain ⟨w, k1, k2, k3⟩ := h4 hh
      exact ⟨w, k1, List.not_mem_nil, k3⟩⟩)
  show AInv G marks0 par [] D (if s.rootChildren > 1 then { s with marks := put s.marks r true } else s)
  by_cases hgt : s.rootChildren > 1
  · rw [if_pos hgt]
    have hA := hiff.mpr (by omega)
    have hput : ∀ x, s.marks x = true → put s.marks r true x = true := by
      intro x hx
      unfold put
      split
      · rfl
      · exact hx
    refine ⟨hl', fun x hx => hput x (hm.kept x hx), fun x hx hn w hw h1 h2 => ?_, fun x hx => ?_, fun x hx hn hA => ?_,
      fun r hr => absurd hr List.not_mem_nil, hm.rootD, fun r hr => absurd hr List.not_mem_nil⟩
    · by_cases hxr : x = r
      · subst hxr
        rw [hp] at hw; cases hw
      · exact hput w (hm.set x hx (fun hh => hxr (List.mem_singleton.mp hh)) w hw h1 h2)
    · by_cases hxr : x = r
      · subst hxr
        exact Or.inr ⟨hrD, hA.gap, fun _ => hA, fun hh => absurd hp hh⟩
      · have hx : put s.marks r true x = true := hx
        simp only [put, hxr, if_false] at hx
        exact hsound x hx
    · by_cases hxr : x = r
      · simp [put, hxr]
      · exact hput x (hm.complete x hx (fun hh => hxr (List.mem_singleton.mp hh)) hA)
  · rw [if_neg hgt]
    refine ⟨hl', hm.kept, fun x hx hn w hw h1 h2 => ?_, hsound, fun x hx hn hA => ?_,
      fun r hr => absurd hr List.not_mem_nil, hm.rootD, fun r hr => absurd hr List.not_mem_nil⟩
    · by_cases hxr : x = r
      · subst hxr
        rw [hp] at hw; cases hw
      · exact hm.set x hx (fun hh => hxr (List.mem_singleton.mp hh)) w hw h1 h2
    · by_cases hxr : x = r
      · subst hxr
        have := hiff.mp hA
        omega
      · exact hm.complete x hx (fun hh => hxr (List.mem_singleton.mp hh)) hA

/-- The parents told by the predecessors: the first vertex of a search is its own predecessor. -/
def parentOf (p : V → Option V) : V → Option V := fun x => if p x = some x then none else p x

theorem parentOf_tree (p : V → Option V) {u v : V} (h : u ≠ v) :
    parentOf (put p v (some u)) = put (parentOf p) v (some u) := by
  funext x
  by_cases hx : x = v
  · subst hx
    simp [parentOf, put, h]
  · simp [parentOf, put, hx]

theorem parentOf_root (p : V → Option V) (v : V) : parentOf (put p v (some v)) = put (parentOf p) v none := by
  funext x
  by_cases hx : x = v
  · subst hx
    simp [parentOf, put]
  · simp [parentOf, put, hx]

theorem Run.articulation (hS : G.Symmetric) (hG : G.WF) {D D' : Set V} {es : List E}
    {l : List (Event V E)} (r : Run G D es l D') (u : V) (P : List V) (s : ArtState V) (par : V → Option V)
    (done : List E) (hout : G.out u = done ++ es) (h : AInv G marks0 par (u :: P) D s)
    (hd : ∀ f ∈ done, G.tgt f ∈ D ∧ s.low u ≤ s.time (G.tgt f)) :
    ∃ par', AInv G marks0 par' (u :: P) D' (after (artFinder G) s l) ∧
      (∀ f ∈ G.out u, G.tgt f ∈ D' ∧ (after (artFinder G) s l).low u ≤ (after (artFinder G) s l).time (G.tgt f)) ∧
      (∀ x ∈ D, par' x = par x ∧ (after (artFinder G) s l).time x = s.time x) ∧
      (∀ x ∈ P, (after (artFinder G) s l).low x = s.low x) ∧
      (∀ p, par = parentOf p → par' = parentOf (after (predecessorRecorder G) p l)) ∧
      ∀ x ∈ D', x ∉ D → par' x ≠ none := by
  induction r generalizing u P s par done with
  | nil D =>
    rw [List.append_nil] at hout
    rw [hout]
    exact ⟨par, h, hd, fun _ _ => ⟨rfl, rfl⟩, fun _ _ => rfl, fun _ hp => hp, fun x h1 h2 => absurd h1 h2⟩
  | @skip D D' f es l ht r ih =>
    have hum := h.alow.mem u (h.alow.gray u List.mem_cons_self)
    have hf : f ∈ G.out u := by rw [hout]; simp
    obtain ⟨b1, b2, b3, b4⟩ := h.nonTree (hG.src u hum f hf) ⟨f, hf, rfl⟩ ht
    have hne : ∀ x ∈ P, x ≠ u := fun x hx hh => by
      have := (List.pairwise_cons.mp h.alow.incr).1 x hx
      rw [hh] at this
      omega
    obtain ⟨par', c1, c2, c3, c4, c5, c6⟩ := ih u P ((artFinder G).on (.nonTree f) s) par (done ++ [f]) (by rw [hout]; simp) b1
      (fun g hg => by
        rw [b2]
        rcases List.mem_append.mp hg with hg | hg
        · exact ⟨(hd g hg).1, Int.le_trans (b3 u).1 (hd g hg).2⟩
        · rw [List.mem_singleton.mp hg]; exact ⟨ht, b4⟩)
    rw [b2] at c3
    exact ⟨par', c1, c2, c3, fun x hx => (c4 x hx).trans ((b3 x).2 (hne x hx)), fun p hp => c5 p hp, c6⟩
  | @tree D D1 D2 e es l1 l2 ht r1 r2 ih1 ih2 =>
    have huD := h.alow.gray u List.mem_cons_self
    have hum := h.alow.mem u huD
    have he : e ∈ G.out u := by rw [hout]; simp
    have hsrc := hG.src u hum e he
    have htm := hG.tgt u hum e he
    rw [after_append, after_append, after_append]
    have hne : ∀ x ∈ D, x ≠ G.tgt e := fun x hx hxv => ht (hxv ▸ hx)
    have h1 := h.enterTree hS htm ht ⟨e, he, rfl⟩
    generalize hs1 : (artFinder G).on (.start (G.tgt e)) s = s1 at h1
    have hs1a : after (artFinder G) s [.treeStart e, .discover (G.tgt e), .start (G.tgt e)] = s1 := hs1
    have hpe0 : put par (G.tgt e) (some u) (G.tgt e) = some u := by simp [put]
    have hs1x : ∀ x ∈ D, s1.low x = s.low x ∧ s1.time x = s.time x := fun x hx => by
      rw [← hs1]
      constructor
      · show put s.low (G.tgt e) _ x = _
        simp [put, hne x hx]
      · show put s.time (G.tgt e) _ x = _
        simp [put, hne x hx]
    rw [hs1a]
    obtain ⟨par1, c1, c2, c3, c4, c5, c6⟩ := ih1 (G.tgt e) (u :: P) s1 _ [] rfl h1 (fun f hf => absurd hf List.not_mem_nil)
    generalize after (artFinder G) s1 l1 = s2 at c1 c2 c3 c4
    have hpar1 : par1 (G.tgt e) = some u := by rw [(c3 _ (Set.mem_insert _ _)).1, hpe0]
    have hD1 : D ⊆ D1 := fun x hx => r1.subset (Set.mem_insert_of_mem _ hx)
    have hagree : ∀ x ∈ D, par1 x = par x ∧ s2.time x = s.time x := fun x hx => by
      obtain ⟨k1, k2⟩ := c3 x (Set.mem_insert_of_mem _ hx)
      rw [k1, k2, (hs1x x hx).2]
      simp [put, hne x hx]
    obtain ⟨d1, d2, d3⟩ := c1.leave hS hG (e := e) hsrc rfl hpar1 (by
      rintro z ⟨f, hf, rfl⟩
      exact c2 f hf)
    have hs3 : after (artFinder G) s2 [.finish (G.tgt e), .treeFinish e] = (artFinder G).on (.treeFinish e) s2 := rfl
    rw [hs3]
    generalize (artFinder G).on (.treeFinish e) s2 = s3 at d1 d2 d3
    have hlu : ∀ x ∈ u :: P, s3.low x = s.low x := fun x hx => by
      rw [d3, c4 x hx, (hs1x x (h.alow.gray x hx)).1]
    obtain ⟨par2, f1, f2, f3, f4, f5, f6⟩ := ih2 u P s3 par1 (done ++ [e]) (by rw [hout]; simp) d1 (fun g hg => by
      rw [hlu u List.mem_cons_self, d2]
      rcases List.mem_append.mp hg with hg | hg
      · rw [(hagree _ (hd g hg).1).2]
        exact ⟨hD1 (hd g hg).1, (hd g hg).2⟩
      · rw [List.mem_singleton.mp hg]
        have htD1 := c1.alow.gray _ List.mem_cons_self
        refine ⟨htD1, ?_⟩
        have k1 := d1.alow.low_le u (hD1 huD)
        have k2 := (c1.alow.par_spec _ htD1 u hpar1).2.2.1
        rw [hlu u List.mem_cons_self, d2] at k1
        omega)
    refine ⟨par2, f1, f2, fun x hx => ?_, fun x hx => ?_, fun p hp => ?_, fun x hx hn => ?_⟩
    · obtain ⟨k1, k2⟩ := f3 x (hD1 hx)
      rw [k1, k2, d2]; exact hagree x hx
    · rw [f4 x hx, hlu x (List.mem_cons_of_mem _ hx)]
    · rw [after_append, after_append, after_append]
      have hp1 : after (predecessorRecorder G) p [.treeStart e, .discover (G.tgt e), .start (G.tgt e)] =
          put p (G.tgt e) (some (G.src e)) := rfl
      rw [hp1, hsrc]
      exact f5 _ (c5 _ (by rw [parentOf_tree p (hne u huD), hp]))
    · by_cases hx1 : x ∈ D1
      · rw [(f3 x hx1).1]
        by_cases hxe : x = G.tgt e
        · rw [hxe, hpar1]; simp
        · exact c6 x hx1 (fun hh => (Set.mem_insert_iff.mp hh).elim hxe hn)
      · exact f6 x hx hx1

theorem VisitAll.articulation (hS : G.Symmetric) (hG : G.WF) {D D' : Set V} {us : List V}
    {l : List (Event V E)} (r : VisitAll G D us l D') (s : ArtState V) (hus : ∀ u ∈ us, u ∈ G.vertices) (par : V → Option V)
    (h : AInv G marks0 par [] D s) : ∃ par', AInv G marks0 par' [] D' (after (artFinder G) s l) ∧
      (∀ x ∈ D, par' x = par x) ∧
      (∀ a u b, us = a ++ u :: b → u ∉ D → (∀ w ∈ a, ¬G.Reach w u) → par' u = none) ∧
      (∀ p, par = parentOf p → par' = parentOf (after (predecessorRecorder G) p l)) ∧
      ∀ x ∈ D', x ∉ D → par' x = none → ∃ a b, us = a ++ x :: b ∧ ∀ w ∈ a, ¬G.Reach w x := by
  have stay : ∀ {par : V → Option V} {D : Set V} {s : ArtState V}, AInv G marks0 par [] D s → ∀ {w x : V}, w ∈ D →
      G.Reach w x → x ∈ D := by
    intro par D s h w x hw hr
    induction hr with
    | refl => exact hw
    | tail _ hadj ih => exact (h.alow.closed _ ih List.not_mem_nil _ hadj).1
  induction r generalizing s par with
  | nil D => exact ⟨par, h, fun _ _ => rfl, fun a u b hh => by simp at hh, fun _ hp => hp, fun x h1 h2 => absurd h1 h2⟩
  | @skip D D' u us l hu r ih =>
    obtain ⟨par', c1, c2, c3, c4, c5⟩ := ih s (fun u hu => hus u (List.mem_cons_of_mem _ hu)) par h
    refine ⟨par', c1, c2, fun a w b hh hw ha => ?_, c4, fun x hx hn hx0 => ?_⟩
    · cases a with
      | nil =>
        simp only [List.nil_append, List.cons.injEq] at hh
        exact absurd (hh.1 ▸ hu) hw
      | cons x a =>
        simp only [List.cons_append, List.cons.injEq] at hh
        exact c3 a w b hh.2 hw (fun w hw => ha w (List.mem_cons_of_mem _ hw))
    · obtain ⟨a, b, g1, g2⟩ := c5 x hx hn hx0
      refine ⟨u :: a, b, by rw [g1]; rfl, fun w hw => ?_⟩
      rcases List.mem_cons.mp hw with rfl | hw
      · exact fun hr => hn (stay h hu hr)
      · exact g2 w hw
  | @visit D D1 D2 u us l1 l2 hu hv r ih =>
    have hum := hus u List.mem_cons_self
    have hone := VisitAll.one hv hu
    rw [after_append]
    have key : ∃ par1, AInv G marks0 par1 [] D1 (after (artFinder G) s l1) ∧ (∀ x ∈ D, par1 x = par x) ∧ par1 u = none ∧ u ∈ D1 ∧
        (∀ p, par = parentOf p → par1 = parentOf (after (predecessorRecorder G) p l1)) ∧
        ∀ x ∈ D1, x ∉ D → x ≠ u → par1 x ≠ none := by
      obtain ⟨l', hr, rfl⟩ := hv
      rw [after_append, after_append]
      have h1 := h.enterRoot hS hum hu
      have hs1a : after (artFinder G) s [.searchStart u, .discover u, .start u] =
        (artFinder G).on (.start u) ((artFinder G).on (.searchStart u) s) := rfl
      rw [hs1a]
      obtain ⟨par1, c1, c2, c3, c4, c5, c6⟩ := hr.articulation hS hG u [] _ _ [] rfl h1 (fun f hf => absurd hf List.not_mem_nil)
      have hp : par1 u = none := by rw [(c3 u (Set.mem_insert _ _)).1]; simp [put]
      refine ⟨par1, c1.leaveRoot hS hG hp (by rintro z ⟨f, hf, rfl⟩; exact c2 f hf), fun x hx => ?_, hp,
        hr.subset (Set.mem_insert _ _), fun p hp => ?_,
        fun x hx hn hxu => c6 x hx (fun hh => (Set.mem_insert_iff.mp hh).elim hxu hn)⟩
      · rw [(c3 x (Set.mem_insert_of_mem _ hx)).1]
        have : x ≠ u := fun hh => hu (hh ▸ hx)
        simp [put, this]
      · rw [after_append, after_append]
        have hp1 : after (predecessorRecorder G) p [.searchStart u, .discover u, .start u] = put p u (some u) := rfl
        rw [hp1]
        exact c5 _ (by rw [parentOf_root, hp])
    obtain ⟨par1, k1, k2, k3, k4, k5, k6⟩ := key
    have hsub : D ⊆ D1 := hv.subset
    obtain ⟨par2, c1, c2, c3, c4, c5⟩ := ih _ (fun u hu => hus u (List.mem_cons_of_mem _ hu)) par1 k1
    refine ⟨par2, c1, fun x hx => (c2 x (hsub hx)).trans (k2 x hx), fun a w b hh hw ha => ?_,
      fun p hp => by rw [after_append]; exact c4 _ (k5 p hp), fun x hx hn hx0 => ?_⟩
    rotate_left
    · by_cases hx1 : x ∈ D1
      · by_cases hxu : x = u
        · exact ⟨[], us, by rw [hxu]; rfl, fun w hw => absurd hw List.not_mem_nil⟩
        · exact absurd (by rw [← c2 x hx1]; exact hx0) (k6 x hx1 hn hxu)
      · obtain ⟨a, b, g1, g2⟩ := c5 x hx hx1 hx0
        refine ⟨u :: a, b, by rw [g1]; rfl, fun w hw => ?_⟩
        rcases List.mem_cons.mp hw with rfl | hw
        · exact fun hr => hx1 (stay k1 k4 hr)
        · exact g2 w hw
    cases a with
    | nil =>
      simp only [List.nil_append, List.cons.injEq] at hh
      rw [← hh.1, c2 u k4, k3]
    | cons x a =>
      simp only [List.cons_append, List.cons.injEq] at hh
      refine c3 a w b hh.2 (fun hw1 => ?_) (fun w hw => ha w (List.mem_cons_of_mem _ hw))
      obtain ⟨y, hy, hr⟩ := hone.reach w hw1 hw
      rw [List.mem_singleton.mp hy, hh.1] at hr
      exact ha x List.mem_cons_self hr

end Actl.Traversal
