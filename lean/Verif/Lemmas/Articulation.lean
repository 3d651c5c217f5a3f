import Verif.Model.Connectivity
import Verif.Spec.Articulation
import Verif.Props.Components

/-!
Invariants of the search for articulation points.
-/

namespace Actl.Traversal

variable {V E : Type} [DecidableEq V] {G : Graph V E}

theorem Graph.Symmetric.avoid_symm (hS : G.Symmetric) (hG : G.WF) {u x y : V} (hx : x ∈ G.vertices)
    (h : G.ReachAvoid u x y) : y ∈ G.vertices ∧ G.ReachAvoid u y x := by
  induction h with
  | refl => exact ⟨hx, .refl⟩
  | tail _ hadj ih =>
    obtain ⟨h1, h2, h3⟩ := hadj
    refine ⟨?_, .head ⟨hS _ ih.1 _ h1, h3, h2⟩ ih.2⟩
    obtain ⟨e, he, rfl⟩ := h1
    exact hG.tgt _ ih.1 e he

/-- The invariant of the times: `P` is the path of the search, current vertex first; `par` tells the
parents in the tree. -/
structure ALow (G : Graph V E) (par : V → Option V) (P : List V) (D : Set V) (T low : V → Int) (now : Int) : Prop where
  pos : 0 ≤ now
  times : ∀ x ∈ D, 1 ≤ T x ∧ T x ≤ now
  inj : ∀ x ∈ D, ∀ y ∈ D, T x = T y → x = y
  incr : P.Pairwise (fun x y => T y < T x)
  gray : ∀ x ∈ P, x ∈ D
  mem : ∀ x ∈ D, x ∈ G.vertices
  par_spec : ∀ x ∈ D, ∀ p, par x = some p → p ∈ D ∧ G.Adj p x ∧ T p < T x ∧ ∀ w ∈ P, T w < T x → T w ≤ T p
  par_none : ∀ x ∈ D, par x = none → ∀ w ∈ P, T x ≤ T w
  low_le : ∀ x ∈ D, low x ≤ T x
  low_mem : ∀ x ∈ D, low x = T x ∨ ∃ y ∈ D, G.Adj x y ∧ low x = T y
  closed : ∀ y ∈ D, y ∉ P → ∀ z, G.Adj y z → z ∈ D ∧ (∀ w ∈ P, T y < T w → T z < T w) ∧ low y ≤ T z
  sep : ∀ c ∈ D, ∀ r, par c = some r → par r = none → ∀ x ∈ D, T r < T x → T x < T c → ∀ z, G.Adj x z →
    z = r ∨ T r < T z ∧ T z < T c

variable {par : V → Option V} {P : List V} {D : Set V} {T low : V → Int} {now : Int}

/-- Up the tree to a vertex of the path. -/
theorem ALow.climb (hS : G.Symmetric) (h : ALow G par P D T low now) {w : V} (hw : w ∈ P) {y : V} (hy : y ∈ D)
    (hwy : T w ≤ T y) (a : V) (ha : ∀ x ∈ D, T w ≤ T x → T x ≤ T y → x ≠ a) : G.ReachAvoid a y w := by
  induction hn : (T y - T w).toNat using Nat.strong_induction_on generalizing y with
  | _ n ih =>
    by_cases heq : T w = T y
    · rw [h.inj w (h.gray w hw) y hy heq]; exact .refl
    · cases hp : par y with
      | none => exact absurd (h.par_none y hy hp w hw) (by omega)
      | some p =>
        obtain ⟨h1, h2, h3, h4⟩ := h.par_spec y hy p hp
        have h5 := h4 w hw (by omega)
        exact .head ⟨hS _ (h.mem p h1) _ h2, ha y hy hwy (Int.le_refl _), ha p h1 h5 (by omega)⟩
          (ih _ (by omega) h1 h5 (fun x hx k1 k2 => ha x hx k1 (by omega)) rfl)

/-- Up the tree to a child of a vertex of the path. -/
theorem ALow.child (hS : G.Symmetric) (h : ALow G par P D T low now) {w : V} (hw : w ∈ P) {y : V} (hy : y ∈ D)
    (hwy : T w < T y) : ∃ c ∈ D, par c = some w ∧ T w < T c ∧ G.ReachAvoid w y c := by
  induction hn : (T y - T w).toNat using Nat.strong_induction_on generalizing y with
  | _ n ih =>
    cases hp : par y with
    | none => exact absurd (h.par_none y hy hp w hw) (by omega)
    | some p =>
      obtain ⟨h1, h2, h3, h4⟩ := h.par_spec y hy p hp
      have h5 := h4 w hw hwy
      by_cases heq : T w = T p
      · have : w = p := h.inj w (h.gray w hw) p h1 heq
        subst this
        exact ⟨y, hy, hp, hwy, .refl⟩
      · obtain ⟨c, c1, c2, c3, c4⟩ := ih _ (by omega) h1 (by omega) rfl
        refine ⟨c, c1, c2, c3, .head ⟨hS _ (h.mem p h1) _ h2, fun hh => ?_, fun hh => heq (by rw [hh])⟩ c4⟩
        rw [hh] at hwy
        omega

theorem ALow.head_max {u : V} (h : ALow G par (u :: P) D T low now) : ∀ x ∈ u :: P, T x ≤ T u := by
  intro x hx
  rcases List.mem_cons.mp hx with rfl | hx
  · exact Int.le_refl _
  · exact Int.le_of_lt ((List.pairwise_cons.mp h.incr).1 x hx)

/-- A neighbour discovered before a vertex of the path is on the path. -/
theorem ALow.before (hS : G.Symmetric) (h : ALow G par P D T low now) {w x : V} (hw : w ∈ P) (hx : x ∈ D) (hlt : T x < T w)
    {y : V} (hy : y ∈ D) (hwy : T w ≤ T y) (hadj : G.Adj y x) : x ∈ P := by
  by_contra hn
  have := (h.closed x hx hn y (hS y (h.mem y hy) x hadj)).2.1 w hw hlt
  omega

theorem ALow.enter (h : ALow G par P D T low now) {v : V} (hv : v ∈ G.vertices) (hD : v ∉ D) (hS : G.Symmetric)
    (o : Option V) (ho : ∀ p, o = some p → p ∈ P ∧ G.Adj p v ∧ ∀ w ∈ P, T w ≤ T p)
    (hnone : o = none → P = []) :
    ALow G (put par v o) (v :: P) (insert v D) (put T v (now + 1)) (put low v (now + 1)) (now + 1) := by
  have hne : ∀ x ∈ D, x ≠ v := fun x hx hxv => hD (hxv ▸ hx)
  have hT : ∀ x ∈ D, put T v (now + 1) x = T x := fun x hx => by simp [put, hne x hx]
  have hpar : ∀ x ∈ D, put par v o x = par x := fun x hx => by simp [put, hne x hx]
  have hlow : ∀ x ∈ D, put low v (now + 1) x = low x := fun x hx => by simp [put, hne x hx]
  have hTv : put T v (now + 1) v = now + 1 := by simp [put]
  have hpv : put par v o v = o := by simp [put]
  have hlv : put low v (now + 1) v = now + 1 := by simp [put]
  have hpos := h.pos
  have hmax : ∀ x ∈ D, T x < now + 1 := fun x hx => by have := h.times x hx; omega
  refine ⟨by omega, ?_, ?_, ?_, ?_, ?_, ?_, ?_, ?_, ?_, ?_, ?_⟩
  · intro x hx0
    rcases Set.mem_insert_iff.mp hx0 with rfl | hx
    · rw [hTv]; omega
    · rw [hT x hx]; have := h.times x hx; omega
  · intro x hx0 y hy0 he
    rcases Set.mem_insert_iff.mp hx0 with rfl | hx
    · rcases Set.mem_insert_iff.mp hy0 with rfl | hy
      · rfl
      · rw [hTv, hT y hy] at he
        have := hmax y hy; omega
    · rcases Set.mem_insert_iff.mp hy0 with rfl | hy
      · rw [hTv, hT x hx] at he
        have := hmax x hx; omega
      · rw [hT x hx, hT y hy] at he
        exact h.inj x hx y hy he
  · refine List.pairwise_cons.mpr ⟨fun x hx => ?_, ?_⟩
    · rw [hTv, hT x (h.gray x hx)]; exact hmax x (h.gray x hx)
    · refine h.incr.imp_of_mem (fun {a b} ha hb hab => ?_)
      rw [hT _ (h.gray _ ha), hT _ (h.gray _ hb)]
      exact hab
  · intro x hx
    rcases List.mem_cons.mp hx with rfl | hx
    · exact Set.mem_insert _ _
    · exact Set.mem_insert_of_mem _ (h.gray x hx)
  · intro x hx0
    rcases Set.mem_insert_iff.mp hx0 with rfl | hx
    · exact hv
    · exact h.mem x hx
  · intro x hx0 p hp
    rcases Set.mem_insert_iff.mp hx0 with rfl | hx
    · rw [hpv] at hp
      obtain ⟨h1, h2, h3⟩ := ho p hp
      have h5 := h.gray _ h1
      refine ⟨Set.mem_insert_of_mem _ h5, h2, ?_, fun w hw h6 => ?_⟩
      · rw [hTv, hT _ h5]; exact hmax _ h5
      · rcases List.mem_cons.mp hw with rfl | hw
        · omega
        · rw [hT _ h5, hT w (h.gray w hw)]; exact h3 w hw
    · rw [hpar x hx] at hp
      obtain ⟨h1, h2, h3, h4⟩ := h.par_spec x hx p hp
      refine ⟨Set.mem_insert_of_mem _ h1, h2, by rw [hT x hx, hT _ h1]; exact h3, fun w hw h6 => ?_⟩
      rw [hT x hx] at h6
      rcases List.mem_cons.mp hw with rfl | hw
      · rw [hTv] at h6
        have := hmax x hx
        omega
      · rw [hT w (h.gray w hw)] at h6
        rw [hT _ h1, hT w (h.gray w hw)]; exact h4 w hw h6
  · intro x hx0 he w hw
    rcases Set.mem_insert_iff.mp hx0 with rfl | hx
    · rw [hpv] at he
      rw [hnone he] at hw
      rw [List.mem_singleton.mp hw]
    · rw [hpar x hx] at he
      rw [hT x hx]
      rcases List.mem_cons.mp hw with rfl | hw
      · rw [hTv]; have := hmax x hx; omega
      · rw [hT w (h.gray w hw)]; exact h.par_none x hx he w hw
  · intro x hx0
    rcases Set.mem_insert_iff.mp hx0 with rfl | hx
    · rw [hTv, hlv]
    · rw [hT x hx, hlow x hx]; exact h.low_le x hx
  · intro x hx0
    rcases Set.mem_insert_iff.mp hx0 with rfl | hx
    · left; rw [hTv, hlv]
    · rw [hT x hx, hlow x hx]
      rcases h.low_mem x hx with h1 | ⟨y, h1, h2, h3⟩
      · exact Or.inl h1
      · exact Or.inr ⟨y, Set.mem_insert_of_mem _ h1, h2, by rw [hT y h1]; exact h3⟩
  · intro y hy0 hn0 z hz
    have hn := not_or.mp (fun h => hn0 (List.mem_cons.mpr h))
    have hy := (Set.mem_insert_iff.mp hy0).resolve_left hn.1
    obtain ⟨c1, c2, c3⟩ := h.closed y hy hn.2 z hz
    refine ⟨Set.mem_insert_of_mem _ c1, fun w hw h1 => ?_, by rw [hlow y hy, hT z c1]; exact c3⟩
    rw [hT _ c1]
    rcases List.mem_cons.mp hw with rfl | hw
    · rw [hTv]; exact hmax _ c1
    · rw [hT y hy, hT w (h.gray w hw)] at h1
      rw [hT w (h.gray w hw)]; exact c2 w hw h1
  · intro c hc0 r hr hrn x hx0 h1 h2 z hz
    have hxD : x ∈ D := by
      refine (Set.mem_insert_iff.mp hx0).resolve_left (fun hh => ?_)
      rw [hh, hTv] at h2
      rcases Set.mem_insert_iff.mp hc0 with rfl | hc
      · rw [hTv] at h2; omega
      · rw [hT c hc] at h2
        have := hmax c hc
        omega
    rw [hT x hxD] at h1 h2
    rcases Set.mem_insert_iff.mp hc0 with rfl | hc
    · rw [hpv] at hr
      obtain ⟨k1, k2, k3⟩ := ho r hr
      have hrD := h.gray r k1
      rw [hpar r hrD] at hrn
      rw [hT r hrD] at h1 ⊢
      have hxP : x ∉ P := fun hh => by have := k3 x hh; omega
      obtain ⟨c1, c2, c3⟩ := h.closed x hxD hxP z hz
      by_cases hzr : z = r
      · exact Or.inl hzr
      · right
        have hlt : T r < T z := by
          by_contra hge
          have hne' : T z ≠ T r := fun hh => hzr (h.inj z c1 r hrD hh)
          have hzP := h.before hS k1 c1 (by omega) hxD (by omega) hz
          have := h.par_none r hrD hrn z hzP
          omega
        rw [hT z c1, hTv]
        exact ⟨hlt, hmax z c1⟩
    · rw [hpar c hc] at hr
      obtain ⟨k1, k2, k3, k4⟩ := h.par_spec c hc r hr
      rw [hpar r k1] at hrn
      rw [hT r k1] at h1 ⊢
      rw [hT c hc] at h2 ⊢
      rcases h.sep c hc r hr hrn x hxD h1 h2 z hz with h3 | ⟨h3, h4⟩
      · exact Or.inl h3
      · have hzv : z ≠ v := by
          -- `v` would have been discovered
          rintro rfl
          have hxP : x ∉ P := fun hh => by
            cases hpx : par x with
            | none =>
              have := h.times x hxD
              have h7 := h.par_none x hxD hpx x hh
              have hrx := k4 x hh h2
              omega
            | some p =>
              have hrx := k4 x hh h2
              omega
          exact hD (h.closed x hxD hxP z hz).1
        simp only [put, hzv, if_false]
        exact Or.inr ⟨h3, h4⟩

theorem ALow.drop {v : V} (h : ALow G par (v :: P) D T low now)
    (hdone : ∀ z, G.Adj v z → z ∈ D ∧ low v ≤ T z) : ALow G par P D T low now := by
  have hinc := List.pairwise_cons.mp h.incr
  refine ⟨h.pos, h.times, h.inj, hinc.2, fun x hx => h.gray x (List.mem_cons_of_mem _ hx), h.mem, fun x hx p hp => ?_,
    fun x hx he w hw => h.par_none x hx he w (List.mem_cons_of_mem _ hw), h.low_le, h.low_mem, fun y hy hn z hz => ?_, h.sep⟩
  · obtain ⟨h1, h2, h3, h4⟩ := h.par_spec x hx p hp
    exact ⟨h1, h2, h3, fun w hw => h4 w (List.mem_cons_of_mem _ hw)⟩
  · by_cases hyv : y = v
    · subst hyv
      refine ⟨(hdone z hz).1, fun w hw h1 => ?_, (hdone z hz).2⟩
      have := hinc.1 w hw
      omega
    · obtain ⟨c1, c2, c3⟩ := h.closed y hy (fun hm => (List.mem_cons.mp hm).elim hyv hn) z hz
      exact ⟨c1, fun w hw => c2 w (List.mem_cons_of_mem _ hw), c3⟩

theorem ALow.relax {u z : V} (h : ALow G par (u :: P) D T low now) (hz : z ∈ D) (hadj : G.Adj u z) (hlt : T z < low u) :
    ALow G par (u :: P) D T (put low u (T z)) now := by
  have hle : ∀ x, put low u (T z) x ≤ low x := by
    intro x
    unfold put
    split
    · rename_i hx; subst hx; omega
    · exact Int.le_refl _
  refine ⟨h.pos, h.times, h.inj, h.incr, h.gray, h.mem, h.par_spec, h.par_none,
    fun x hx => Int.le_trans (hle x) (h.low_le x hx), fun x hx => ?_, fun y hy hn x hx => ?_, h.sep⟩
  · by_cases hxu : x = u
    · subst hxu
      exact Or.inr ⟨z, hz, hadj, by simp [put]⟩
    · simp only [put, hxu, if_false]; exact h.low_mem x hx
  · obtain ⟨c1, c2, c3⟩ := h.closed y hy hn x hx
    exact ⟨c1, c2, Int.le_trans (hle y) c3⟩

/-- What is known of the marks. -/
structure AMarks (G : Graph V E) (marks0 : V → Bool) (par : V → Option V) (P : List V) (D : Set V) (s : ArtState V) : Prop where
  kept : ∀ u, marks0 u = true → s.marks u = true
  set : ∀ v ∈ D, v ∉ P → ∀ u, par v = some u → par u ≠ none → s.time u ≤ s.low v → s.marks u = true
  sound : ∀ u, s.marks u = true → marks0 u = true ∨ u ∈ D ∧ G.Gap u ∧ (par u = none → G.Articulation u) ∧
    (par u ≠ none → ∃ v ∈ D, v ∉ P ∧ par v = some u ∧ s.time u ≤ s.low v)
  complete : ∀ x ∈ D, x ∉ P → G.Articulation x → s.marks x = true
  root : ∀ r ∈ P, (s.root = some r ↔ par r = none)
  rootD : ∀ r, s.root = some r → r ∈ D
  count : ∀ r ∈ P, par r = none → ∃ cs : List V, cs.Nodup ∧ s.rootChildren = cs.length ∧
    ∀ v, v ∈ cs ↔ v ∈ D ∧ v ∉ P ∧ par v = some r

/-- A finished vertex other than a root is marked if it has to be. -/
theorem ALow.complete (hS : G.Symmetric) (hG : G.WF) {marks0 : V → Bool} {s : ArtState V} {u p : V}
    (h : ALow G par (u :: P) D s.time s.low now) (hm : AMarks G marks0 par (u :: P) D s)
    (hdone : ∀ z, G.Adj u z → z ∈ D ∧ s.low u ≤ s.time z) (hp : par u = some p) (hA : G.Articulation u) :
    s.marks u = true := by
  by_contra hn
  have huD := h.gray u List.mem_cons_self
  obtain ⟨p1, p2, p3, p4⟩ := h.par_spec u huD p hp
  -- vertices of the path before `u` are connected with the parent
  have hup : ∀ y ∈ u :: P, s.time y < s.time u → G.ReachAvoid u p y := by
    intro y hy hlt
    refine h.climb hS hy p1 (p4 y hy hlt) u (fun x _ _ k hh => ?_)
    rw [hh] at k
    omega
  have key : ∀ x, G.Adj u x → x ≠ u → G.ReachAvoid u x p := by
    intro x hx hxu
    have hxD := (hdone x hx).1
    have hne : s.time x ≠ s.time u := fun hh => hxu (h.inj x hxD u huD hh)
    by_cases hlt : s.time x < s.time u
    · have hxP := h.before hS List.mem_cons_self hxD hlt huD (Int.le_refl _) hx
      exact (hS.avoid_symm hG (h.mem p p1) (hup x hxP hlt)).2
    · obtain ⟨c, c1, c2, c3, c4⟩ := h.child hS List.mem_cons_self hxD (by omega)
      refine c4.trans ?_
      have hcP : c ∉ u :: P := fun hh => by have := h.head_max c hh; omega
      have hlow : s.low c < s.time u := by
        by_contra hge
        exact hn (hm.set c c1 hcP u c2 (by rw [hp]; simp) (by omega))
      rcases h.low_mem c c1 with k | ⟨y, k1, k2, k3⟩
      · omega
      · have hyP := h.before hS List.mem_cons_self k1 (by omega) c1 (by omega) k2
        have hcu : c ≠ u := fun hh => by rw [hh] at c3; omega
        have hyu : y ≠ u := fun hh => by rw [hh] at k3; omega
        exact .head ⟨k2, hcu, hyu⟩ (hS.avoid_symm hG (h.mem p p1) (hup y hyP (by omega))).2
  obtain ⟨x, y, a1, a2, a3, a4, a5⟩ := hA
  have hym : y ∈ G.vertices := h.mem y (hdone y a2).1
  exact a5 ((key x a1 a3).trans (hS.avoid_symm hG hym (key y a2 a4)).2)

/-- The root has to be marked just if it has two children. -/
theorem ALow.root_iff (hS : G.Symmetric) (hG : G.WF) {r : V} (h : ALow G par [r] D T low now) (hr : par r = none)
    (hdone : ∀ z, G.Adj r z → z ∈ D) {cs : List V} (hnd : cs.Nodup)
    (hcs : ∀ v, v ∈ cs ↔ v ∈ D ∧ v ∉ [r] ∧ par v = some r) : G.Articulation r ↔ 1 < cs.length := by
  have hrD := h.gray r List.mem_cons_self
  constructor
  · rintro ⟨x, y, a1, a2, a3, a4, a5⟩
    by_contra hlen
    have key : ∀ x, G.Adj r x → x ≠ r → ∃ c ∈ cs, G.ReachAvoid r x c := by
      intro x hx hxr
      have hxD := hdone x hx
      have hlt : T r < T x := by
        by_contra hge
        have hne : T x ≠ T r := fun hh => hxr (h.inj x hxD r hrD hh)
        have := h.before hS List.mem_cons_self hxD (by omega) hrD (Int.le_refl _) hx
        exact hxr (List.mem_singleton.mp this)
      obtain ⟨c, c1, c2, c3, c4⟩ := h.child hS List.mem_cons_self hxD hlt
      refine ⟨c, (hcs c).mpr ⟨c1, fun hh => ?_, c2⟩, c4⟩
      rw [List.mem_singleton.mp hh] at c3
      omega
    obtain ⟨c, k1, k2⟩ := key x a1 a3
    obtain ⟨d, l1, l2⟩ := key y a2 a4
    have hcd : c = d := by
      match cs, hlen, k1, l1 with
      | [], _, k1, _ => cases k1
      | [z], _, k1, l1 => rw [List.mem_singleton.mp k1, List.mem_singleton.mp l1]
      | _ :: _ :: _, hlen, _, _ => simp at hlen
    rw [← hcd] at l2
    exact a5 (k2.trans (hS.avoid_symm hG (h.mem y (hdone y a2)) l2).2)
  · intro hlen
    have two : ∃ c ∈ cs, ∃ d ∈ cs, c ≠ d := by
      match cs, hlen, hnd with
      | [], hl, _ => simp at hl
      | [_], hl, _ => simp at hl
      | c :: d :: _, _, hnd =>
        refine ⟨c, by simp, d, by simp, fun hh => ?_⟩
        rw [hh] at hnd
        simp at hnd
    have main : ∀ c ∈ cs, ∀ d ∈ cs, T c < T d → G.Articulation r := by
      intro c hc d hd hlt
      obtain ⟨c1, _, c3⟩ := (hcs c).mp hc
      obtain ⟨d1, _, d3⟩ := (hcs d).mp hd
      obtain ⟨_, pc2, pc3, _⟩ := h.par_spec c c1 r c3
      obtain ⟨_, pd2, pd3, _⟩ := h.par_spec d d1 r d3
      refine ⟨c, d, pc2, pd2, fun hh => by rw [hh] at pc3; omega, fun hh => by rw [hh] at pd3; omega, fun hreach => ?_⟩
      have : ∀ x, G.ReachAvoid r c x → x ∈ D ∧ T r < T x ∧ T x < T d := by
        intro x hx
        induction hx with
        | refl => exact ⟨c1, pc3, hlt⟩
        | @tail b z _ hadj ih =>
          obtain ⟨i1, i2, i3⟩ := ih
          have hbP : b ∉ [r] := fun hh => by rw [List.mem_singleton.mp hh] at i2; omega
          refine ⟨(h.closed b i1 hbP z hadj.1).1, ?_⟩
          exact (h.sep d d1 r d3 hr b i1 i2 i3 z hadj.1).resolve_left hadj.2.2
      have := this d hreach
      omega
    obtain ⟨c, hc, d, hd, hcd⟩ := two
    have hne : T c ≠ T d := fun hh => hcd (h.inj c ((hcs c).mp hc).1 d ((hcs d).mp hd).1 hh)
    rcases Int.lt_or_gt_of_ne hne with hlt | hgt
    · exact main c hc d hd hlt
    · exact main d hd c hc hgt

theorem Graph.Articulation.gap {u : V} (h : G.Articulation u) : G.Gap u := by
  obtain ⟨x, y, a1, a2, a3, a4, a5⟩ := h
  exact ⟨x, y, a1, a2, a3, a4, fun hh => a5 (hh ▸ .refl), fun hh => a5 (.single ⟨hh, a3, a4⟩)⟩

end Actl.Traversal
