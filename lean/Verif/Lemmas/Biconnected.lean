import Verif.Model.Biconnected
import Verif.Spec.Biconnected
import Verif.Spec.BiconnectedExact
import Verif.Props.Articulation

/-!
Invariants of the search for biconnected components.
-/

namespace Actl.Traversal

variable {V E K : Type} [DecidableEq V] [DecidableEq K] {G : Graph V E} {key : E → K}
variable {par : V → Option V} {P : List V} {D : Set V} {marks0 : V → Bool} {num : V → Int} {comp : Int → V}

theorem popWhile_spec (key : E → K) (n : Int) (p : E → Bool) (st : List E) (m : K → Option Int) :
    ∃ a b, st = a ++ b ∧ (∀ e ∈ a, p e = true) ∧ (∀ e b', b = e :: b' → p e = false) ∧
      (popWhile key n p st m).1 = b ∧
      ∀ k, (k ∈ a.map key → (popWhile key n p st m).2 k = some n) ∧ (k ∉ a.map key → (popWhile key n p st m).2 k = m k) := by
  induction st generalizing m with
  | nil => exact ⟨[], [], rfl, by simp, by simp, rfl, fun k => by simp [popWhile]⟩
  | cons e st ih =>
    by_cases hp : p e = true
    · obtain ⟨a, b, h1, h2, h3, h4, h5⟩ := ih (put m (key e) (some n))
      rw [popWhile, if_pos hp]
      refine ⟨e :: a, b, by rw [h1]; rfl, ?_, h3, h4, fun k => ⟨fun hk => ?_, fun hk => ?_⟩⟩
      · intro f hf
        rcases List.mem_cons.mp hf with rfl | hf
        · exact hp
        · exact h2 f hf
      · by_cases hk' : k ∈ a.map key
        · exact (h5 k).1 hk'
        · rw [(h5 k).2 hk']
          rw [List.map_cons] at hk
          have := (List.mem_cons.mp hk).resolve_right hk'
          simp [put, this]
      · rw [List.map_cons, List.mem_cons, not_or] at hk
        rw [(h5 k).2 hk.2]
        simp [put, hk.1]
    · rw [popWhile, if_neg hp]
      refine ⟨[], e :: st, rfl, by simp, fun f b' h => ?_, rfl, fun k => by simp⟩
      injection h with h _
      rw [← h]
      simpa using hp

/-- The edge is on the stack or has a number. -/
def BiState.Has (key : E → K) (s : BiState V E K) (e : E) : Prop := e ∈ s.stack ∨ s.map (key e) ≠ none

/-- What is known of stack and map in forests. -/
structure BiTree (G : Graph V E) (key : E → K) (par : V → Option V) (P : List V) (D : Set V) (num : V → Int)
    (s : BiState V E K) : Prop where
  stack : ∀ e ∈ s.stack, G.src e ∈ P ∧ par (G.src e) = some (G.tgt e)
  sorted : s.stack.Pairwise (fun e f => s.art.time (G.src f) ≤ s.art.time (G.src e))
  map : ∀ k i, s.map k = some i → ∃ e ∈ G.out (G.src e), key e = k ∧ G.src e ∈ D ∧ G.src e ∉ P ∧
    par (G.src e) = some (G.tgt e) ∧ i = num (G.src e)
  inj : ∀ x ∈ D, x ∉ P → par x ≠ none → num x < s.n ∧ ∀ y ∈ D, y ∉ P → par y ≠ none → num x = num y → x = y

/-- What is known of stack and map. -/
structure BiInv (G : Graph V E) (key : E → K) (marks0 : V → Bool) (par : V → Option V) (P : List V) (D : Set V)
    (num : V → Int) (comp : Int → V) (s : BiState V E K) : Prop where
  inv : AInv G marks0 par P D s.art
  edges : ∀ e ∈ s.stack, e ∈ G.out (G.src e) ∧ G.src e ∈ D ∧ G.tgt e ∈ D ∧ s.art.time (G.tgt e) < s.art.time (G.src e)
  reach : ∀ e ∈ s.stack, ∀ w ∈ P, G.Reach w (G.src e)
  root : ∀ e ∈ s.stack, ∀ r ∈ P, par r = none → s.art.time r ≤ s.art.time (G.tgt e)
  short : P.length ≤ 1 → s.stack = []
  map : ∀ k i, s.map k = some i → i < s.n ∧ ∃ e ∈ G.out (G.src e), G.src e ∈ D ∧
    (G.tgt e ∈ D ∧ s.art.time (G.tgt e) < s.art.time (G.src e)) ∧ key e = k ∧ comp i ∈ D ∧ G.Reach (comp i) (G.src e)
  done : ∀ y ∈ D, y ∉ P → ∀ e ∈ G.out y, s.art.time (G.tgt e) < s.art.time y → s.Has key e
  tree : G.Treelike → BiTree G key par P D num s

theorem biNonTree (G : Graph V E) (key : E → K) (e : E) (s : BiState V E K) :
    (biFinder G key).on (.nonTree e) s =
      { s with art := (artFinder G).on (.nonTree e) s.art,
               stack := if s.art.time (G.tgt e) < s.art.time (G.src e) then e :: s.stack else s.stack } := rfl

/-- In a forest an edge towards the root leads to the parent. -/
theorem ALow.up (hS : G.Symmetric) (hT : G.Treelike) {T low : V → Int} {now : Int} {u z : V}
    (h : ALow G par (u :: P) D T low now) (hz : z ∈ D) (hadj : G.Adj u z) (hlt : T z < T u) : par u = some z := by
  have huD := h.gray u List.mem_cons_self
  have hzP := h.before hS List.mem_cons_self hz hlt huD (Int.le_refl _) hadj
  cases hp : par u with
  | none => exact absurd (h.par_none u huD hp z hzP) (by omega)
  | some p =>
    obtain ⟨p1, p2, p3, p4⟩ := h.par_spec u huD p hp
    have hc := h.climb hS hzP p1 (p4 z hzP hlt) u (fun x _ _ k hh => by rw [hh] at k; omega)
    have := hT u (h.mem u huD) p z (hS p (h.mem p p1) u p2) hadj (fun hh => by rw [hh] at p3; omega)
      (fun hh => by rw [hh] at hlt; omega) hc
    rw [this]

theorem BiInv.nonTree (hS : G.Symmetric) {s : BiState V E K} {u : V} {e : E}
    (h : BiInv G key marks0 par (u :: P) D num comp s) (hsrc : G.src e = u) (he : e ∈ G.out u) (ht : G.tgt e ∈ D)
    (hP : ∀ w ∈ u :: P, G.Reach w u) (hlast : P = [] → par u = none) :
    BiInv G key marks0 par (u :: P) D num comp ((biFinder G key).on (.nonTree e) s) ∧
    (∀ f, s.Has key f → ((biFinder G key).on (.nonTree e) s).Has key f) ∧
    (s.art.time (G.tgt e) < s.art.time u → ((biFinder G key).on (.nonTree e) s).Has key e) := by
  have hadj : G.Adj u (G.tgt e) := ⟨e, he, rfl⟩
  obtain ⟨b1, b2, b3, b4⟩ := h.inv.nonTree hsrc hadj ht
  have hmap := h.map
  have hl := h.inv.alow
  have huD := hl.gray u List.mem_cons_self
  rw [biNonTree]
  generalize hart : (artFinder G).on (.nonTree e) s.art = a at b1 b2 b3 b4
  rw [hsrc]
  by_cases hlt : s.art.time (G.tgt e) < s.art.time u
  · rw [if_pos hlt]
    have hzP := hl.before hS List.mem_cons_self ht hlt huD (Int.le_refl _) hadj
    refine ⟨⟨b1, ?_, ?_, ?_, ?_, by rw [← b2] at hmap; exact hmap, ?_, ?_⟩, ?_, fun _ => Or.inl List.mem_cons_self⟩
    · intro f hf
      show _ ∧ _ ∧ _ ∧ a.time _ < a.time _
      rw [b2]
      rcases List.mem_cons.mp hf with rfl | hf
      · rw [hsrc]; exact ⟨he, huD, ht, hlt⟩
      · exact h.edges f hf
    · intro f hf w hw
      rcases List.mem_cons.mp hf with rfl | hf
      · rw [hsrc]; exact hP w hw
      · exact h.reach f hf w hw
    · intro f hf r hr hrn
      show a.time _ ≤ a.time _
      rw [b2]
      rcases List.mem_cons.mp hf with rfl | hf
      · exact hl.par_none r (hl.gray r hr) hrn _ hzP
      · exact h.root f hf r hr hrn
    · intro hlen
      exfalso
      have hPn : P = [] := List.length_eq_zero_iff.mp (by simp only [List.length_cons] at hlen; omega)
      have := hl.par_none u huD (hlast hPn) _ hzP
      omega
    · intro y hy hn f hf hlt'
      have hlt' : a.time (G.tgt f) < a.time y := hlt'
      rw [b2] at hlt'
      rcases h.done y hy hn f hf hlt' with k | k
      · exact Or.inl (List.mem_cons_of_mem _ k)
      · exact Or.inr k
    · intro hT
      have ht' := h.tree hT
      refine ⟨?_, ?_, ht'.map, ht'.inj⟩
      · intro f hf
        rcases List.mem_cons.mp hf with rfl | hf
        · rw [hsrc]
          exact ⟨List.mem_cons_self, hl.up hS hT ht hadj hlt⟩
        · exact ht'.stack f hf
      · show (e :: s.stack).Pairwise (fun e f => a.time (G.src f) ≤ a.time (G.src e))
        rw [b2]
        refine List.pairwise_cons.mpr ⟨fun f hf => ?_, ht'.sorted⟩
        rw [hsrc]
        exact hl.head_max _ (ht'.stack f hf).1
    · intro f hf
      rcases hf with hf | hf
      · exact Or.inl (List.mem_cons_of_mem _ hf)
      · exact Or.inr hf
  · rw [if_neg hlt]
    refine ⟨⟨b1, ?_, h.reach, ?_, h.short, by rw [← b2] at hmap; exact hmap, ?_, fun hT => ?_⟩, fun f hf => hf, fun hh => absurd hh hlt⟩
    · intro f hf
      show _ ∧ _ ∧ _ ∧ a.time _ < a.time _
      rw [b2]
      exact h.edges f hf
    · intro f hf r hr hrn
      show a.time _ ≤ a.time _
      rw [b2]
      exact h.root f hf r hr hrn
    · intro y hy hn f hf hlt'
      have hlt' : a.time (G.tgt f) < a.time y := hlt'
      rw [b2] at hlt'
      exact h.done y hy hn f hf hlt'
    · have ht' := h.tree hT
      refine ⟨ht'.stack, ?_, ht'.map, ht'.inj⟩
      show s.stack.Pairwise (fun e f => a.time (G.src f) ≤ a.time (G.src e))
      rw [b2]
      exact ht'.sorted

theorem BiInv.enter {s : BiState V E K} {v : V} {o : Option V} {a : ArtState V}
    (h : BiInv G key marks0 par P D num comp s) (hD : v ∉ D)
    (ha : AInv G marks0 (put par v o) (v :: P) (insert v D) a) (htime : a.time = put s.art.time v (s.art.now + 1))
    (hreach : ∀ e ∈ s.stack, G.Reach v (G.src e)) (hroot : o = none → s.stack = []) (hlen : P.length ≤ 1 → s.stack = []) :
    BiInv G key marks0 (put par v o) (v :: P) (insert v D) num comp { s with art := a } := by
  have hne : ∀ x ∈ D, x ≠ v := fun x hx hxv => hD (hxv ▸ hx)
  have hT : ∀ x ∈ D, a.time x = s.art.time x := fun x hx => by rw [htime]; simp [put, hne x hx]
  have hpar : ∀ x ∈ D, put par v o x = par x := fun x hx => by simp [put, hne x hx]
  have hblack : ∀ x, x ∈ insert v D → x ∉ v :: P → x ∈ D ∧ x ∉ P := fun x hx hn => by
    have hn := not_or.mp (fun h => hn (List.mem_cons.mpr h))
    exact ⟨(Set.mem_insert_iff.mp hx).resolve_left hn.1, hn.2⟩
  refine ⟨ha, ?_, ?_, ?_, ?_, ?_, ?_, ?_⟩
  · intro e he
    obtain ⟨h1, h2, h3, h4⟩ := h.edges e he
    refine ⟨h1, Set.mem_insert_of_mem _ h2, Set.mem_insert_of_mem _ h3, ?_⟩
    show a.time _ < a.time _
    rw [hT _ h2, hT _ h3]
    exact h4
  · intro e he w hw
    rcases List.mem_cons.mp hw with rfl | hw
    · exact hreach e he
    · exact h.reach e he w hw
  · intro e he r hr hrn
    show a.time _ ≤ a.time _
    rcases List.mem_cons.mp hr with rfl | hr
    · have ho : o = none := by simpa [put] using hrn
      have he : e ∈ s.stack := he
      rw [hroot ho] at he
      cases he
    · have hrD := h.inv.alow.gray r hr
      rw [hpar r hrD] at hrn
      rw [hT r hrD, hT _ (h.edges e he).2.2.1]
      exact h.root e he r hr hrn
  · intro hl
    exact hlen (by simp only [List.length_cons] at hl; omega)
  · intro k i hk
    obtain ⟨h1, e, h2, h3, ⟨h4, h5⟩, h6, h7, h8⟩ := h.map k i hk
    refine ⟨h1, e, h2, Set.mem_insert_of_mem _ h3, ⟨Set.mem_insert_of_mem _ h4, ?_⟩, h6, Set.mem_insert_of_mem _ h7, h8⟩
    show a.time _ < a.time _
    rw [hT _ h3, hT _ h4]
    exact h5
  · intro y hy hn e he hlt
    obtain ⟨hy, hn⟩ := hblack y hy hn
    have hz := (h.inv.alow.closed y hy hn (G.tgt e) ⟨e, he, rfl⟩).1
    have hlt : a.time (G.tgt e) < a.time y := hlt
    rw [hT _ hz, hT y hy] at hlt
    exact h.done y hy hn e he hlt
  · intro hTr
    have ht := h.tree hTr
    refine ⟨?_, ?_, ?_, ?_⟩
    · intro e he
      obtain ⟨h1, h2⟩ := ht.stack e he
      exact ⟨List.mem_cons_of_mem _ h1, by rw [hpar _ (h.edges e he).2.1]; exact h2⟩
    · refine ht.sorted.imp_of_mem (fun {e f} he hf hh => ?_)
      show a.time _ ≤ a.time _
      rw [hT _ (h.edges e he).2.1, hT _ (h.edges f hf).2.1]
      exact hh
    · intro k i hk
      obtain ⟨e, h1, h2, h3, h4, h5, h6⟩ := ht.map k i hk
      refine ⟨e, h1, h2, Set.mem_insert_of_mem _ h3, fun hh => ?_, by rw [hpar _ h3]; exact h5, h6⟩
      rcases List.mem_cons.mp hh with hh | hh
      · exact hne _ h3 hh
      · exact h4 hh
    · intro x hx hn hp
      obtain ⟨hx, hn⟩ := hblack x hx hn
      rw [hpar x hx] at hp
      obtain ⟨h1, h2⟩ := ht.inj x hx hn hp
      refine ⟨h1, fun y hy hny hpy => ?_⟩
      obtain ⟨hy, hny⟩ := hblack y hy hny
      rw [hpar y hy] at hpy
      exact h2 y hy hny hpy

theorem biTreeFinish (G : Graph V E) (key : E → K) (e : E) (s : BiState V E K) :
    (biFinder G key).on (.treeFinish e) s =
      if s.art.time (G.src e) ≤ s.art.low (G.tgt e) then
        BiState.popWhile key
          (fun f => decide (s.art.time (G.src e) ≤ s.art.time (G.src f)) && decide (s.art.time (G.src e) ≤ s.art.time (G.tgt f)))
          { s with art := (artFinder G).on (.treeFinish e) s.art }
      else { s with art := (artFinder G).on (.treeFinish e) s.art } := rfl

theorem BiInv.leave (hS : G.Symmetric) (hG : G.WF) {s : BiState V E K} {u v : V} {e : E}
    (h : BiInv G key marks0 par (v :: u :: P) D num comp s) (hsrc : G.src e = u) (htgt : G.tgt e = v)
    (hp : par v = some u) (hdone : ∀ z, G.Adj v z → z ∈ D ∧ s.art.low v ≤ s.art.time z)
    (hhas : ∀ f ∈ G.out v, s.art.time (G.tgt f) < s.art.time v → s.Has key f) (hlast : P = [] → par u = none) :
    ∃ num' comp', BiInv G key marks0 par (u :: P) D num' comp' ((biFinder G key).on (.treeFinish e) s) ∧
    (∀ f, s.Has key f → ((biFinder G key).on (.treeFinish e) s).Has key f) ∧
    ((biFinder G key).on (.treeFinish e) s).art = (artFinder G).on (.treeFinish e) s.art := by
  obtain ⟨d1, d2, d3⟩ := h.inv.leave hS hG hsrc htgt hp hdone
  have hl := h.inv.alow
  have hvD := hl.gray v List.mem_cons_self
  have huD := hl.gray u (by simp)
  have hinc := List.pairwise_cons.mp hl.incr
  have huv := hinc.1 u List.mem_cons_self
  have hPu : ∀ w ∈ u :: P, s.art.time w ≤ s.art.time u := by
    intro w hw
    rcases List.mem_cons.mp hw with rfl | hw
    · exact Int.le_refl _
    · exact Int.le_of_lt ((List.pairwise_cons.mp hinc.2).1 w hw)
  have hvP : v ∉ u :: P := fun hh => by have := hPu v hh; omega
  have hblack : ∀ x, x ∈ D → x ∉ u :: P → x = v ∨ x ∉ v :: u :: P := fun x _ hn => by
    by_cases hxv : x = v
    · exact Or.inl hxv
    · exact Or.inr (fun hh => (List.mem_cons.mp hh).elim hxv hn)
  rw [biTreeFinish]
  generalize (artFinder G).on (.treeFinish e) s.art = a at d1 d2 d3
  rw [hsrc, htgt]
  -- whatever edges are left
  have hdone' : ∀ y ∈ D, y ∉ u :: P → ∀ f ∈ G.out y, s.art.time (G.tgt f) < s.art.time y → s.Has key f := by
    intro y hy hn f hf hlt
    rcases hblack y hy hn with rfl | hn'
    · exact hhas f hf hlt
    · exact h.done y hy hn' f hf hlt
  by_cases hle : s.art.time u ≤ s.art.low v
  · rw [if_pos hle]
    obtain ⟨A, b, e1, e2, e3, e4, e5⟩ := popWhile_spec key s.n
      (fun f => decide (s.art.time u ≤ s.art.time (G.src f)) && decide (s.art.time u ≤ s.art.time (G.tgt f))) s.stack s.map
    unfold BiState.popWhile
    dsimp only
    rw [e4]
    generalize (popWhile key s.n
      (fun f => decide (s.art.time u ≤ s.art.time (G.src f)) && decide (s.art.time u ≤ s.art.time (G.tgt f))) s.stack s.map).2 = m at e5
    have hA : ∀ f ∈ A, f ∈ s.stack := fun f hf => by rw [e1]; exact List.mem_append_left _ hf
    have hb : ∀ f ∈ b, f ∈ s.stack := fun f hf => by rw [e1]; exact List.mem_append_right _ hf
    have hkeep : ∀ f, s.Has key f → BiState.Has key (⟨a, b, m, s.n + 1⟩ : BiState V E K) f := by
      rintro f (hf | hf)
      · rw [e1] at hf
        rcases List.mem_append.mp hf with hf | hf
        · refine Or.inr ?_
          show m (key f) ≠ none
          rw [(e5 (key f)).1 (List.mem_map_of_mem hf)]
          simp
        · exact Or.inl hf
      · refine Or.inr ?_
        show m (key f) ≠ none
        by_cases hk : key f ∈ A.map key
        · rw [(e5 _).1 hk]; simp
        · rw [(e5 _).2 hk]; exact hf
    refine ⟨put num v s.n, put comp s.n u, ⟨d1, ?_, ?_, ?_, ?_, ?_, ?_, ?_⟩, hkeep, rfl⟩
    · intro f hf
      show _ ∧ _ ∧ _ ∧ a.time _ < a.time _
      rw [d2]
      exact h.edges f (hb f hf)
    · exact fun f hf w hw => h.reach f (hb f hf) w (List.mem_cons_of_mem _ hw)
    · intro f hf r hr hrn
      show a.time _ ≤ a.time _
      rw [d2]
      exact h.root f (hb f hf) r (List.mem_cons_of_mem _ hr) hrn
    · intro hlen
      have hPn : P = [] := List.length_eq_zero_iff.mp (by simp only [List.length_cons] at hlen; omega)
      show b = []
      cases b with
      | nil => rfl
      | cons f b' =>
        exfalso
        have hf := hb f List.mem_cons_self
        have k1 := h.root f hf u (by simp) (hlast hPn)
        have k2 := (h.edges f hf).2.2.2
        have := e3 f b' rfl
        simp only [Bool.and_eq_false_iff, decide_eq_false_iff_not] at this
        omega
    · intro k i hk
      have hk : m k = some i := hk
      show i < s.n + 1 ∧ _
      by_cases hm : k ∈ A.map key
      · rw [(e5 k).1 hm] at hk
        injection hk with hk
        subst hk
        obtain ⟨f, hf, rfl⟩ := List.mem_map.mp hm
        obtain ⟨k1, k2, k3, k4⟩ := h.edges f (hA f hf)
        refine ⟨by omega, f, k1, k2, ⟨k3, by show a.time _ < a.time _; rw [d2]; exact k4⟩, rfl, ?_⟩
        simp only [put, if_true]
        exact ⟨huD, h.reach f (hA f hf) u (by simp)⟩
      · rw [(e5 k).2 hm] at hk
        obtain ⟨k1, f, k2, k3, k4, k5, k6⟩ := h.map k i hk
        refine ⟨by omega, f, k2, k3, ⟨k4.1, by show a.time _ < a.time _; rw [d2]; exact k4.2⟩, k5, ?_⟩
        have : i ≠ s.n := by omega
        simp only [put, this, if_false]
        exact k6
    · intro y hy hn f hf hlt
      have hlt : a.time (G.tgt f) < a.time y := hlt
      rw [d2] at hlt
      exact hkeep f (hdone' y hy hn f hf hlt)
    · intro hT
      have ht := h.tree hT
      have hpred : ∀ f ∈ s.stack, G.src f ≠ v → ¬(s.art.time u ≤ s.art.time (G.tgt f)) := by
        intro f hf hfv
        have hs := (List.mem_cons.mp (ht.stack f hf).1).resolve_left hfv
        have := hPu _ hs
        have := (h.edges f hf).2.2.2
        omega
      have hAv : ∀ f ∈ A, G.src f = v := by
        intro f hf
        by_contra hfv
        have := e2 f hf
        simp only [Bool.and_eq_true, decide_eq_true_eq] at this
        exact hpred f (hA f hf) hfv this.2
      have hbv : ∀ f ∈ b, G.src f ≠ v := by
        intro f hf hfv
        have hsort : b.Pairwise (fun e f => s.art.time (G.src f) ≤ s.art.time (G.src e)) :=
          (List.pairwise_append.mp (e1 ▸ ht.sorted)).2.1
        cases b with
        | nil => cases hf
        | cons g b' =>
          have hg := hb g List.mem_cons_self
          have hgv : G.src g ≠ v := by
            intro hgv
            have h1 := (ht.stack g hg).2
            rw [hgv, hp] at h1
            injection h1 with h1
            have := e3 g b' rfl
            rw [hgv, ← h1] at this
            simp only [Bool.and_eq_false_iff, decide_eq_false_iff_not] at this
            omega
          have hgu := hPu _ ((List.mem_cons.mp (ht.stack g hg).1).resolve_left hgv)
          rcases List.mem_cons.mp hf with rfl | hf
          · exact hgv hfv
          · have := (List.pairwise_cons.mp hsort).1 f hf
            rw [hfv] at this
            omega
      refine ⟨?_, ?_, ?_, ?_⟩
      · intro f hf
        obtain ⟨k1, k2⟩ := ht.stack f (hb f hf)
        exact ⟨(List.mem_cons.mp k1).resolve_left (hbv f hf), k2⟩
      · show b.Pairwise (fun e f => a.time (G.src f) ≤ a.time (G.src e))
        rw [d2]
        exact (List.pairwise_append.mp (e1 ▸ ht.sorted)).2.1
      · intro k i hk
        have hk : m k = some i := hk
        by_cases hm : k ∈ A.map key
        · rw [(e5 k).1 hm] at hk
          injection hk with hk
          subst hk
          obtain ⟨f, hf, rfl⟩ := List.mem_map.mp hm
          obtain ⟨k1, k2, k3, k4⟩ := h.edges f (hA f hf)
          refine ⟨f, k1, rfl, k2, ?_, (ht.stack f (hA f hf)).2, ?_⟩
          · rw [hAv f hf]; exact hvP
          · rw [hAv f hf]; simp [put]
        · rw [(e5 k).2 hm] at hk
          obtain ⟨f, k1, k2, k3, k4, k5, k6⟩ := ht.map k i hk
          refine ⟨f, k1, k2, k3, fun hh => k4 (List.mem_cons_of_mem _ hh), k5, ?_⟩
          have : G.src f ≠ v := fun hh => k4 (by rw [hh]; exact List.mem_cons_self)
          simp only [put, this, if_false]
          exact k6
      · intro x hx hn hpx
        show put num v s.n x < s.n + 1 ∧ _
        rcases hblack x hx hn with rfl | hn'
        · refine ⟨by simp only [put, if_true]; omega, fun y hy hny hpy he => ?_⟩
          rcases hblack y hy hny with rfl | hny'
          · rfl
          · exfalso
            have hyx : y ≠ x := fun hh => hny' (by rw [hh]; exact List.mem_cons_self)
            simp only [put, if_true, hyx, if_false] at he
            have := (ht.inj y hy hny' hpy).1
            omega
        · have hxv : x ≠ v := fun hh => hn' (by rw [hh]; exact List.mem_cons_self)
          obtain ⟨k1, k2⟩ := ht.inj x hx hn' hpx
          refine ⟨by simp only [put, hxv, if_false]; omega, fun y hy hny hpy he => ?_⟩
          rcases hblack y hy hny with rfl | hny'
          · exfalso
            simp only [put, if_true, hxv, if_false] at he
            omega
          · have hyv : y ≠ v := fun hh => hny' (by rw [hh]; exact List.mem_cons_self)
            simp only [put, hyv, hxv, if_false] at he
            exact k2 y hy hny' hpy he
  · rw [if_neg hle]
    -- not at the root, and not in forests
    have hun : par u ≠ none := by
      intro hu
      rcases hl.low_mem v hvD with k | ⟨y, k1, k2, k3⟩
      · omega
      · have hy := hl.before hS (w := u) (by simp) k1 (by omega) hvD (Int.le_of_lt huv) k2
        have := hl.par_none u huD hu y hy
        omega
    have hmap := h.map
    rw [← d2] at hmap
    refine ⟨num, comp, ⟨d1, ?_, ?_, ?_, ?_, hmap, ?_, ?_⟩, fun f hf => hf, rfl⟩
    · intro f hf
      show _ ∧ _ ∧ _ ∧ a.time _ < a.time _
      rw [d2]
      exact h.edges f hf
    · exact fun f hf w hw => h.reach f hf w (List.mem_cons_of_mem _ hw)
    · intro f hf r hr hrn
      show a.time _ ≤ a.time _
      rw [d2]
      exact h.root f hf r (List.mem_cons_of_mem _ hr) hrn
    · intro hlen
      exact absurd (hlast (List.length_eq_zero_iff.mp (by simp only [List.length_cons] at hlen; omega))) hun
    · intro y hy hn f hf hlt
      have hlt : a.time (G.tgt f) < a.time y := hlt
      rw [d2] at hlt
      exact hdone' y hy hn f hf hlt
    · intro hT
      exfalso
      rcases hl.low_mem v hvD with k | ⟨y, k1, k2, k3⟩
      · omega
      · have := hl.up hS hT k1 k2 (by omega)
        rw [hp] at this
        injection this with this
        rw [← this] at k3
        omega

theorem BiInv.leaveRoot (hS : G.Symmetric) (hG : G.WF) {s : BiState V E K} {r : V}
    (h : BiInv G key marks0 par [r] D num comp s) (hp : par r = none)
    (hdone : ∀ z, G.Adj r z → z ∈ D ∧ s.art.low r ≤ s.art.time z)
    (hhas : ∀ f ∈ G.out r, s.art.time (G.tgt f) < s.art.time r → s.Has key f) :
    BiInv G key marks0 par [] D num comp ((biFinder G key).on (.searchFinish r) s) := by
  have hstack := h.short (by simp)
  have ha := h.inv.leaveRoot hS hG hp hdone
  have htime : ((artFinder G).on (.searchFinish r) s.art).time = s.art.time := by
    show (if s.art.rootChildren > 1 then _ else _ : ArtState V).time = _
    split <;> rfl
  have hs : (biFinder G key).on (.searchFinish r) s = { s with art := (artFinder G).on (.searchFinish r) s.art } := rfl
  rw [hs]
  generalize (artFinder G).on (.searchFinish r) s.art = a at ha htime
  have hmap := h.map
  rw [← htime] at hmap
  refine ⟨ha, ?_, ?_, ?_, fun _ => hstack, hmap, ?_, ?_⟩
  · intro e he
    have he : e ∈ s.stack := he
    rw [hstack] at he; cases he
  · intro e he
    have he : e ∈ s.stack := he
    rw [hstack] at he; cases he
  · intro e he
    have he : e ∈ s.stack := he
    rw [hstack] at he; cases he
  · intro y hy _ f hf hlt
    have hlt : a.time (G.tgt f) < a.time y := hlt
    rw [htime] at hlt
    by_cases hyr : y = r
    · subst hyr; exact hhas f hf hlt
    · exact h.done y hy (fun hh => hyr (List.mem_singleton.mp hh)) f hf hlt
  · intro hT
    have ht := h.tree hT
    refine ⟨?_, ?_, ?_, ?_⟩
    · intro e he
      have he : e ∈ s.stack := he
      rw [hstack] at he; cases he
    · show s.stack.Pairwise _
      rw [hstack]; exact .nil
    · intro k i hk
      obtain ⟨e, h1, h2, h3, h4, h5, h6⟩ := ht.map k i hk
      exact ⟨e, h1, h2, h3, List.not_mem_nil, h5, h6⟩
    · intro x hx _ hpx
      have hxr : x ∉ [r] := fun hh => hpx (by rw [List.mem_singleton.mp hh]; exact hp)
      obtain ⟨k1, k2⟩ := ht.inj x hx hxr hpx
      refine ⟨k1, fun y hy _ hpy => k2 y hy (fun hh => hpy (by rw [List.mem_singleton.mp hh]; exact hp)) hpy⟩

theorem after_art (G : Graph V E) (key : E → K) (l : List (Event V E)) (s : BiState V E K) :
    (after (biFinder G key) s l).art = after (artFinder G) s.art l := by
  induction l generalizing s with
  | nil => rfl
  | cons ev l ih =>
    rw [after_cons, after_cons, ih]
    congr 1
    cases ev <;> first | rfl | skip
    rw [biTreeFinish]
    split <;> rfl

/-- What the finder knows is right. -/
def Ok (G : Graph V E) (T : V → Int) (s : BiState V E K) : Event V E → Prop
  | .nonTree e => s.art.time (G.src e) = T (G.src e) ∧ s.art.time (G.tgt e) = T (G.tgt e)
  | .treeFinish h =>
    (∀ f ∈ s.stack, s.art.time (G.src f) = T (G.src f) ∧ s.art.time (G.tgt f) = T (G.tgt f)) ∧
    s.art.time (G.src h) = T (G.src h) ∧ (s.art.time (G.src h) ≤ s.art.low (G.tgt h) ↔ G.Closes T (.treeFinish h))
  | _ => True

/-- What the finder knows is right whenever it is used. -/
def Agrees (G : Graph V E) (key : E → K) (T : V → Int) : BiState V E K → List (Event V E) → Prop
  | _, [] => True
  | s, ev :: l => Ok G T s ev ∧ Agrees G key T ((biFinder G key).on ev s) l

theorem Agrees.append {T : V → Int} {l1 l2 : List (Event V E)} {s : BiState V E K} (h1 : Agrees G key T s l1)
    (h2 : Agrees G key T (after (biFinder G key) s l1) l2) : Agrees G key T s (l1 ++ l2) := by
  induction l1 generalizing s with
  | nil => exact h2
  | cons ev l1 ih => exact ⟨h1.1, ih h1.2 h2⟩

theorem Run.biconnected (hS : G.Symmetric) (hG : G.WF) {D D' : Set V} {es : List E}
    {l : List (Event V E)} (r : Run G D es l D') (u : V) (P : List V) (s : BiState V E K) (par : V → Option V)
    (num : V → Int) (comp : Int → V)
    (done : List E) (hout : G.out u = done ++ es) (h : BiInv G key marks0 par (u :: P) D num comp s)
    (hP : ∀ w ∈ u :: P, G.Reach w u) (hlast : P = [] → par u = none)
    (hd : ∀ f ∈ done, G.tgt f ∈ D ∧ s.art.low u ≤ s.art.time (G.tgt f) ∧ (s.art.time (G.tgt f) < s.art.time u → s.Has key f)) :
    ∃ par' num' comp', BiInv G key marks0 par' (u :: P) D' num' comp' (after (biFinder G key) s l) ∧
      (∀ f ∈ G.out u, G.tgt f ∈ D' ∧
        (after (biFinder G key) s l).art.low u ≤ (after (biFinder G key) s l).art.time (G.tgt f) ∧
        ((after (biFinder G key) s l).art.time (G.tgt f) < (after (biFinder G key) s l).art.time u →
          (after (biFinder G key) s l).Has key f)) ∧
      (∀ x ∈ D, par' x = par x ∧ (after (biFinder G key) s l).art.time x = s.art.time x) ∧
      (∀ x ∈ P, (after (biFinder G key) s l).art.low x = s.art.low x) ∧
      (∀ f, s.Has key f → (after (biFinder G key) s l).Has key f) ∧
      ∀ T : V → Int, (∀ x ∈ D', T x = (after (biFinder G key) s l).art.time x) → Agrees G key T s l := by
  induction r generalizing u P s par num comp done with
  | nil D =>
    rw [List.append_nil] at hout
    rw [hout]
    exact ⟨par, num, comp, h, hd, fun _ _ => ⟨rfl, rfl⟩, fun _ _ => rfl, fun _ hf => hf, fun _ _ => trivial⟩
  | @skip D D' f es l ht r ih =>
    have huD := h.inv.alow.gray u List.mem_cons_self
    have hum := h.inv.alow.mem u huD
    have hf : f ∈ G.out u := by rw [hout]; simp
    have hsrc := hG.src u hum f hf
    obtain ⟨b1, b2, b3, b4⟩ := h.inv.nonTree hsrc ⟨f, hf, rfl⟩ ht
    obtain ⟨g1, g2, g3⟩ := h.nonTree hS hsrc hf ht hP hlast
    have hart : ((biFinder G key).on (.nonTree f) s).art = (artFinder G).on (.nonTree f) s.art := rfl
    rw [after_cons]
    generalize hs1e : (biFinder G key).on (.nonTree f) s = s1 at g1 g2 g3 hart ⊢
    rw [← hart] at b1 b2 b3 b4
    have hne : ∀ x ∈ P, x ≠ u := fun x hx hh => by
      have := (List.pairwise_cons.mp h.inv.alow.incr).1 x hx
      rw [hh] at this
      omega
    obtain ⟨par', num', comp', c1, c2, c3, c4, c5, c6⟩ := ih u P s1 par num comp (done ++ [f]) (by rw [hout]; simp) g1 hP hlast
      (fun g hg => by
        rw [b2]
        rcases List.mem_append.mp hg with hg | hg
        · obtain ⟨k1, k2, k3⟩ := hd g hg
          exact ⟨k1, Int.le_trans (b3 u).1 k2, fun hh => g2 g (k3 hh)⟩
        · rw [List.mem_singleton.mp hg]; exact ⟨ht, b4, g3⟩)
    rw [b2] at c3
    refine ⟨par', num', comp', c1, c2, c3, fun x hx => (c4 x hx).trans ((b3 x).2 (hne x hx)), fun g hg => c5 g (g2 g hg),
      fun T hT => ⟨⟨?_, ?_⟩, by rw [hs1e]; exact c6 T hT⟩⟩
    · rw [hsrc, hT u (r.subset huD), (c3 u huD).2]
    · rw [hT _ (r.subset ht), (c3 _ ht).2]
  | @tree D D1 D2 e es l1 l2 ht r1 r2 ih1 ih2 =>
    have huD := h.inv.alow.gray u List.mem_cons_self
    have hum := h.inv.alow.mem u huD
    have he : e ∈ G.out u := by rw [hout]; simp
    have hsrc := hG.src u hum e he
    have htm := hG.tgt u hum e he
    rw [after_append, after_append, after_append]
    have hne : ∀ x ∈ D, x ≠ G.tgt e := fun x hx hxv => ht (hxv ▸ hx)
    have hvu : G.Reach (G.tgt e) u := .single (hS u hum _ ⟨e, he, rfl⟩)
    have h1 := h.enter ht (h.inv.enterTree hS htm ht ⟨e, he, rfl⟩) rfl
      (fun f hf => hvu.trans (h.reach f hf u List.mem_cons_self)) (fun hh => by cases hh) h.short
    have hs1 : (biFinder G key).on (.start (G.tgt e)) s = { s with art := (artFinder G).on (.start (G.tgt e)) s.art } := rfl
    rw [← hs1] at h1
    have hhas1 : ∀ f, s.Has key f → ((biFinder G key).on (.start (G.tgt e)) s).Has key f := fun f hf => hf
    generalize hs1 : (biFinder G key).on (.start (G.tgt e)) s = s1 at h1 hhas1
    have hs1a : after (biFinder G key) s [.treeStart e, .discover (G.tgt e), .start (G.tgt e)] = s1 := hs1
    have hpe0 : put par (G.tgt e) (some u) (G.tgt e) = some u := by simp [put]
    have hs1x : ∀ x ∈ D, s1.art.low x = s.art.low x ∧ s1.art.time x = s.art.time x := fun x hx => by
      rw [← hs1]
      constructor
      · show put s.art.low (G.tgt e) _ x = _
        simp [put, hne x hx]
      · show put s.art.time (G.tgt e) _ x = _
        simp [put, hne x hx]
    rw [hs1a]
    obtain ⟨par1, num1, comp1, c1, c2, c3, c4, c5, c6⟩ := ih1 (G.tgt e) (u :: P) s1 _ num comp [] rfl h1
      (by
        intro w hw
        rcases List.mem_cons.mp hw with rfl | hw
        · exact .refl
        · exact (hP w hw).tail ⟨e, he, rfl⟩)
      (fun hh => by cases hh) (fun f hf => absurd hf List.not_mem_nil)
    generalize hs2e : after (biFinder G key) s1 l1 = s2 at c1 c2 c3 c4 c5 c6
    have hpar1 : par1 (G.tgt e) = some u := by rw [(c3 _ (Set.mem_insert _ _)).1, hpe0]
    have hD1 : D ⊆ D1 := fun x hx => r1.subset (Set.mem_insert_of_mem _ hx)
    have hagree : ∀ x ∈ D, par1 x = par x ∧ s2.art.time x = s.art.time x := fun x hx => by
      obtain ⟨k1, k2⟩ := c3 x (Set.mem_insert_of_mem _ hx)
      rw [k1, k2, (hs1x x hx).2]
      simp [put, hne x hx]
    have hlast1 : P = [] → par1 u = none := fun hh => by rw [(hagree u huD).1]; exact hlast hh
    have hdn : ∀ z, G.Adj (G.tgt e) z → z ∈ D1 ∧ s2.art.low (G.tgt e) ≤ s2.art.time z := by
      rintro z ⟨f, hf, rfl⟩
      exact ⟨(c2 f hf).1, (c2 f hf).2.1⟩
    obtain ⟨d1, d2, d3⟩ := c1.inv.leave hS hG (e := e) hsrc rfl hpar1 hdn
    obtain ⟨num2, comp2, g1, g2, g3⟩ := c1.leave hS hG (e := e) hsrc rfl hpar1 hdn (fun f hf => (c2 f hf).2.2) hlast1
    have hs3 : after (biFinder G key) s2 [.finish (G.tgt e), .treeFinish e] = (biFinder G key).on (.treeFinish e) s2 := rfl
    rw [hs3]
    generalize hs3e : (biFinder G key).on (.treeFinish e) s2 = s3 at g1 g2 g3
    rw [← g3] at d1 d2 d3
    have hlu : ∀ x ∈ u :: P, s3.art.low x = s.art.low x := fun x hx => by
      rw [d3, c4 x hx, (hs1x x (h.inv.alow.gray x hx)).1]
    have hkeep : ∀ f, s.Has key f → s3.Has key f := fun f hf => g2 f (c5 f (hhas1 f hf))
    obtain ⟨par2, num3, comp3, f1, f2, f3, f4, f5, f6⟩ := ih2 u P s3 par1 num2 comp2 (done ++ [e]) (by rw [hout]; simp) g1 hP hlast1
      (fun g hg => by
      rw [hlu u List.mem_cons_self, d2]
      rcases List.mem_append.mp hg with hg | hg
      · obtain ⟨k1, k2, k3⟩ := hd g hg
        rw [(hagree _ k1).2, (hagree _ huD).2]
        exact ⟨hD1 k1, k2, fun hh => hkeep g (k3 hh)⟩
      · rw [List.mem_singleton.mp hg]
        have htD1 := c1.inv.alow.gray _ List.mem_cons_self
        have k1 := d1.alow.low_le u (hD1 huD)
        have k2 := (c1.inv.alow.par_spec _ htD1 u hpar1).2.2.1
        rw [hlu u List.mem_cons_self, d2] at k1
        exact ⟨htD1, by omega, fun hh => absurd hh (by omega)⟩)
    refine ⟨par2, num3, comp3, f1, f2, fun x hx => ?_, fun x hx => ?_, fun f hf => f5 f (hkeep f hf), fun T hT => ?_⟩
    · obtain ⟨k1, k2⟩ := f3 x (hD1 hx)
      rw [k1, k2, d2]; exact hagree x hx
    · rw [f4 x hx, hlu x (List.mem_cons_of_mem _ hx)]
    · have hT1 : ∀ x ∈ D1, T x = s2.art.time x := fun x hx => by rw [hT x (r2.subset hx), (f3 x hx).2, d2]
      have hvD1 := c1.inv.alow.gray _ List.mem_cons_self
      refine Agrees.append (Agrees.append (Agrees.append ⟨trivial, trivial, trivial, trivial⟩ ?_) ?_) ?_
      · rw [hs1a]; exact c6 T hT1
      · rw [after_append, hs1a, hs2e]
        refine ⟨trivial, ⟨fun f hf => ?_, ?_, ?_⟩, trivial⟩
        · obtain ⟨-, k1, k2, -⟩ := c1.edges f hf
          exact ⟨(hT1 _ k1).symm, (hT1 _ k2).symm⟩
        · rw [hsrc]; exact (hT1 u (hD1 huD)).symm
        · show s2.art.time (G.src e) ≤ s2.art.low (G.tgt e) ↔ ∀ w, G.Adj (G.tgt e) w → T (G.src e) ≤ T w
          rw [hsrc]
          constructor
          · intro hle w hw
            obtain ⟨k1, k2⟩ := hdn w hw
            rw [hT1 u (hD1 huD), hT1 w k1]
            omega
          · intro hall
            rcases c1.inv.alow.low_mem _ hvD1 with k | ⟨y, k1, k2, k3⟩
            · have := (c1.inv.alow.par_spec _ hvD1 u hpar1).2.2.1
              omega
            · have := hall y k2
              rw [hT1 u (hD1 huD), hT1 y k1] at this
              omega
      · rw [after_append, after_append, hs1a, hs2e]
        show Agrees G key T ((biFinder G key).on (.treeFinish e) s2) l2
        rw [hs3e]
        exact f6 T hT

theorem VisitAll.biconnected (hS : G.Symmetric) (hG : G.WF) {D D' : Set V} {us : List V}
    {l : List (Event V E)} (r : VisitAll G D us l D') (s : BiState V E K) (hus : ∀ u ∈ us, u ∈ G.vertices) (par : V → Option V)
    (num : V → Int) (comp : Int → V) (h : BiInv G key marks0 par [] D num comp s) :
    ∃ par' num' comp', BiInv G key marks0 par' [] D' num' comp' (after (biFinder G key) s l) ∧
      (∀ x ∈ D, (after (biFinder G key) s l).art.time x = s.art.time x) ∧
      ∀ T : V → Int, (∀ x ∈ D', T x = (after (biFinder G key) s l).art.time x) → Agrees G key T s l := by
  induction r generalizing s par num comp with
  | nil D => exact ⟨par, num, comp, h, fun _ _ => rfl, fun _ _ => trivial⟩
  | @skip D D' u us l hu r ih => exact ih s (fun u hu => hus u (List.mem_cons_of_mem _ hu)) par num comp h
  | @visit D D1 D2 u us l1 l2 hu hv r ih =>
    have hum := hus u List.mem_cons_self
    rw [after_append]
    suffices hk : ∃ par1 num1 comp1, BiInv G key marks0 par1 [] D1 num1 comp1 (after (biFinder G key) s l1) ∧
        (∀ x ∈ D, (after (biFinder G key) s l1).art.time x = s.art.time x) ∧
        ∀ T : V → Int, (∀ x ∈ D1, T x = (after (biFinder G key) s l1).art.time x) → Agrees G key T s l1 by
      obtain ⟨par1, num1, comp1, k1, k2, k3⟩ := hk
      obtain ⟨par2, num2, comp2, i1, i2, i3⟩ := ih _ (fun u hu => hus u (List.mem_cons_of_mem _ hu)) par1 num1 comp1 k1
      refine ⟨par2, num2, comp2, i1, fun x hx => ?_, fun T hT => (k3 T fun x hx => ?_).append (i3 T hT)⟩
      · rw [i2 x (hv.subset hx), k2 x hx]
      · rw [hT x (r.subset hx), i2 x hx]
    obtain ⟨l', hr, rfl⟩ := hv
    rw [after_append, after_append]
    have hst := h.short (by simp)
    have h1 := h.enter hu (h.inv.enterRoot hS hum hu) rfl (fun f hf => by rw [hst] at hf; cases hf) (fun _ => hst)
      (fun _ => hst)
    have hs1a : after (biFinder G key) s [.searchStart u, .discover u, .start u] =
      { s with art := (artFinder G).on (.start u) ((artFinder G).on (.searchStart u) s.art) } := rfl
    rw [hs1a]
    obtain ⟨par1, num1, comp1, c1, c2, c3, c4, c5, c6⟩ := hr.biconnected hS hG u [] _ _ num comp [] rfl h1
      (fun w hw => by rw [List.mem_singleton.mp hw]; exact .refl) (fun _ => by simp [put])
      (fun f hf => absurd hf List.not_mem_nil)
    have hp : par1 u = none := by rw [(c3 u (Set.mem_insert _ _)).1]; simp [put]
    have htime : ∀ t : BiState V E K, (after (biFinder G key) t [.finish u, .searchFinish u]).art.time = t.art.time := by
      intro t
      show (if t.art.rootChildren > 1 then _ else _ : ArtState V).time = _
      split <;> rfl
    refine ⟨par1, num1, comp1, c1.leaveRoot hS hG hp (by rintro z ⟨f, hf, rfl⟩; exact ⟨(c2 f hf).1, (c2 f hf).2.1⟩)
      (fun f hf => (c2 f hf).2.2), fun x hx => ?_, fun T hT => ?_⟩
    · rw [htime, (c3 x (Set.mem_insert_of_mem _ hx)).2]
      show put s.art.time u _ x = _
      have hxu : x ≠ u := fun hh => hu (hh ▸ hx)
      simp [put, hxu]
    · refine Agrees.append (Agrees.append ⟨trivial, trivial, trivial, trivial⟩ ?_) ⟨trivial, trivial, trivial⟩
      rw [hs1a]
      exact c6 T (fun x hx => by rw [hT x hx, htime])

end Actl.Traversal
