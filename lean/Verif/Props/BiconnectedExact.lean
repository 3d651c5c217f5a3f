import Verif.Props.Biconnected
import Verif.Props.ArticulationExact
import Verif.Lemmas.BiconnectedExact

/-!
C101, what the code does compute: exactly which edges get the same number.
-/

namespace Actl.Traversal

variable {V E K : Type} {G : Graph V E}

theorem Graph.ClosedBy.shift (T : V → Int) (c : Int) (l : List (Event V E)) (e : E) (i : Int) :
    G.ClosedBy (fun x => T x - c) l e i ↔ G.ClosedBy T l e i := by
  have h1 : G.Back (fun x => T x - c) = G.Back T := by
    funext f
    simp only [Graph.Back, eq_iff_iff]
    omega
  have h2 : G.Closes (fun x => T x - c) = G.Closes T := by
    funext ev
    cases ev <;> simp [Graph.Closes]
  have h3 : G.Above (fun x => T x - c) = G.Above T := by
    funext f b x
    simp [Graph.Above, h1]
  have h4 : G.closings (fun x => T x - c) = G.closings T := by
    funext b
    unfold Graph.closings
    congr 2
    exact List.filter_congr (fun ev _ => by rw [h2])
  simp only [Graph.ClosedBy, h2, h3, h4]

/-- An edge is closed at most once. -/
theorem Graph.ClosedBy.unique {T : V → Int} {l : List (Event V E)} {e : E} {i j : Int}
    (h1 : ∀ a r, l = a ++ .nonTree e :: r → e ∉ examined a) (hi : G.ClosedBy T l e i) (hj : G.ClosedBy T l e j) : i = j := by
  obtain ⟨a, b, h, c, ha, hc, hn, hm, rfl⟩ := hi
  obtain ⟨a', b', h', c', ha', hc', hn', hm', rfl⟩ := hj
  rw [List.append_assoc, List.cons_append] at ha ha'
  have hne := h1 a _ ha
  have hne' := h1 a' _ ha'
  have hpre : ∀ (a a' r r' : List (Event V E)), e ∉ examined a' → a ++ .nonTree e :: r = a' ++ .nonTree e :: r' →
      ∃ x, a = a' ++ x := by
    intro a a' r r' hne heq
    rcases List.append_eq_append_iff.mp heq with ⟨x, hx, hx'⟩ | ⟨x, hx, -⟩
    · cases x with
      | nil => exact ⟨[], by rw [hx]; simp⟩
      | cons y x =>
        injection hx' with hy _
        refine absurd ?_ hne
        rw [hx, ← hy]
        simp
    · exact ⟨x, hx⟩
  have haa : a = a' := by
    obtain ⟨x, hx⟩ := hpre _ _ _ _ hne' (ha.symm.trans ha')
    obtain ⟨y, hy⟩ := hpre _ _ _ _ hne (ha'.symm.trans ha)
    have : x = [] := by
      have h1 := congrArg List.length hx
      have h2 := congrArg List.length hy
      simp only [List.length_append] at h1 h2
      exact List.length_eq_zero_iff.mp (by omega)
    rw [hx, this, List.append_nil]
  subst haa
  have hr := List.append_cancel_left (ha.symm.trans ha')
  injection hr with _ hr
  have hbb : ∀ (b b' c c' : List (Event V E)) (h h' : E), b ++ .treeFinish h :: c = b' ++ .treeFinish h' :: c' →
      G.Closes T (.treeFinish h) → ¬G.Above T e b (G.src h) →
      (∀ b1 h b2, b' = b1 ++ .treeFinish h :: b2 → G.Closes T (.treeFinish h) → G.Above T e b1 (G.src h)) →
      ∃ x, b = b' ++ x := by
    intro b b' c c' h h' heq hc hn hm
    rcases List.append_eq_append_iff.mp heq with ⟨x, hx, hx'⟩ | ⟨x, hx, -⟩
    · cases x with
      | nil => exact ⟨[], by rw [hx]; simp⟩
      | cons y x =>
        injection hx' with hy _
        exact absurd (hm b h x (by rw [hx, ← hy]) hc) hn
    · exact ⟨x, hx⟩
  obtain ⟨x, hx⟩ := hbb _ _ _ _ _ _ hr hc hn hm'
  obtain ⟨y, hy⟩ := hbb _ _ _ _ _ _ hr.symm hc' hn' hm
  have : x = [] := by
    have h1 := congrArg List.length hx
    have h2 := congrArg List.length hy
    simp only [List.length_append] at h1 h2
    exact List.length_eq_zero_iff.mp (by omega)
  rw [hx, this, List.append_nil]

variable [DecidableEq V] [DecidableEq K] {key : E → K} {rev : E → E}

/-- Exactly which numbers `find_biconnected_components` gives on an undirected graph, with an empty map, in terms of what
the recorders of a depth-first search of the same graph say (`t`: the times of discovery, `l`: the events).  An edge is
numbered as seen from the end discovered later; its number is that of the return that closes it.  So two edges have the same
number if and only if they are closed by the same return.  As seen from the other end, if the keys tell the ends apart, and
if it is a loop, it is not numbered. -/
theorem findBiconnected_char (hG : G.WF) (hU : G.Undirected rev) (hK : G.Keys rev key) {fuel : Nat} {res : K → Option Int}
    (h : findBiconnected G key fuel (fun _ => none) = some res) {m : Nat} {t0 t : Stamps V} {l : List (Event V E)}
    (h0 : 0 ≤ t0.now) (ht : dfsAll G ((timeStamper (-1)).fst logger) (fun _ => false) m (t0, []) = some (t, l))
    (u : V) (hu : u ∈ G.vertices) (e : E) (he : e ∈ G.out u) :
    (t.inTime (G.tgt e) < t.inTime u → ∃ i, res (key e) = some i ∧ ∀ j, G.ClosedBy t.inTime l e j ↔ j = i) ∧
    (t.inTime u < t.inTime (G.tgt e) → key e ≠ key (rev e) → res (key e) = none) ∧
    (G.tgt e = u → res (key e) = none) := by
  have hS := hU.symmetric
  obtain ⟨s, D, l', ⟨hva, hs, hag⟩, hmem, hbi, -, -, hdet⟩ := findBiconnected_events (key := key) hG hS
  obtain rfl := hdet fuel res h
  obtain ⟨hva2, hte, -, hex⟩ := (dfsAll_explores_of_tracks stamp_tracks hG t0 (stamp_init t0 h0)).2 _ _ _ ht
  obtain ⟨rfl, rfl⟩ := hva.det hva2
  -- the times of the finder
  obtain ⟨c, hc⟩ := art_stamps (G := G) l' ⟨fun _ => false, fun _ => 0, fun _ => 0, none, 0, 0⟩
    (initAll (timeStamper (-1) : Comp _ V E) G.vertices t0) (Int.le_refl 0) (fun x hx => absurd rfl hx)
  have hart := after_art G key l' (⟨⟨fun _ => false, fun _ => 0, fun _ => 0, none, 0, 0⟩, [], fun _ => none, 0⟩ : BiState V E K)
  rw [← hs] at hart
  rw [← hart, ← hte] at hc
  obtain ⟨par, num, comp, hb⟩ := hbi ⟨u, hu⟩
  have htime : ∀ x ∈ G.vertices, t.inTime x - c = s.art.time x := fun x hx => by
    have := (hb.inv.alow.times x hx).1
    have := hc x (by omega)
    omega
  have hlater : Later (fun x => t.inTime x - c) (∅ : Set V) l' := by
    intro a b hab x hx y hy
    have hx := hx.resolve_left (Set.notMem_empty x)
    have hst : ∀ z ∈ starts l', z ∈ G.vertices := fun z hz => by
      rw [hva.starts_eq] at hz
      exact ((hva.discs_spec.2 z).mp hz).1
    show t.inTime x - c < t.inTime y - c
    rw [htime x (hst x (by rw [hab, starts_append]; simp [hx])), htime y (hst y (by rw [hab, starts_append]; simp [hy])), hart]
    exact hva.later _ (fun _ => Int.le_refl 0) a b hab x (Or.inr hx) y hy
  have hX : XInv G key (fun x => t.inTime x - c) l' s := by
    have hinit : XInv G key (fun x => t.inTime x - c) []
        (⟨⟨fun _ => false, fun _ => 0, fun _ => 0, none, 0, 0⟩, [], fun _ => none, 0⟩ : BiState V E K) :=
      ⟨.nil _, rfl, fun k i hk => by cases hk⟩
    have := hinit.all (hag _ htime) (by rw [List.nil_append]; exact (hva.noCross hG (fun _ hu => hu) hlater).1)
    rw [List.nil_append, ← hs] at this
    exact this
  have hsrc := hG.src u hu e he
  -- a numbered key, from the edge one asks about
  have hmap : ∀ i, s.map (key e) = some i →
      ∃ g, (g = e ∨ g = rev e) ∧ key g = key e ∧ t.inTime (G.tgt g) < t.inTime (G.src g) ∧ G.ClosedBy t.inTime l' g i := by
    intro i hi
    obtain ⟨g, h1, h2, h3⟩ := hX.map _ i hi
    rw [Graph.ClosedBy.shift] at h3
    have h2 : t.inTime (G.tgt g) - c < t.inTime (G.src g) - c := h2
    refine ⟨g, ?_, h1, by omega, h3⟩
    obtain ⟨a, b, k, c, hl, -⟩ := h3
    have hgv : G.src g ∈ G.vertices := by
      have := (hex.nonTree a g (b ++ .treeFinish k :: c) (by rw [hl]; simp)).1
      exact (hex.exactly _).mp (by rw [hl]; simp [this])
    have hgo : g ∈ G.out (G.src g) := by
      rw [← hex.edges _ hgv, List.mem_filter]
      exact ⟨by rw [hl]; simp, by simp⟩
    exact hK u hu e he _ hgv g hgo h1.symm
  refine ⟨fun hlt => ?_, fun hlt hk => ?_, fun hl => ?_⟩
  · have hne : s.map (key e) ≠ none := by
      refine (hb.done u hu List.not_mem_nil e he ?_).resolve_left (by rw [hb.short (by simp)]; simp)
      rw [← htime u hu, ← htime _ (hG.tgt u hu e he)]
      omega
    obtain ⟨i, hi⟩ := Option.ne_none_iff_exists'.mp hne
    obtain ⟨g, h1, -, h3, h4⟩ := hmap i hi
    have hge : g = e := h1.resolve_right (fun hh => by
      rw [hh, hU.src_rev hG hu he, hU.tgt_rev u hu e he] at h3
      omega)
    rw [hge] at h4
    refine ⟨i, hi, fun j => ⟨fun hj => ?_, fun hj => by rw [hj]; exact h4⟩⟩
    refine Graph.ClosedBy.unique (fun a r hl hmem => ?_) hj h4
    have hnd := hU.nodup u hu
    rw [← hex.edges u hu, hl] at hnd
    simp only [examined_append, examined_nonTree, List.filter_append, List.filter_cons, hsrc, decide_true, if_true] at hnd
    exact (List.nodup_append'.mp hnd).2.2 (List.mem_filter.mpr ⟨hmem, by simp [hsrc]⟩) List.mem_cons_self
  · by_contra hh
    obtain ⟨i, hi⟩ := Option.ne_none_iff_exists'.mp hh
    obtain ⟨g, h1, h2, h3, -⟩ := hmap i hi
    rcases h1 with rfl | rfl
    · rw [hsrc] at h3; omega
    · exact hk h2.symm
  · by_contra hh
    obtain ⟨i, hi⟩ := Option.ne_none_iff_exists'.mp hh
    obtain ⟨g, h1, h2, h3, -⟩ := hmap i hi
    rcases h1 with rfl | rfl
    · rw [hsrc, hl] at h3; omega
    · rw [hU.src_rev hG hu he, hU.tgt_rev u hu e he, hl] at h3; omega

/-- In the triangle 0-1-2 with the edge 1-3 the edges 3-1 and 2-1, in different biconnected components, are closed by the
first return, that from 3 to 1, and the edge 2-0, in the component of 2-1, by the second, that from 1 to 0. -/
example : ∃ t l, dfsAll flagGraph ((timeStamper (-1)).fst logger) (fun _ => false) 30 (⟨fun _ => 0, fun _ => 0, 0⟩, []) =
      some (t, l) ∧
    flagGraph.ClosedBy t.inTime l (3, 1) 0 ∧ flagGraph.ClosedBy t.inTime l (2, 1) 0 ∧
    flagGraph.ClosedBy t.inTime l (2, 0) 1 := by
  obtain ⟨h1, h2, -, res, hres, h3, h4⟩ := findBiconnected_merges
  obtain ⟨⟨t, l⟩, ht⟩ : ∃ r, dfsAll flagGraph ((timeStamper (-1)).fst logger) (fun _ => false) 30
    (⟨fun _ => 0, fun _ => 0, 0⟩, []) = some r := ⟨_, rfl⟩
  refine ⟨t, l, ht, ?_⟩
  have htimes : (t.inTime 0, t.inTime 1, t.inTime 2, t.inTime 3) = (0, 1, 2, 3) := by
    have := congrArg (Option.map (fun r => (r.1.inTime 0, r.1.inTime 1, r.1.inTime 2, r.1.inTime 3))) ht
    exact Option.some.inj (this.symm.trans (by decide +kernel))
  simp only [Prod.mk.injEq] at htimes
  obtain ⟨t0, t1, t2, t3⟩ := htimes
  have h5 : res (2, 0) = some 1 := by
    have := congrArg (Option.map (fun r => r (2, 0))) hres
    exact Option.some.inj (this.symm.trans (by decide +kernel))
  have hc := findBiconnected_char h1 h2 (pair_keys _) hres (Int.le_refl 0) ht
  have hcl : ∀ u ∈ flagGraph.vertices, ∀ e ∈ flagGraph.out u, ∀ i, t.inTime (flagGraph.tgt e) < t.inTime u →
      res e = some i → flagGraph.ClosedBy t.inTime l e i := by
    intro u hu e he i hlt hi
    obtain ⟨j, hj, hk⟩ := (hc u hu e he).1 hlt
    exact (hk i).mpr (Option.some.inj (hi.symm.trans hj))
  exact ⟨hcl 3 (by decide) (3, 1) (by decide) 0 (by show t.inTime 1 < t.inTime 3; omega) h3,
    hcl 2 (by decide) (2, 1) (by decide) 0 (by show t.inTime 1 < t.inTime 2; omega) h4,
    hcl 2 (by decide) (2, 0) (by decide) 1 (by show t.inTime 0 < t.inTime 2; omega) h5⟩

end Actl.Traversal
