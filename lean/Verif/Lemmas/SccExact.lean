import Verif.Lemmas.Scc

/-!
Which edges the search for strongly connected components follows: all but those to a vertex finished
before the source of the edge was started.
-/

namespace Actl.Traversal

variable {V E : Type} [DecidableEq V] {G : Graph V E} {M : Int}

open Classical in
/-- The edges between discovered vertices (`D`) to a vertex of the path (`P`) or to one finished after
the source was started. -/
noncomputable def kept (G : Graph V E) (P : List V) (D : Set V) (t : Stamps V) : Graph V E where
  vertices := G.vertices
  out x := (G.out x).filter
    (fun e => decide (x ∈ D ∧ G.tgt e ∈ D ∧ (G.tgt e ∈ P ∨ t.inTime x < t.outTime (G.tgt e))))
  src := G.src
  tgt := G.tgt

theorem kept_adj {P : List V} {D : Set V} {t : Stamps V} {x y : V} :
    (kept G P D t).Adj x y ↔ G.Adj x y ∧ x ∈ D ∧ y ∈ D ∧ (y ∈ P ∨ t.inTime x < t.outTime y) := by
  constructor
  · rintro ⟨e, he, rfl⟩
    have he := List.mem_filter.mp he
    have h2 : x ∈ D ∧ G.tgt e ∈ D ∧ (G.tgt e ∈ P ∨ t.inTime x < t.outTime (G.tgt e)) := by simpa using he.2
    exact ⟨⟨e, he.1, rfl⟩, h2⟩
  · rintro ⟨⟨e, he, rfl⟩, h⟩
    exact ⟨e, List.mem_filter.mpr ⟨he, by simpa using h⟩, rfl⟩

theorem Graph.Reach.mono {G1 G2 : Graph V E} (h : ∀ x y, G1.Adj x y → G2.Adj x y) {x y : V} (hr : G1.Reach x y) :
    G2.Reach x y := hr.lift id h

theorem SccLow.mono {G1 G2 : Graph V E} (hv : G1.vertices = G2.vertices) (hr : ∀ x y, G1.Adj x y → G2.Adj x y)
    {T : V → Int} {P : List V} {D : Set V} {s : SccState V} (h : SccLow G1 M T P D s) : SccLow G2 M T P D s where
  count := by
    have := h.count
    unfold undisc at this ⊢
    rw [← hv]; exact this
  pos := h.pos
  bound := by rw [← hv]; exact h.bound
  times := h.times
  incr := h.incr
  chain := h.chain.imp fun k => k.mono hr
  low x hx := by
    obtain ⟨a, a1, a2, a3, a4⟩ := h.low x hx
    exact ⟨a, a1, a2, a3, a4.mono hr⟩
  root := h.root
  gray := h.gray
  black := h.black
  white := by rw [← hv]; exact h.white

theorem StackOK.imp {R R' : V → V → Prop} (hr : ∀ x y, R x y → R' x y) {P st : List V} (h : StackOK R P st) :
    StackOK R' P st := by
  induction h with
  | nil => exact .nil
  | cons hS _ ih => exact .cons (fun y hy => hr _ _ (hS y hy)) ih

theorem CompOK.imp {R R' : V → V → Prop} (hr : ∀ x y, R x y → R' x y) {P : List V} {D : Set V} {c : CompStack V}
    (h : CompOK R P D c) : CompOK R' P D c :=
  ⟨h.ok.imp hr, h.nodup, h.sub, h.nonneg, h.range, fun y hy hn z hz hn' he => hr _ _ (h.same y hy hn z hz hn' he),
    h.used, h.good⟩

theorem Graph.Mutual.mono {G1 G2 : Graph V E} (h : ∀ x y, G1.Adj x y → G2.Adj x y) (x y : V) (hm : G1.Mutual x y) :
    G2.Mutual x y := ⟨hm.1.mono h, hm.2.mono h⟩

/-- What `pop` does. -/
theorem CompOK.pop_spec {R : V → V → Prop} {P : List V} {D : Set V} {c : CompStack V} {x : V} (h : CompOK R (x :: P) D c) :
    ∃ S st, c.stack = S ++ x :: st ∧ (c.pop x).stack = st ∧
      (∀ y, (c.pop x).map y = if y ∈ S ∨ y = x then c.n else c.map y) ∧ ∀ y ∈ P, y ∈ st := by
  obtain ⟨h1, h2, -⟩ := h
  obtain ⟨stack, map, n, bad⟩ := c
  simp only at h1 h2
  cases h1 with
  | @cons _ _ S st hS hst =>
    have hxS : x ∉ S := by
      intro hx
      exact (List.nodup_append.mp h2).2.2 x hx x (by simp) rfl
    obtain ⟨m', e1, e2⟩ := popLoop_spec x n S st map hxS
    have hpop : CompStack.pop ⟨S ++ x :: st, map, n, bad⟩ x = ⟨st, m', n + 1, bad⟩ := by
      unfold CompStack.pop
      simp only [e1]
    rw [hpop]
    exact ⟨S, st, rfl, rfl, e2, hst.mem⟩

/-- The invariant: `t` are the stamps of a search with the same events. -/
structure SccX (G : Graph V E) (M c : Int) (P : List V) (D : Set V) (s : SccState V) (t : Stamps V) : Prop where
  clock : s.now + 1 = t.now + c
  ins : ∀ x ∈ D, t.inTime x < t.now
  outs : ∀ y ∈ D, y ∉ P → t.outTime y ≤ t.now
  sep : ∀ y ∈ D, y ∉ P → ∀ w ∈ P, t.inTime y < t.inTime w → t.outTime y ≤ t.inTime w
  low : SccLow (kept G P D t) M (fun x => t.inTime x + c) P D s
  comp : CompOK (kept G P D t).Mutual P D s.components
  sorted : s.components.stack.Pairwise (fun x y => t.inTime y < t.inTime x)
  closed : ∀ x ∈ D, x ∉ s.components.stack → ∀ y, (kept G P D t).Adj x y →
    y ∉ s.components.stack ∧ s.components.map y ≤ s.components.map x
  back : ∀ x ∈ D, x ∉ P → ∀ v ∈ P, t.inTime v ≤ t.inTime x → (∀ w ∈ P, t.inTime w ≤ t.inTime x → t.inTime w ≤ t.inTime v) →
    ∀ y ∈ P, G.Adj x y → s.timeLow v ≤ t.inTime y + c
  done : ∀ x ∈ D, x ∉ P → ∀ y, G.Adj x y → y ∈ D

theorem SccX.start {c : Int} {P : List V} {D : Set V} {s : SccState V} {t : Stamps V} (h : SccX G M c P D s t) {v : V}
    (hv : v ∈ G.vertices) (hD : v ∉ D) (hr : ∀ u P', P = u :: P' → G.Adj u v) :
    SccX G M c (v :: P) (insert v D) ((sccFinder G M).on (.start v) s)
      ((timeStamper (E := E) (-1)).on (.start v) t) := by
  have hne : ∀ x ∈ D, x ≠ v := fun x hx hxv => hD (hxv ▸ hx)
  have hPD := h.low.gray
  have hin : ∀ x ∈ D, ((timeStamper (E := E) (-1)).on (.start v) t).inTime x = t.inTime x := fun x hx => by
    simp [timeStamper, put, hne x hx]
  have hinv : ((timeStamper (E := E) (-1)).on (.start v) t).inTime v = t.now := by simp [timeStamper, put]
  have hout : ((timeStamper (E := E) (-1)).on (.start v) t).outTime = t.outTime := rfl
  have hnow : ((timeStamper (E := E) (-1)).on (.start v) t).now = t.now + 1 := rfl
  have hTe : (fun x => ((timeStamper (E := E) (-1)).on (.start v) t).inTime x + c) =
      put (fun x => t.inTime x + c) v (s.now + 1) := by
    funext x
    have := h.clock
    by_cases hxv : x = v
    · simp [timeStamper, put, hxv]; omega
    · simp [timeStamper, put, hxv]
  generalize (timeStamper (E := E) (-1)).on (.start v) t = t' at *
  have hmono : ∀ x y, (kept G P D t).Adj x y → (kept G (v :: P) (insert v D) t').Adj x y := by
    intro x y k
    obtain ⟨k1, k2, k3, k4⟩ := kept_adj.mp k
    refine kept_adj.mpr ⟨k1, Set.mem_insert_of_mem _ k2, Set.mem_insert_of_mem _ k3, ?_⟩
    rw [hout, hin x k2]
    exact k4.imp (List.mem_cons_of_mem _) id
  have hlow := SccLow.mono (G1 := kept G P D t) (G2 := kept G (v :: P) (insert v D) t') rfl hmono h.low
  have hback : ∀ x ∈ insert v D, x ∉ v :: P → x ∈ D ∧ x ∉ P ∧ x ≠ v := by
    intro x hx hn
    have hn := not_or.mp (fun h => hn (List.mem_cons.mpr h))
    exact ⟨(Set.mem_insert_iff.mp hx).resolve_left hn.1, hn.2, hn.1⟩
  refine ⟨?_, ?_, ?_, ?_, ?_, (h.comp.imp (Graph.Mutual.mono hmono)).push hD, ?_, ?_, ?_, ?_⟩
  · show s.now + 1 + 1 = _
    rw [hnow]
    have := h.clock
    omega
  · intro x hx
    rw [hnow]
    rcases Set.mem_insert_iff.mp hx with rfl | hx
    · rw [hinv]; omega
    · rw [hin x hx]; have := h.ins x hx; omega
  · intro y hy hn
    obtain ⟨k1, k2, -⟩ := hback y hy hn
    rw [hout, hnow]
    have := h.outs y k1 k2
    omega
  · intro y hy hn w hw
    obtain ⟨k1, k2, -⟩ := hback y hy hn
    rw [hin y k1, hout]
    rcases List.mem_cons.mp hw with rfl | hw
    · intro _
      rw [hinv]; exact h.outs y k1 k2
    · rw [hin w (hPD w hw)]
      exact h.sep y k1 k2 w hw
  · rw [hTe]
    refine hlow.enter hv hD (fun x hx => ?_)
    match P, hr, hlow, hPD, hx with
    | u :: P', hr, hlow, hPD, hx =>
      have hu : (kept G (v :: u :: P') (insert v D) t').Reach u v := .single (kept_adj.mpr ⟨hr u P' rfl,
        Set.mem_insert_of_mem _ (hPD u List.mem_cons_self), Set.mem_insert _ _, Or.inl List.mem_cons_self⟩)
      rcases List.mem_cons.mp hx with rfl | hx
      · exact hu
      · exact ((List.pairwise_cons.mp hlow.chain).1 x hx).trans hu
  · refine List.pairwise_cons.mpr ⟨fun y hy => ?_, ?_⟩
    · have hyD := h.comp.sub y hy
      rw [hinv, hin y hyD]; exact h.ins y hyD
    · refine h.sorted.imp_of_mem (fun {a b} ha hb hab => ?_)
      rw [hin _ (h.comp.sub _ ha), hin _ (h.comp.sub _ hb)]; exact hab
  · intro x hx hn y hxy
    have hn : x ∉ v :: s.components.stack := hn
    have hn := not_or.mp (fun h => hn (List.mem_cons.mpr h))
    have hxD := (Set.mem_insert_iff.mp hx).resolve_left hn.1
    have hxP : x ∉ P := fun hp => hn.2 (h.comp.ok.mem x hp)
    obtain ⟨k1, -, k3, k4⟩ := kept_adj.mp hxy
    have hyD := h.done x hxD hxP y k1
    rw [hin x hxD, hout] at k4
    have := h.closed x hxD hn.2 y (kept_adj.mpr ⟨k1, hxD, hyD, k4.imp_left (fun hm =>
      (List.mem_cons.mp hm).resolve_left (hne y hyD))⟩)
    refine ⟨?_, this.2⟩
    show y ∉ v :: s.components.stack
    rw [List.mem_cons, not_or]
    exact ⟨hne y hyD, this.1⟩
  · intro x hx hn a ha hax hmax y hy hxy
    obtain ⟨k1, k2, k3⟩ := hback x hx hn
    have hyD := h.done x k1 k2 y hxy
    have hyP := (List.mem_cons.mp hy).resolve_left (hne y hyD)
    rw [hin x k1] at hax
    have hav : a ≠ v := by
      rintro rfl
      rw [hinv] at hax
      have := h.ins x k1
      omega
    have haP := (List.mem_cons.mp ha).resolve_left hav
    rw [hin a (hPD a haP)] at hax
    rw [hin y hyD]
    show put s.timeLow v (s.now + 1) a ≤ _
    rw [show put s.timeLow v (s.now + 1) a = s.timeLow a by simp [put, hav]]
    refine h.back x k1 k2 a haP hax (fun w hw hwx => ?_) y hyP hxy
    have := hmax w (List.mem_cons_of_mem _ hw)
    rw [hin w (hPD w hw), hin x k1, hin a (hPD a haP)] at this
    exact this hwx
  · intro x hx hn y hxy
    obtain ⟨k1, k2, -⟩ := hback x hx hn
    exact Set.mem_insert_of_mem _ (h.done x k1 k2 y hxy)

/-- Finishing the current vertex, all of whose edges are done. -/
theorem SccX.leave {c : Int} {P : List V} {D : Set V} {s s2 : SccState V} {t : Stamps V} {v : V}
    (h : SccX G M c (v :: P) D s t)
    (hdone : ∀ y, G.Adj v y → y ∈ D ∧ (y ∈ v :: P → s.timeLow v ≤ t.inTime y + c))
    (hnow : s2.now = s.now)
    (hcomp : s2.components = if s.notRoot v then s.components else s.components.pop v)
    (hlow : SccLow (kept G (v :: P) D t) M (fun x => t.inTime x + c) P D s2)
    (hok : CompOK (kept G (v :: P) D t).Mutual P D s2.components)
    (hle : ∀ a ∈ P, s2.timeLow a ≤ s.timeLow a)
    (hpar : ∀ u ∈ P, (∀ w ∈ P, t.inTime w ≤ t.inTime u) → s2.timeLow u ≤ s.timeLow v) :
    SccX G M c P D s2 ((timeStamper (E := E) (-1)).on (.finish v) t) := by
  have hin : ((timeStamper (E := E) (-1)).on (.finish v) t).inTime = t.inTime := rfl
  have hn' : ((timeStamper (E := E) (-1)).on (.finish v) t).now = t.now := rfl
  have hout : ∀ y, y ≠ v → ((timeStamper (E := E) (-1)).on (.finish v) t).outTime y = t.outTime y := fun y hy => by
    simp [timeStamper, put, hy]
  have hov : ((timeStamper (E := E) (-1)).on (.finish v) t).outTime v = t.now := by simp [timeStamper, put]
  generalize (timeStamper (E := E) (-1)).on (.finish v) t = t' at *
  have hinc := List.pairwise_cons.mp h.low.incr
  have hlt : ∀ x ∈ P, t.inTime x < t.inTime v := fun x hx => by
    have := hinc.1 x hx
    omega
  have hvP : v ∉ P := fun hv => by have := hlt v hv; omega
  have hvD := h.low.gray v List.mem_cons_self
  have hadj : ∀ x y, (kept G (v :: P) D t).Adj x y ↔ (kept G P D t').Adj x y := by
    intro x y
    rw [kept_adj, kept_adj, hin]
    refine and_congr_right (fun _ => and_congr_right (fun hx => and_congr_right (fun hy => ?_)))
    by_cases hyv : y = v
    · subst hyv
      rw [hov]
      have := h.ins x hx
      simp only [List.mem_cons, true_or, true_iff]
      exact Or.inr this
    · rw [hout y hyv]
      simp [hyv]
  have hmono := fun x y => (hadj x y).mp
  have hTv := fun x hx => h.low.times x hx
  have hcase : ∀ x ∈ D, x ∉ P → x = v ∨ x ∉ v :: P := by
    intro x _ hx
    by_cases hxv : x = v
    · exact Or.inl hxv
    · exact Or.inr (fun hm => (List.mem_cons.mp hm).elim hxv hx)
  have hback : ∀ x ∈ D, x ∉ P → ∀ y ∈ v :: P, G.Adj x y → t.inTime v ≤ t.inTime x → s.timeLow v ≤ t.inTime y + c := by
    intro x hx hn y hy hxy hvx
    rcases hcase x hx hn with rfl | hn
    · exact (hdone y hxy).2 hy
    · refine h.back x hx hn v List.mem_cons_self hvx (fun w hw _ => ?_) y hy hxy
      rcases List.mem_cons.mp hw with rfl | hw
      · exact Int.le_refl _
      · have := hlt w hw; omega
  have hdn : ∀ x ∈ D, x ∉ P → ∀ y, G.Adj x y → y ∈ D := by
    intro x hx hn y hxy
    rcases hcase x hx hn with rfl | hn
    · exact (hdone y hxy).1
    · exact h.done x hx hn y hxy
  refine ⟨by rw [hnow, hn']; exact h.clock, by rw [hin, hn']; exact h.ins, ?_, ?_, ?_, hok.imp (Graph.Mutual.mono hmono), ?_, ?_, ?_, hdn⟩
  · intro y hy hn
    rw [hn']
    rcases hcase y hy hn with rfl | hn
    · rw [hov]
    · rw [hout y (fun hh => hn (hh ▸ List.mem_cons_self))]
      exact h.outs y hy hn
  · intro y hy hn w hw hyw
    rw [hin] at hyw ⊢
    rcases hcase y hy hn with rfl | hn
    · have := hlt w hw; omega
    · rw [hout y (fun hh => hn (hh ▸ List.mem_cons_self))]
      exact h.sep y hy hn w (List.mem_cons_of_mem _ hw) hyw
  · rw [hin]
    exact SccLow.mono (G1 := kept G (v :: P) D t) (G2 := kept G P D t') rfl hmono hlow
  · rw [hin, hcomp]
    split
    · exact h.sorted
    · obtain ⟨S, st, e1, e2, -, -⟩ := h.comp.pop_spec
      rw [e2]
      have := h.sorted
      rw [e1] at this
      exact (List.pairwise_cons.mp (List.pairwise_append.mp this).2.1).2
  · intro x hx hn y hxy
    have hxy := (hadj x y).mpr hxy
    rw [hcomp] at hn ⊢
    by_cases hr : s.notRoot v = true
    · rw [if_pos hr] at hn ⊢
      exact h.closed x hx hn y hxy
    · rw [if_neg hr] at hn ⊢
      obtain ⟨S, st, e1, e2, e3, e4⟩ := h.comp.pop_spec
      have hlv : s.timeLow v = t.inTime v + c := by
        by_contra hh
        exact hr ((h.low.root v List.mem_cons_self).mpr hh)
      have hsort := h.sorted
      rw [e1] at hsort
      have hs2 := List.pairwise_append.mp hsort
      have hst : ∀ z ∈ st, t.inTime z < t.inTime v := (List.pairwise_cons.mp hs2.2.1).1
      have hS : ∀ z ∈ S, t.inTime v < t.inTime z := fun z hz => hs2.2.2 z hz v (by simp)
      have hyD := (kept_adj.mp hxy).2.2.1
      rw [e2] at hn ⊢
      rw [e3, e3]
      by_cases hxS : x ∈ S ∨ x = v
      · rw [if_pos hxS]
        have hxP : x ∉ P := fun hp => hn (e4 x hp)
        have hvx : t.inTime v ≤ t.inTime x := by
          rcases hxS with hxS | rfl
          · have := hS x hxS; omega
          · exact Int.le_refl _
        have hyst : y ∉ st := by
          intro hy
          have hyv := hst y hy
          obtain ⟨k1, k2, k3, k4⟩ := kept_adj.mp hxy
          by_cases hyP : y ∈ v :: P
          · have := hback x hx hxP y hyP k1 hvx
            omega
          · have k4 := k4.resolve_left hyP
            have := h.sep y k3 hyP v List.mem_cons_self hyv
            omega
        refine ⟨hyst, ?_⟩
        split
        · exact Int.le_refl _
        · rename_i hyS
          have : y ∉ s.components.stack := by
            rw [e1, List.mem_append, List.mem_cons]
            tauto
          have := (h.comp.range y hyD this).2
          omega
      · rw [if_neg hxS]
        have hxs : x ∉ s.components.stack := by
          rw [e1, List.mem_append, List.mem_cons]
          tauto
        obtain ⟨k1, k2⟩ := h.closed x hx hxs y hxy
        rw [e1, List.mem_append, List.mem_cons] at k1
        rw [if_neg (by tauto)]
        exact ⟨fun hh => k1 (Or.inr (Or.inr hh)), k2⟩
  · intro x hx hn a ha hax hmax y hy hxy
    rw [hin] at hax hmax ⊢
    by_cases hvx : t.inTime v ≤ t.inTime x
    · have h1 := hback x hx hn y (List.mem_cons_of_mem _ hy) hxy hvx
      have h2 := hpar a ha (fun w hw => hmax w hw (by have := hlt w hw; omega))
      omega
    · rcases hcase x hx hn with rfl | hn
      · omega
      · have h1 := h.back x hx hn a (List.mem_cons_of_mem _ ha) hax (fun w hw hwx => by
          rcases List.mem_cons.mp hw with rfl | hw
          · omega
          · exact hmax w hw hwx) y (List.mem_cons_of_mem _ hy) hxy
        have := hle a ha
        omega

theorem SccState.edge_le (G : Graph V E) (e : E) (s : SccState V) (x : V) : (s.edge G e).timeLow x ≤ s.timeLow x := by
  unfold SccState.edge
  simp only
  split
  · by_cases hx : x = G.src e
    · subst hx
      simp only [put, if_true]
      omega
    · simp [put, hx]
  · exact Int.le_refl _

theorem SccState.edge_src (G : Graph V E) (e : E) (s : SccState V) :
    (s.edge G e).timeLow (G.src e) ≤ s.timeLow (G.tgt e) := by
  unfold SccState.edge
  simp only
  split
  · simp [put]
  · omega

theorem SccState.edge_now (G : Graph V E) (e : E) (s : SccState V) : (s.edge G e).now = s.now := by
  unfold SccState.edge
  simp only
  split <;> rfl

theorem SccX.leaveTree {c : Int} {P : List V} {D : Set V} {s : SccState V} {t : Stamps V} {e : E}
    (h : SccX G M c (G.tgt e :: G.src e :: P) D s t) (he : e ∈ G.out (G.src e))
    (hdone : ∀ y, G.Adj (G.tgt e) y → y ∈ D ∧ (y ∈ G.tgt e :: G.src e :: P → s.timeLow (G.tgt e) ≤ t.inTime y + c)) :
    SccX G M c (G.src e :: P) D ((sccFinder G M).on (.treeFinish e) ((sccFinder G M).on (.finish (G.tgt e)) s))
      ((timeStamper (E := E) (-1)).on (.finish (G.tgt e)) t) ∧
    ∀ a ∈ G.src e :: P, ((sccFinder G M).on (.treeFinish e) ((sccFinder G M).on (.finish (G.tgt e)) s)).timeLow a ≤ s.timeLow a := by
  obtain ⟨f1, f2, f3⟩ := sccFinish_same G M (G.tgt e) s
  have fc := sccFinish_comp G M (G.tgt e) s
  have hr : (kept G (G.tgt e :: G.src e :: P) D t).Reach (G.src e) (G.tgt e) := .single (kept_adj.mpr
    ⟨⟨e, he, rfl⟩, h.low.gray _ (by simp), h.low.gray _ (by simp), Or.inl List.mem_cons_self⟩)
  have hl1 := h.low.congr f1 f2 f3
  have hl2 := hl1.edge (e := e) (by show G.src e ∈ _; simp) (h.low.gray _ (by show G.tgt e ∈ _; simp)) fun _ => hr
  have hl3 := hl2.drop
  have hinc := List.pairwise_cons.mp h.low.incr
  have hne : ∀ x ∈ G.src e :: P, x ≠ G.tgt e := fun x hx hxv => by
    have := hinc.1 x hx
    rw [hxv] at this
    omega
  have hc : ((sccFinder G M).on (.treeFinish e) ((sccFinder G M).on (.finish (G.tgt e)) s)).components =
      if s.notRoot (G.tgt e) then s.components else s.components.pop (G.tgt e) := by
    show (SccState.edge G e _).components = _
    rw [SccState.edge_components, fc]
  have htl : ∀ a ∈ G.src e :: P, ((sccFinder G M).on (.treeFinish e) ((sccFinder G M).on (.finish (G.tgt e)) s)).timeLow a =
      (((sccFinder G M).on (.finish (G.tgt e)) s).edge G e).timeLow a := by
    intro a ha
    show put (((sccFinder G M).on (.finish (G.tgt e)) s).edge G e).timeLow (G.tgt e) M a = _
    simp [put, hne a ha]
  have hle : ∀ a ∈ G.src e :: P, ((sccFinder G M).on (.treeFinish e) ((sccFinder G M).on (.finish (G.tgt e)) s)).timeLow a ≤
      s.timeLow a := by
    intro a ha
    rw [htl a ha, ← f1]
    exact SccState.edge_le _ _ _ _
  refine ⟨h.leave hdone ?_ hc hl3 ?_ hle ?_, hle⟩
  · show (SccState.edge G e _).now = _
    rw [SccState.edge_now, f3]
  · rw [hc]
    by_cases hn : s.notRoot (G.tgt e) = true
    · rw [if_pos hn]
      refine h.comp.keep (Graph.mutual_equiv _) ⟨hr, ?_⟩
      obtain ⟨a, ha, a1, a2, a3⟩ := h.low.low (G.tgt e) List.mem_cons_self
      have hne := (h.low.root _ List.mem_cons_self).mp hn
      rcases List.mem_cons.mp ha with rfl | ha
      · exact absurd a1 hne
      · rcases List.mem_cons.mp ha with rfl | ha
        · exact a3
        · exact a3.trans ((List.pairwise_cons.mp (List.pairwise_cons.mp h.low.chain).2).1 a ha)
    · rw [if_neg hn]
      exact h.comp.pop (Graph.mutual_equiv _)
  · intro u hu hmax
    have hus : u = G.src e := by
      rcases List.mem_cons.mp hu with rfl | hu
      · rfl
      · have h1 := (List.pairwise_cons.mp hinc.2).1 u hu
        have h2 := hmax (G.src e) List.mem_cons_self
        omega
    subst hus
    rw [htl _ hu, ← f1]
    exact SccState.edge_src _ _ _

theorem SccX.leaveRoot {c : Int} {D : Set V} {s : SccState V} {t : Stamps V} {u : V} (h : SccX G M c [u] D s t)
    (hdone : ∀ y, G.Adj u y → y ∈ D ∧ (y ∈ [u] → s.timeLow u ≤ t.inTime y + c)) :
    SccX G M c [] D ((sccFinder G M).on (.searchFinish u) ((sccFinder G M).on (.finish u) s))
      ((timeStamper (E := E) (-1)).on (.finish u) t) := by
  obtain ⟨f1, f2, f3⟩ := sccFinish_same G M u s
  have fc := sccFinish_comp G M u s
  obtain ⟨a, ha, a1, a2, a3⟩ := h.low.low u List.mem_cons_self
  rw [List.mem_singleton.mp ha] at a1
  have hn : ¬s.notRoot u = true := fun hn => (h.low.root _ List.mem_cons_self).mp hn a1
  refine h.leave hdone f3 fc (h.low.congr f1 f2 f3).drop ?_ (fun a ha => absurd ha List.not_mem_nil)
    (fun a ha => absurd ha List.not_mem_nil)
  show CompOK _ [] D ((sccFinder G M).on (.finish u) s).components
  rw [fc, if_neg hn]
  exact h.comp.pop (Graph.mutual_equiv _)

theorem Run.sccX (hG : G.WF) {D D' : Set V} {es : List E} {l : List (Event V E)} (r : Run G D es l D') {c : Int} (u : V)
    (P : List V) (s : SccState V) (t : Stamps V) (ds : List E) (hu : u ∈ G.vertices) (hes : G.out u = ds ++ es)
    (h : SccX G M c (u :: P) D s t)
    (hdone : ∀ f ∈ ds, G.tgt f ∈ D ∧ (G.tgt f ∈ u :: P → s.timeLow u ≤ t.inTime (G.tgt f) + c)) :
    SccX G M c (u :: P) D' (after (sccFinder G M) s l) (after (timeStamper (-1)) t l) ∧
    (∀ y, G.Adj u y → y ∈ D' ∧
      (y ∈ u :: P → (after (sccFinder G M) s l).timeLow u ≤ (after (timeStamper (-1)) t l).inTime y + c)) ∧
    (∀ a ∈ u :: P, (after (sccFinder G M) s l).timeLow a ≤ s.timeLow a) ∧
    (∀ x ∈ D, (after (timeStamper (-1)) t l).inTime x = t.inTime x) ∧ D ⊆ D' := by
  induction r generalizing u P s t ds with
  | nil D =>
    refine ⟨h, ?_, fun a _ => Int.le_refl _, fun x _ => rfl, fun _ h => h⟩
    rintro y ⟨f, hf, rfl⟩
    rw [hes, List.append_nil] at hf
    exact hdone f hf
  | @skip D D' e es l ht r ih =>
    have he : e ∈ G.out u := by rw [hes]; simp
    have hsrc := hG.src u hu e he
    have hX : SccX G M c (u :: P) D (s.edge G e) t := by
      refine ⟨by rw [SccState.edge_now]; exact h.clock, h.ins, h.outs, h.sep, ?_, by rw [SccState.edge_components]; exact h.comp,
        by rw [SccState.edge_components]; exact h.sorted, by rw [SccState.edge_components]; exact h.closed, ?_, h.done⟩
      · refine h.low.edge (e := e) (by show G.src e ∈ _; rw [hsrc]; simp) ht (fun hm => .single (kept_adj.mpr
          ⟨⟨e, by show e ∈ G.out (G.src e); rw [hsrc]; exact he, rfl⟩, h.low.gray _ (by show G.src e ∈ _; rw [hsrc]; simp), ht, Or.inl hm⟩))
      · intro x hx hn a ha hax hmax y hy hxy
        exact Int.le_trans (SccState.edge_le _ _ _ _) (h.back x hx hn a ha hax hmax y hy hxy)
    obtain ⟨i1, i2, i3, i4, i5⟩ := ih u P (s.edge G e) t (ds ++ [e]) hu (by rw [hes]; simp) hX (by
      intro f hf
      rcases List.mem_append.mp hf with hf | hf
      · exact ⟨(hdone f hf).1, fun hm => Int.le_trans (SccState.edge_le _ _ _ _) ((hdone f hf).2 hm)⟩
      · rw [List.mem_singleton.mp hf]
        refine ⟨ht, fun hm => ?_⟩
        have h1 := SccState.edge_src G e s
        obtain ⟨a, a0, a1, a2, -⟩ := h.low.low _ hm
        rw [hsrc] at h1
        omega)
    exact ⟨i1, i2, fun a ha => Int.le_trans (i3 a ha) (SccState.edge_le _ _ _ _), i4, i5⟩
  | @tree D D1 D2 e es l1 l2 ht r1 r2 ih1 ih2 =>
    have he : e ∈ G.out u := by rw [hes]; simp
    have hsrc := hG.src u hu e he
    have htm := hG.tgt u hu e he
    have huD := h.low.gray u List.mem_cons_self
    rw [after_append, after_append, after_append, after_append, after_append, after_append]
    have h1 := h.start htm ht (by
      intro u' P' hh
      injection hh with hh _
      exact ⟨e, hh ▸ he, rfl⟩)
    obtain ⟨j1, j2, j3, j4, j5⟩ := ih1 (G.tgt e) (u :: P) _ _ [] htm (by simp) h1 (fun f hf => absurd hf List.not_mem_nil)
    have hin1 : ∀ x ∈ D, ((timeStamper (E := E) (-1)).on (.start (G.tgt e)) t).inTime x = t.inTime x := fun x hx => by
      have : x ≠ G.tgt e := fun hh => ht (hh ▸ hx)
      simp [timeStamper, put, this]
    have hl1 : ∀ a ∈ u :: P, ((sccFinder G M).on (.start (G.tgt e)) s).timeLow a = s.timeLow a := fun a ha => by
      have : a ≠ G.tgt e := fun hh => ht (hh ▸ h.low.gray a ha)
      show put s.timeLow (G.tgt e) (s.now + 1) a = _
      simp [put, this]
    have hsub : D ⊆ D1 := fun x hx => j5 (Set.mem_insert_of_mem _ hx)
    rw [← hsrc] at j1 j2
    obtain ⟨k1, k2⟩ := j1.leaveTree (by rw [hsrc]; exact he) j2
    rw [hsrc] at k1 k2
    have hin2 : ∀ x ∈ D, (after (timeStamper (-1)) ((timeStamper (E := E) (-1)).on (.start (G.tgt e)) t) l1).inTime x =
        t.inTime x := fun x hx => (j4 x (Set.mem_insert_of_mem _ hx)).trans (hin1 x hx)
    have hdone' : ∀ f ∈ ds ++ [e], G.tgt f ∈ D1 ∧ (G.tgt f ∈ u :: P →
        ((sccFinder G M).on (.treeFinish e) ((sccFinder G M).on (.finish (G.tgt e))
          (after (sccFinder G M) ((sccFinder G M).on (.start (G.tgt e)) s) l1))).timeLow u ≤
        ((timeStamper (E := E) (-1)).on (.finish (G.tgt e)) (after (timeStamper (-1))
          ((timeStamper (E := E) (-1)).on (.start (G.tgt e)) t) l1)).inTime (G.tgt f) + c) := by
      intro f hf
      rcases List.mem_append.mp hf with hf | hf
      · refine ⟨hsub (hdone f hf).1, fun hm => ?_⟩
        have a1 := k2 u List.mem_cons_self
        have a2 := j3 u (by simp)
        rw [hl1 u List.mem_cons_self] at a2
        have a3 := (hdone f hf).2 hm
        show _ ≤ (after (timeStamper (-1)) ((timeStamper (E := E) (-1)).on (.start (G.tgt e)) t) l1).inTime (G.tgt f) + c
        rw [hin2 _ (hdone f hf).1]
        omega
      · rw [List.mem_singleton.mp hf]
        exact ⟨j5 (Set.mem_insert _ _), fun hm => absurd (h.low.gray _ hm) ht⟩
    obtain ⟨i1, i2, i3, i4, i5⟩ := ih2 u P _ _ (ds ++ [e]) hu (by rw [hes]; simp) k1 hdone'
    refine ⟨i1, i2, fun a ha => ?_, fun x hx => ?_, fun x hx => i5 (hsub hx)⟩
    · have b1 := i3 a ha
      have b2 := k2 a ha
      have b3 := j3 a (List.mem_cons_of_mem _ ha)
      rw [hl1 a ha] at b3
      exact Int.le_trans b1 (Int.le_trans b2 b3)
    · exact (i4 x (hsub hx)).trans (hin2 x hx)

theorem VisitAll.sccX (hG : G.WF) {D D' : Set V} {us : List V} {l : List (Event V E)} (r : VisitAll G D us l D') {c : Int}
    (s : SccState V) (t : Stamps V) (hus : ∀ u ∈ us, u ∈ G.vertices) (h : SccX G M c [] D s t) :
    SccX G M c [] D' (after (sccFinder G M) s l) (after (timeStamper (-1)) t l) := by
  induction r generalizing s t with
  | nil D => exact h
  | skip hu r ih => exact ih s t (fun u hu => hus u (List.mem_cons_of_mem _ hu)) h
  | @visit D D1 D2 u us l1 l2 hu hv r ih =>
    have hum := hus u List.mem_cons_self
    rw [after_append, after_append]
    refine ih _ _ (fun u hu => hus u (List.mem_cons_of_mem _ hu)) ?_
    obtain ⟨l', hr, rfl⟩ := hv
    rw [after_append, after_append, after_append, after_append]
    have h1 := h.start hum hu (fun u' P' hh => by cases hh)
    obtain ⟨j1, j2, -⟩ := hr.sccX hG u [] _ _ [] hum (by simp) h1 (fun f hf => absurd hf List.not_mem_nil)
    exact j1.leaveRoot j2

end Actl.Traversal
