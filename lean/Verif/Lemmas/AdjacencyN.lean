import Verif.Lemmas.Storage

/-! The adjacency list without an edge container: what it holds after any insertions. -/

namespace Actl.Storage

open Actl.Ids

variable {V β : Type} [LinearOrder V]

/-- The out-edges of a vertex with their bundles; the reversed ones have what is left of it. -/
def outN (moved : β → β) (un : Bool) (es : List (V × V × (β × Int))) (u : V) : List (V × β) :=
  es.filterMap fun e =>
    if e.1 = u then some (e.2.1, e.2.2.1)
    else if un = true ∧ e.2.1 = u then some (e.1, moved e.2.2.1) else none

theorem outN_append (moved : β → β) (un : Bool) (es : List (V × V × (β × Int))) (e : V × V × (β × Int))
    (u : V) : outN moved un (es ++ [e]) u = outN moved un es u ++
      (if e.1 = u then [(e.2.1, e.2.2.1)] else if un = true ∧ e.2.1 = u then [(e.1, moved e.2.2.1)]
        else []) := by
  unfold outN
  rw [List.filterMap_append]
  congr 1
  by_cases h1 : e.1 = u
  · simp [h1]
  · by_cases h2 : un = true ∧ e.2.1 = u
    · simp [h1, h2]
    · simp [h1, h2]

theorem outN_fst (moved : β → β) (un : Bool) (es : List (V × V × (β × Int))) (u : V) :
    (outN moved un es u).map Prod.fst = (outOf un es u).map Prod.fst := by
  unfold outN outOf
  rw [List.map_filterMap, List.map_filterMap]
  congr 1
  funext e
  split
  · rfl
  · split <;> rfl

theorem outN_length (moved : β → β) (un : Bool) (es : List (V × V × (β × Int))) (u : V) :
    (outN moved un es u).length ≤ es.length := List.length_filterMap_le _ _

theorem dup_outN {moved : β → β} {un : Bool} {es : List (V × V × (β × Int))} {u v : V} {b : β}
    {t : β × Int} :
    (∃ y ∈ outN moved un es u, Prod.fst y = Prod.fst (v, b)) ↔
      ∃ d ∈ es, ends un d = ends un (u, v, t) := by
  rw [← dup_outOf (t := t)]
  have h := outN_fst moved un es u
  constructor
  · rintro ⟨y, hy, e⟩
    have : y.1 ∈ (outOf un es u).map Prod.fst := h ▸ List.mem_map_of_mem hy
    obtain ⟨d, hd, e'⟩ := List.mem_map.mp this
    exact ⟨d, hd, e'.trans e⟩
  · rintro ⟨y, hy, e⟩
    have : y.1 ∈ (outN moved un es u).map Prod.fst := h ▸ List.mem_map_of_mem hy
    obtain ⟨d, hd, e'⟩ := List.mem_map.mp this
    exact ⟨d, hd, e'.trans e⟩

/-- What an adjacency list holds after the insertion of `es`, each with its bundle and the id it got. -/
structure NInv (moved : β → β) (k : Kind) (g : AdjN V β) (es : List (V × V × (β × Int))) : Prop where
  nd : g.vertices.Nodup
  closed : ∀ e ∈ es, e.1 ∈ g.vertices ∧ e.2.1 ∈ g.vertices
  kindO : ∀ u, (g.outs u).kind = k
  kindI : ∀ u, (g.ins u).kind = k
  out : ∀ u, Has Prod.fst (g.outs u) (outN moved g.dir.un es u)
  inn : g.dir.bi = true → ∀ u, Has Prod.fst (g.ins u) ((inOf es u).map fun d => (d.1, d.2.2))
  ids : ∀ e ∈ es, (g.outs e.1).at e.2.2.2 = some (e.2.1, e.2.2.1)
  idn : (es.map fun e => (e.1, e.2.2.2)).Nodup
  cnt : g.edges.cont.items.length = es.length
  ekind : g.edges.cont.kind = .vec

theorem NInv.init (moved : β → β) (dir : Dir) (k : Kind) {vs : List V} (h : vs.Nodup) :
    NInv moved k (AdjN.init dir k vs : AdjN V β) [] :=
  ⟨h, fun _ h => absurd h List.not_mem_nil, fun _ => rfl, fun _ => rfl, fun _ => Has.empty _ _,
    fun _ _ => Has.empty _ _, fun _ h => absurd h List.not_mem_nil, List.nodup_nil, rfl, rfl⟩

theorem count_step {R γ : Type} {V : Type} [LinearOrder V] (rep : Rep V R) (ord : Order (R × γ))
    {el : EdgeList R γ} (h : el.cont.kind.unique = false) (u v : V) (b : γ) :
    (el.tryAddEdge rep (fun _ => (0 : Nat)) ord u v b).1.cont.items.length = el.cont.items.length + 1 ∧
    (el.tryAddEdge rep (fun _ => (0 : Nat)) ord u v b).1.cont.kind = el.cont.kind := by
  simp only [EdgeList.tryAddEdge, Cont.idEmplace]
  refine ⟨?_, emplace_kind _ _ _⟩
  rw [emplace_new ord (by rw [h]; simp)]
  simp only [(inserted_perm _ ord el.cont _).length_eq, List.length_cons]

theorem setAt_same {γ : Type} (f : V → γ) (u : V) (x : γ) : setAt f u x u = x := if_pos rfl
theorem setAt_ne {γ : Type} (f : V → γ) {u v : V} (h : v ≠ u) (x : γ) : setAt f u x v = f v := if_neg h

/-- More vertices. -/
theorem NInv.grow {moved : β → β} {k : Kind} {g : AdjN V β} {es} (h : NInv moved k g es) {vs : List V}
    (hn : vs.Nodup) (hs : ∀ v ∈ g.vertices, v ∈ vs) : NInv moved k { g with vertices := vs } es :=
  ⟨hn, fun e he => ⟨hs _ (h.closed e he).1, hs _ (h.closed e he).2⟩, h.kindO, h.kindI, h.out, h.inn, h.ids, h.idn,
    h.cnt, h.ekind⟩

theorem NInv.fits {moved : β → β} {k : Kind} {g : AdjN V β} {es} (h : NInv moved k g es)
    (hl : k = .vec → es.length < 2 ^ 31) (u : V) : (g.outs u).Fits := fun hr => by
  have h1 := (h.out u).length
  have h2 := outN_length moved g.dir.un es u
  have h3 : k = .vec := by rw [h.kindO u] at hr; revert hr; cases k <;> simp [Kind.ra]
  have := hl h3
  omega

theorem NInv.fitsI {moved : β → β} {k : Kind} {g : AdjN V β} {es} (h : NInv moved k g es)
    (hl : k = .vec → es.length < 2 ^ 31) (hb : g.dir.bi = true) (u : V) : (g.ins u).Fits := fun hr => by
  have h1 := (h.inn hb u).length
  have h2 := inOf_length es u
  rw [List.length_map] at h1
  have h3 : k = .vec := by rw [h.kindI u] at hr; revert hr; cases k <;> simp [Kind.ra]
  have := hl h3
  omega

/-- One call of `try_add_edge`: refused exactly if the container is unique and the edge is there;
otherwise added. -/
theorem NInv.step {moved : β → β} {k : Kind} {g : AdjN V β} {es} (h : NInv moved k g es)
    (hl : k = .vec → es.length < 2 ^ 31) (o : OrdersN V β) {u v : V} (hu : u ∈ g.vertices)
    (hv : v ∈ g.vertices) (b : β) :
    ((k.unique = true ∧ ∃ d ∈ es, ends g.dir.un d = ends g.dir.un (u, v, (b, 0))) →
      g.tryAddEdgeImpl o moved u v b = some (g, none)) ∧
    (¬(k.unique = true ∧ ∃ d ∈ es, ends g.dir.un d = ends g.dir.un (u, v, (b, 0))) →
      ∃ g' id, g.tryAddEdgeImpl o moved u v b = some (g', some (u, v, id)) ∧
        NInv moved k g' (es ++ [(u, v, (b, id))]) ∧ g'.dir = g.dir ∧ g'.vertices = g.vertices ∧
        (g.outs u).at id = none) := by
  constructor
  · rintro ⟨hk, hd⟩
    have := (h.out u).refuse (h.fits hl u) (o.out u) (x := (v, b))
      ⟨by rw [h.kindO]; exact hk, (dup_outN (t := (b, 0))).mpr hd⟩
    simp only [AdjN.tryAddEdgeImpl, hu, not_true_eq_false, if_false, this, if_true]
  · intro hd
    obtain ⟨a1, a2, a3, a4, a5, a6⟩ := (h.out u).add (h.fits hl u) (o.out u) (x := (v, b)) (by
      rintro ⟨hk, hx⟩
      exact hd ⟨by rw [← h.kindO u]; exact hk, (dup_outN (t := (b, 0))).mp hx⟩)
    have hnf : ¬ ((g.outs u).idEmplace Prod.fst (o.out u) (v, b)).2.2 = false := by rw [a1]; simp
    have hcnt := count_step (noRep V) o.edge (el := g.edges) (by rw [h.ekind]; rfl) u v ()
    generalize hr : (g.outs u).idEmplace Prod.fst (o.out u) (v, b) = r at *
    have hun : g.dir.un = true ↔ g.dir = .undirected := by cases g.dir <;> simp [Dir.un]
    have hclosed : ∀ e ∈ es ++ [(u, v, (b, r.2.1))], e.1 ∈ g.vertices ∧ e.2.1 ∈ g.vertices := by
      intro e he
      rcases List.mem_append.mp he with he | he
      · exact h.closed e he
      · rw [List.mem_singleton.mp he]; exact ⟨hu, hv⟩
    -- the ids after the out-edges of `u` are changed
    have hids : ∀ e ∈ es ++ [(u, v, (b, r.2.1))],
        (setAt g.outs u r.1 e.1).at e.2.2.2 = some (e.2.1, e.2.2.1) := by
      intro e he
      rcases List.mem_append.mp he with he | he
      · by_cases heu : e.1 = u
        · rw [heu, setAt_same]; apply a6; rw [← heu]; exact h.ids e he
        · rw [setAt_ne _ heu]; exact h.ids e he
      · rw [List.mem_singleton.mp he, setAt_same]; exact a4
    have hout1 : ∀ w, (w = v → g.dir.un = true → u = v) → Has Prod.fst (setAt g.outs u r.1 w)
        (outN moved g.dir.un (es ++ [(u, v, (b, r.2.1))]) w) := by
      intro w hw
      rw [outN_append]
      by_cases hwu : w = u
      · subst hwu; rw [setAt_same]; simpa using a2
      · rw [setAt_ne _ hwu]
        have : ¬ (g.dir.un = true ∧ v = w) := by
          rintro ⟨h1, h2⟩; exact hwu (by rw [← h2]; exact (hw h2.symm h1).symm)
        simp only [Ne.symm hwu, if_false, this, List.append_nil]
        exact h.out w
    have hkO : ∀ w, (setAt g.outs u r.1 w).kind = k := by
      intro w
      by_cases hwu : w = u
      · rw [hwu, setAt_same, a3]; exact h.kindO u
      · rw [setAt_ne _ hwu]; exact h.kindO w
    have hidn : ((es ++ [(u, v, (b, r.2.1))]).map fun e => (e.1, e.2.2.2)).Nodup := by
      rw [List.map_append, List.nodup_append]
      refine ⟨h.idn, by simp, ?_⟩
      intro x hx y hy hxy
      obtain ⟨e, he, rfl⟩ := List.mem_map.mp hx
      rw [List.map_singleton, List.mem_singleton] at hy
      rw [hy] at hxy
      obtain ⟨e1, e2⟩ := Prod.mk.inj hxy
      have := h.ids e he
      rw [e1, e2, a5] at this
      simp at this
    have hcnt2 : ((g.edges.tryAddEdge (noRep V) (fun _ => (0 : Nat)) o.edge u v ()).1.cont.items.length =
        (es ++ [(u, v, (b, r.2.1))]).length) := by
      rw [hcnt.1, h.cnt]; simp
    have hek : (g.edges.tryAddEdge (noRep V) (fun _ => (0 : Nat)) o.edge u v ()).1.cont.kind = .vec := by
      rw [hcnt.2, h.ekind]
    rcases hdir : g.dir with _ | _ | _
    · -- directed
      refine ⟨⟨g.dir, g.vertices, setAt g.outs u r.1, g.ins,
          (g.edges.tryAddEdge (noRep V) (fun _ => (0 : Nat)) o.edge u v ()).1⟩, r.2.1, ?_, ?_, ?_, rfl, a5⟩
      · simp only [AdjN.tryAddEdgeImpl, hu, not_true_eq_false, if_false, hr, a1, hdir]; rfl
      · exact ⟨h.nd, hclosed, hkO, h.kindI, fun w => hout1 w (by simp [hdir, Dir.un]),
          fun hb => by simp [hdir, Dir.bi] at hb, hids, hidn, hcnt2, hek⟩
      · exact hdir
    · -- undirected
      have hu1 : g.dir.un = true := hun.mpr hdir
      by_cases huv : u = v
      · refine ⟨⟨g.dir, g.vertices, setAt g.outs u r.1, g.ins,
          (g.edges.tryAddEdge (noRep V) (fun _ => (0 : Nat)) o.edge u v ()).1⟩, r.2.1, ?_, ?_, hdir, rfl, a5⟩
        · simp only [AdjN.tryAddEdgeImpl, hu, not_true_eq_false, if_false, hr, a1, hdir]
          rw [if_neg (by simp), if_neg (by simpa using huv)]
        · exact ⟨h.nd, hclosed, hkO, h.kindI, fun w => hout1 w (fun _ _ => huv),
            fun hb => by simp [hdir, Dir.bi] at hb, hids, hidn, hcnt2, hek⟩
      · have hvu : v ≠ u := fun e => huv e.symm
        obtain ⟨b1, b2, b3, b4, -, b6⟩ := (h.out v).add (h.fits hl v) (o.out v) (x := (u, moved b)) (by
          rintro ⟨hk, hx⟩
          obtain ⟨d, hd1, hd2⟩ := (dup_outN (t := (b, 0))).mp hx
          refine hd ⟨by rw [← h.kindO v]; exact hk, d, hd1, hd2.trans ?_⟩
          exact (ends_eq_iff (d := (v, u, (b, (0 : Int)))) (e := (u, v, (b, 0)))).mpr (Or.inr ⟨hu1, rfl, rfl⟩))
        generalize hr2 : (g.outs v).idEmplace Prod.fst (o.out v) (u, moved b) = r2 at *
        refine ⟨⟨g.dir, g.vertices, setAt (setAt g.outs u r.1) v r2.1, g.ins,
          (g.edges.tryAddEdge (noRep V) (fun _ => (0 : Nat)) o.edge u v ()).1⟩, r.2.1, ?_, ?_, hdir, rfl, a5⟩
        · simp only [AdjN.tryAddEdgeImpl, hu, hv, not_true_eq_false, if_false, hr, a1, hdir,
            setAt_ne _ hvu, hr2]
          rw [if_neg (by simp), if_pos huv]
        · refine ⟨h.nd, hclosed, ?_, h.kindI, ?_, fun hb => by simp [hdir, Dir.bi] at hb, ?_, hidn, hcnt2, hek⟩
          · intro w
            by_cases hwv : w = v
            · simp only [hwv, setAt_same]; rw [b3]; exact h.kindO v
            · simp only [setAt_ne _ hwv]; exact hkO w
          · intro w
            by_cases hwv : w = v
            · subst hwv
              simp only [setAt_same]
              rw [outN_append]
              rw [hu1] at b2 ⊢
              simp only [huv, if_false, true_and, if_true]
              exact b2
            · simp only [setAt_ne _ hwv]
              exact hout1 w (fun e => absurd e hwv)
          · intro e he
            by_cases hev : e.1 = v
            · simp only [hev, setAt_same]
              have := hids e he
              rw [hev, setAt_ne _ hvu] at this
              exact b6 _ _ this
            · simp only [setAt_ne _ hev]; exact hids e he
    · -- bidirectional
      have hb : g.dir.bi = true := by rw [hdir]; rfl
      have hu0 : g.dir.un = false := by rw [hdir]; rfl
      obtain ⟨b1, b2, b3, -⟩ := (h.inn hb v).add (h.fitsI hl hb v) (o.inn v) (x := (u, r.2.1)) (by
        rintro ⟨hk, y, hy, e⟩
        obtain ⟨d, hd1, rfl⟩ := List.mem_map.mp hy
        unfold inOf at hd1
        rw [List.mem_filterMap] at hd1
        obtain ⟨f, hf, hf2⟩ := hd1
        split at hf2
        · rename_i hfv
          have hf2 := Option.some.inj hf2
          refine hd ⟨by rw [← h.kindI v]; exact hk, f, hf, (ends_eq_iff (e := (u, v, (b, 0)))).mpr (Or.inl ⟨?_, hfv⟩)⟩
          rw [← hf2] at e; exact e
        · simp at hf2)
      generalize hr2 : (g.ins v).idEmplace Prod.fst (o.inn v) (u, r.2.1) = r2 at *
      refine ⟨⟨g.dir, g.vertices, setAt g.outs u r.1, setAt g.ins v r2.1,
          (g.edges.tryAddEdge (noRep V) (fun _ => (0 : Nat)) o.edge u v ()).1⟩, r.2.1, ?_, ?_,
        hdir, rfl, a5⟩
      · simp only [AdjN.tryAddEdgeImpl, hu, hv, not_true_eq_false, if_false, hr, a1, hdir, hr2]
        rw [if_neg (by simp)]
      · refine ⟨h.nd, hclosed, hkO, ?_, fun w => hout1 w (by simp [hu0]), ?_, hids, hidn, hcnt2, hek⟩
        · intro w
          by_cases hwv : w = v
          · simp only [hwv, setAt_same]; rw [b3]; exact h.kindI v
          · simp only [setAt_ne _ hwv]; exact h.kindI w
        · intro _ w
          rw [inOf_append]
          by_cases hwv : w = v
          · subst hwv; simp only [setAt_same, if_true, List.map_append]; exact b2
          · simp only [setAt_ne _ hwv, Ne.symm hwv, if_false, List.append_nil]; exact h.inn hb w

end Actl.Storage
