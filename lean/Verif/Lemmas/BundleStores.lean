import Verif.Lemmas.Bundles
import Verif.Props.Edges

/-! The stores of edges, for which assignments to bundles commute with insertions. -/

namespace Actl.Storage

open Actl.Ids

variable {V R β κ : Type} [LinearOrder V] [LinearOrder κ]

/-! ### Edge lists -/

/-- The container after `n` insertions. -/
def GoodE (key : R → κ) (k : Kind) (N n : Nat) (el : EdgeList R β) : Prop :=
  el.cont.WF (fun d => key d.1) ∧ el.cont.items.length ≤ n ∧ (el.cont.kind.ra = true → N ≤ 2 ^ 31) ∧
    el.cont.kind = k

theorem GoodE.fits {key : R → κ} {k : Kind} {N n : Nat} {el : EdgeList R β} (h : GoodE key k N n el) (hn : n < N) :
    el.cont.Fits := fun hr => by
  have := h.2.2.1 hr
  have := h.2.1
  omega

theorem GoodE.step {rep : Rep V R} {key : R → κ} {ord : Order (R × β)} {k : Kind} {N n : Nat} {el : EdgeList R β}
    (h : GoodE key k N n el) (u v : V) (b : β) : GoodE key k N (n + 1) (el.tryAddEdge rep key ord u v b).1 := by
  have hl := emplace_len (key := fun d : R × β => key d.1) ord el.cont
    (rep.store (normEnds el.undirected u v).1 (normEnds el.undirected u v).2, b)
  refine ⟨h.1.emplace ord _, ?_, ?_, ?_⟩
  · have := h.2.1
    simp only [EdgeList.tryAddEdge]
    omega
  · intro hr
    simp only [EdgeList.tryAddEdge] at hr
    rw [hl.2] at hr
    exact h.2.2.1 hr
  · simp only [EdgeList.tryAddEdge]
    rw [hl.2]
    exact h.2.2.2

theorem EdgeList.write_some {el el' : EdgeList R β} {h : EdgeN V} {x : β} (hw : el.write h x = some el') :
    ∃ d, el.cont.at h.2.2 = some d ∧ el' = { el with cont := el.cont.modify h.2.2 fun d => (d.1, x) } := by
  simp only [EdgeList.write] at hw
  rcases ha : el.cont.at h.2.2 with _ | d
  · simp [ha] at hw
  · simp only [ha, Option.some.injEq] at hw
    exact ⟨d, rfl, hw.symm⟩

/-- An insertion after an assignment. -/
theorem EdgeList.tryAdd_write {rep : Rep V R} {key : R → κ} {ord : Order (R × β)}
    {k : Kind} (hb : k.hashed = true → ByKey (fun d : R × β => key d.1) ord) {N n : Nat} {el el' : EdgeList R β}
    (hg : GoodE key k N n el)
    {h : EdgeN V} {x : β} (hw : el.write h x = some el') (u v : V) (b : β) :
    ∃ el1, (el.tryAddEdge rep key ord u v b).1.write h x = some el1 ∧
      el'.tryAddEdge rep key ord u v b = (el1, (el.tryAddEdge rep key ord u v b).2) := by
  obtain ⟨d, ha, rfl⟩ := EdgeList.write_some hw
  obtain ⟨h1, h2⟩ := modify_emplace (fun hh => hb (hg.2.2.2 ▸ hh)) hg.1 ha (f := fun d => (d.1, x)) (fun _ => rfl)
    (rep.store (normEnds el.undirected u v).1 (normEnds el.undirected u v).2, b)
  refine ⟨⟨el.undirected, (el.cont.idEmplace (fun d => key d.1) ord
    (rep.store (normEnds el.undirected u v).1 (normEnds el.undirected u v).2, b)).1.modify h.2.2
      fun d => (d.1, x)⟩, ?_, ?_⟩
  · simp only [EdgeList.write, EdgeList.tryAddEdge, h2]
  · simp only [EdgeList.tryAddEdge, h1]

/-- An insertion followed by an assignment to the edge inserted. -/
theorem EdgeList.write_new {rep : Rep V R} {key : R → κ} {ord : Order (R × β)}
    {k : Kind} (hb : k.hashed = true → ByKey (fun d : R × β => key d.1) ord) {N n : Nat} {el : EdgeList R β}
    (hg : GoodE key k N n el) (hn : n < N) (u v : V) (b x : β) :
    ((el.tryAddEdge rep key ord u v b).2.2 = false ∧
      el.tryAddEdge rep key ord u v x = el.tryAddEdge rep key ord u v b) ∨
    ∃ el1, (el.tryAddEdge rep key ord u v b).2.2 = true ∧
      (el.tryAddEdge rep key ord u v b).1.write (el.tryAddEdge rep key ord u v b).2.1 x = some el1 ∧
      el.tryAddEdge rep key ord u v x = (el1, (el.tryAddEdge rep key ord u v b).2) := by
  rcases emplace_modify (fun hh => hb (hg.2.2.2 ▸ hh)) hg.1 (hg.fits hn) (f := fun d => (d.1, x)) (fun _ => rfl)
    (y := (rep.store (normEnds el.undirected u v).1 (normEnds el.undirected u v).2, b)) with
    ⟨h1, h2⟩ | ⟨h1, h2, h3⟩
  · left
    simp only [EdgeList.tryAddEdge]
    exact ⟨h1, by rw [h2]⟩
  · right
    refine ⟨⟨el.undirected, (el.cont.idEmplace (fun d => key d.1) ord
      (rep.store (normEnds el.undirected u v).1 (normEnds el.undirected u v).2, b)).1.modify
        (el.cont.idEmplace (fun d => key d.1) ord
          (rep.store (normEnds el.undirected u v).1 (normEnds el.undirected u v).2, b)).2.1
        fun d => (d.1, x)⟩, h1, ?_, ?_⟩
    · simp only [EdgeList.write, EdgeList.tryAddEdge, h2]
    · simp only [EdgeList.tryAddEdge]
      rw [h3]

theorem edgeList_commutes (rep : Rep V R) (key : R → κ) {ord : Order (R × β)}
    {k : Kind} (hb : k.hashed = true → ByKey (fun d : R × β => key d.1) ord) (N : Nat) :
    Commutes (EdgeList.add rep key ord) EdgeList.write (GoodE (β := β) key k N) N where
  good := by
    intro n el c el' a hn hg h
    simp only [EdgeList.add, Option.some.injEq, Prod.mk.injEq] at h
    rw [← h.1]
    exact hg.step _ _ _
  same := by
    intro n el c x hn hg
    rcases EdgeList.write_new (rep := rep) hb hg hn c.1 c.2.1 c.2.2 x with ⟨h1, h2⟩ | ⟨el1, h1, h2, h3⟩
    · refine Or.inr (Or.inl ⟨(el.tryAddEdge rep key ord c.1 c.2.1 c.2.2).1, ?_, ?_⟩)
      · simp only [EdgeList.add, h1, Bool.false_eq_true, if_false]
      · simp only [EdgeList.add, h2, h1, Bool.false_eq_true, if_false]
    · refine Or.inr (Or.inr ⟨_, _, el1, ?_, h2, ?_⟩)
      · simp only [EdgeList.add, h1, if_true]
      · simp only [EdgeList.add, h3, h1, if_true]
  comm := by
    intro n el h x el' c hn hg hw
    obtain ⟨el1, h1, h2⟩ := EdgeList.tryAdd_write (rep := rep) hb hg hw c.1 c.2.1 c.2.2
    refine Or.inr ⟨_, _, el1, rfl, h1, ?_⟩
    simp only [EdgeList.add, h2]

/-! ### Numbered vertices -/

theorem grow_bigger {m : Nat} {u v : Int} {vs : List Int} (h : grow (firstVertices m) u v = some vs) :
    ∃ m', m ≤ m' ∧ vs = firstVertices m' := by
  have hlen : (firstVertices m).length = m := by simp [firstVertices]
  simp only [grow, hlen] at h
  split at h
  · split at h
    · exact ⟨(max u v + 1).toNat, by omega, (Option.some.inj h).symm⟩
    · simp at h
  · exact ⟨m, le_refl _, (Option.some.inj h).symm⟩

theorem firstVertices_mono {m m' : Nat} (h : m ≤ m') {w : Int} (hw : w ∈ firstVertices m) :
    w ∈ firstVertices m' := by
  rw [mem_firstVertices] at *
  omega

/-! ### Adjacency lists with an edge container -/

/-- `try_add_edge` with the edge list in another state. -/
theorem AdjC.impl_edges {rep : Rep V R} {o : OrdersC V R β} {junk : Int} {g : AdjC V R β} {u v : V} {b b' : β}
    {el' e1 : EdgeList R β}
    (he : el'.tryAddEdge rep (fun _ => (0 : Nat)) o.edge u v b' =
      (e1, (g.edges.tryAddEdge rep (fun _ => (0 : Nat)) o.edge u v b).2)) :
    ({ g with edges := el' } : AdjC V R β).tryAddEdgeImpl rep o junk u v b' =
      (g.tryAddEdgeImpl rep o junk u v b).map fun t =>
        ({ t.1 with edges := if t.2.isSome then e1 else el' }, t.2) := by
  obtain ⟨dir, ho, vs, outs, ins, es⟩ := g
  simp only [AdjC.tryAddEdgeImpl, AdjC.far] at he ⊢
  by_cases hu : u ∈ vs
  · cases ho <;> simp only [hu, not_true_eq_false, if_false, Bool.false_eq_true, if_true]
    all_goals
      split
      · rfl
      · rw [he]
        rcases dir with _ | _ | _
        · rfl
        · simp only
          split
          · split <;> rfl
          · rfl
        · simp only
          split <;> rfl
  · simp [hu]

/-- The edges are those of the edge list. -/
theorem AdjC.impl_result {rep : Rep V R} {o : OrdersC V R β} {junk : Int} {g g' : AdjC V R β} {u v : V} {b : β}
    {a : Option (EdgeN V)} (h : g.tryAddEdgeImpl rep o junk u v b = some (g', a)) :
    g'.vertices = g.vertices ∧
    (a = none ∧ g' = g ∨
      a = some (u, v, (g.edges.tryAddEdge rep (fun _ => (0 : Nat)) o.edge u v b).2.1.2.2) ∧
        g'.edges = (g.edges.tryAddEdge rep (fun _ => (0 : Nat)) o.edge u v b).1) := by
  simp only [AdjC.tryAddEdgeImpl] at h
  by_cases hu : u ∈ g.vertices
  · simp only [hu, not_true_eq_false, if_false] at h
    split at h
    · obtain ⟨rfl, rfl⟩ := Prod.mk.inj (Option.some.inj h)
      exact ⟨rfl, Or.inl ⟨rfl, rfl⟩⟩
    · rcases hd : g.dir with _ | _ | _
      · rw [hd] at h
        obtain ⟨rfl, rfl⟩ := Prod.mk.inj (Option.some.inj h)
        exact ⟨rfl, Or.inr ⟨rfl, rfl⟩⟩
      · rw [hd] at h
        simp only at h
        split at h
        · split at h
          · simp at h
          · obtain ⟨rfl, rfl⟩ := Prod.mk.inj (Option.some.inj h)
            exact ⟨rfl, Or.inr ⟨rfl, rfl⟩⟩
        · obtain ⟨rfl, rfl⟩ := Prod.mk.inj (Option.some.inj h)
          exact ⟨rfl, Or.inr ⟨rfl, rfl⟩⟩
      · rw [hd] at h
        simp only at h
        split at h
        · simp at h
        · obtain ⟨rfl, rfl⟩ := Prod.mk.inj (Option.some.inj h)
          exact ⟨rfl, Or.inr ⟨rfl, rfl⟩⟩
  · simp [hu] at h

def GoodC (k : Kind) (N n : Nat) (g : AdjC Int R β) : Prop :=
  GoodE (fun _ => (0 : Nat)) k N n g.edges ∧ g.edges.cont.kind.unique = false

theorem tryAdd_ok {rep : Rep V R} {key : R → κ} {ord : Order (R × β)} {el : EdgeList R β} (u v : V) (b : β)
    (hu : el.cont.kind.unique = false) : (el.tryAddEdge rep key ord u v b).2.2 = true := by
  simp only [EdgeList.tryAddEdge, Cont.idEmplace]
  rw [emplace_new ord (by rw [hu]; simp)]

theorem adjC_commutes (rep : Rep Int R) {o : OrdersC Int R β} (junk : Int)
    {k : Kind} (hb : k.hashed = true → ByKey (fun _ : R × β => (0 : Nat)) o.edge) (N : Nat) :
    Commutes (fun (g : AdjC Int R β) c => g.tryAddEdge rep o junk c.1 c.2.1 c.2.2) AdjC.write (GoodC k N) N where
  good := by
    intro n g c g' a hn hg h
    simp only [AdjC.tryAddEdge] at h
    rcases hv : grow g.vertices c.1 c.2.1 with _ | vs
    · simp [hv] at h
    · simp only [hv] at h
      obtain ⟨-, ⟨-, rfl⟩ | ⟨-, he⟩⟩ := AdjC.impl_result h
      · exact ⟨⟨hg.1.1, Nat.le_succ_of_le hg.1.2.1, hg.1.2.2⟩, hg.2⟩
      · refine ⟨by rw [he]; exact hg.1.step _ _ _, ?_⟩
        rw [he]
        simp only [EdgeList.tryAddEdge, Cont.idEmplace, emplace_kind]
        exact hg.2
  same := by
    intro n g c x hn hg
    simp only [AdjC.tryAddEdge]
    rcases hv : grow g.vertices c.1 c.2.1 with _ | vs
    · left; simp
    · simp only
      rcases EdgeList.write_new (rep := rep) hb hg.1 hn c.1 c.2.1 c.2.2 x with ⟨h1, h2⟩ | ⟨el1, h1, h2, h3⟩
      · rw [tryAdd_ok _ _ _ hg.2] at h1; simp at h1
      · have hi := AdjC.impl_edges (g := { g with vertices := vs }) (o := o) (junk := junk) h3
        rcases hr : ({ g with vertices := vs } : AdjC Int R β).tryAddEdgeImpl rep o junk c.1 c.2.1 c.2.2 with
          _ | ⟨g1, a⟩
        · left; rw [hr] at hi; exact ⟨rfl, hi⟩
        · rw [hr] at hi
          right
          obtain ⟨-, ⟨rfl, rfl⟩ | ⟨rfl, he⟩⟩ := AdjC.impl_result hr
          · left; exact ⟨_, rfl, hi⟩
          · right
            refine ⟨g1, _, _, rfl, ?_, hi⟩
            have hw : g1.edges.write ((c.1, c.2.1, (g.edges.tryAddEdge rep (fun _ => (0 : Nat)) o.edge c.1 c.2.1
                c.2.2).2.1.2.2) : EdgeN Int) x = some el1 := by
              rw [he]; exact h2
            simp only [AdjC.write]
            rw [hw]
            rfl
  comm := by
    intro n g h x g' c hn hg hw
    simp only [AdjC.write] at hw
    rcases hwe : g.edges.write h x with _ | el'
    · simp [hwe] at hw
    · simp only [hwe, Option.some.injEq] at hw
      subst hw
      obtain ⟨el1, h1, h2⟩ := EdgeList.tryAdd_write (rep := rep) hb hg.1 hwe c.1 c.2.1 c.2.2
      simp only [AdjC.tryAddEdge]
      rcases hv : grow g.vertices c.1 c.2.1 with _ | vs
      · left; simp
      · simp only
        have hi := AdjC.impl_edges (g := { g with vertices := vs }) (o := o) (junk := junk) h2
        rcases hr : ({ g with vertices := vs } : AdjC Int R β).tryAddEdgeImpl rep o junk c.1 c.2.1 c.2.2 with
          _ | ⟨g1, a⟩
        · left; rw [hr] at hi; exact ⟨rfl, hi⟩
        · rw [hr] at hi
          right
          refine ⟨g1, a, _, rfl, ?_, hi⟩
          obtain ⟨-, ⟨rfl, rfl⟩ | ⟨rfl, he⟩⟩ := AdjC.impl_result hr
          · simp only [AdjC.write, hwe]; rfl
          · have hw1 : g1.edges.write h x = some el1 := by rw [he]; exact h1
            simp only [AdjC.write, hw1]; rfl

/-! ### Adjacency lists without one -/

theorem setAt_setAt {γ : Type} (f : V → γ) (u : V) (x y : γ) : setAt (setAt f u x) u y = setAt f u y := by
  funext w; simp only [setAt]; split <;> rfl

theorem setAt_comm {γ : Type} (f : V → γ) {u v : V} (h : u ≠ v) (x y : γ) :
    setAt (setAt f u x) v y = setAt (setAt f v y) u x := by
  funext w
  simp only [setAt]
  by_cases h1 : w = u
  · subst h1; simp [h]
  · simp [h1]

/-- `try_add_edge` with the out-edges in another state. -/
theorem AdjN.impl_outs {o : OrdersN V β} {moved : β → β} {g : AdjN V β} (hd : g.dir ≠ .undirected) {u v : V}
    {b b' : β} {outs' : V → Cont (V × β)} {c1 : Cont (V × β)}
    (he : (outs' u).idEmplace Prod.fst (o.out u) (v, b') =
      (c1, ((g.outs u).idEmplace Prod.fst (o.out u) (v, b)).2)) :
    ({ g with outs := outs' } : AdjN V β).tryAddEdgeImpl o moved u v b' =
      (g.tryAddEdgeImpl o moved u v b).map fun t =>
        ({ t.1 with outs := if t.2.isSome then setAt outs' u c1 else outs' }, t.2) := by
  simp only [AdjN.tryAddEdgeImpl]
  by_cases hu : u ∈ g.vertices
  · simp only [hu, not_true_eq_false, if_false, he]
    split
    · rfl
    · rcases hdir : g.dir with _ | _ | _
      · rfl
      · exact absurd hdir hd
      · simp only
        split <;> rfl
  · simp [hu]

theorem AdjN.impl_result {o : OrdersN V β} {moved : β → β} {g g' : AdjN V β} (hd : g.dir ≠ .undirected) {u v : V}
    {b : β} {a : Option (EdgeN V)} (h : g.tryAddEdgeImpl o moved u v b = some (g', a)) :
    g'.vertices = g.vertices ∧ g'.dir = g.dir ∧
    (a = none ∧ g' = g ∧ ((g.outs u).idEmplace Prod.fst (o.out u) (v, b)).2.2 = false ∨
      a = some (u, v, ((g.outs u).idEmplace Prod.fst (o.out u) (v, b)).2.1) ∧ u ∈ g.vertices ∧
        ((g.outs u).idEmplace Prod.fst (o.out u) (v, b)).2.2 = true ∧
        g'.outs = setAt g.outs u ((g.outs u).idEmplace Prod.fst (o.out u) (v, b)).1) := by
  simp only [AdjN.tryAddEdgeImpl] at h
  by_cases hu : u ∈ g.vertices
  · simp only [hu, not_true_eq_false, if_false] at h
    split at h
    · rename_i hf
      obtain ⟨rfl, rfl⟩ := Prod.mk.inj (Option.some.inj h)
      exact ⟨rfl, rfl, Or.inl ⟨rfl, rfl, hf⟩⟩
    · rename_i hf
      rw [Bool.not_eq_false] at hf
      rcases hdir : g.dir with _ | _ | _
      · rw [hdir] at h
        obtain ⟨rfl, rfl⟩ := Prod.mk.inj (Option.some.inj h)
        exact ⟨rfl, rfl, Or.inr ⟨rfl, hu, hf, rfl⟩⟩
      · exact absurd hdir hd
      · rw [hdir] at h
        simp only at h
        split at h
        · simp at h
        · obtain ⟨rfl, rfl⟩ := Prod.mk.inj (Option.some.inj h)
          exact ⟨rfl, rfl, Or.inr ⟨rfl, hu, hf, rfl⟩⟩
  · simp [hu] at h

theorem AdjN.write_some {g g' : AdjN V β} {h : EdgeN V} {x : β} (hw : g.write h x = some g') :
    h.1 ∈ g.vertices ∧ ∃ d, (g.outs h.1).at h.2.2 = some d ∧
      g' = { g with outs := setAt g.outs h.1 ((g.outs h.1).modify h.2.2 fun d => (d.1, x)) } := by
  simp only [AdjN.write] at hw
  by_cases hv : h.1 ∈ g.vertices
  · simp only [hv, not_true_eq_false, if_false] at hw
    rcases ha : (g.outs h.1).at h.2.2 with _ | d
    · simp [ha] at hw
    · simp only [ha, Option.some.injEq] at hw
      exact ⟨hv, d, rfl, hw.symm⟩
  · simp [hv] at hw

theorem AdjN.write_eq {g : AdjN V β} {h : EdgeN V} {d : V × β} (x : β) (hv : h.1 ∈ g.vertices)
    (ha : (g.outs h.1).at h.2.2 = some d) : g.write h x =
      some { g with outs := setAt g.outs h.1 ((g.outs h.1).modify h.2.2 fun d => (d.1, x)) } := by
  simp only [AdjN.write, hv, not_true_eq_false, if_false, ha]

def GoodN (k : Kind) (N n : Nat) (g : AdjN Int β) : Prop :=
  g.dir ≠ .undirected ∧ (∃ m, g.vertices = firstVertices m) ∧
  ∀ u, (g.outs u).WF Prod.fst ∧ (g.outs u).items.length ≤ n ∧ ((g.outs u).kind.ra = true → N ≤ 2 ^ 31) ∧
    (g.outs u).kind = k

theorem adjN_commutes {o : OrdersN Int β} (moved : β → β) {k : Kind}
    (hb : k.hashed = true → ∀ u, ByKey Prod.fst (o.out u)) (N : Nat) :
    Commutes (fun (g : AdjN Int β) c => g.tryAddEdge o moved c.1 c.2.1 c.2.2) AdjN.write (GoodN k N) N where
  good := by
    intro n g c g' a hn hg h
    obtain ⟨hd, ⟨m, hm⟩, hc⟩ := hg
    simp only [AdjN.tryAddEdge] at h
    rcases hv : grow g.vertices c.1 c.2.1 with _ | vs
    · simp [hv] at h
    · simp only [hv] at h
      obtain ⟨m', -, hvs⟩ := grow_bigger (hm ▸ hv)
      obtain ⟨h1, h2, ⟨-, rfl, -⟩ | ⟨-, -, -, he⟩⟩ := AdjN.impl_result (by exact hd) h
      · exact ⟨hd, ⟨m', hvs⟩, fun u => ⟨(hc u).1, Nat.le_succ_of_le (hc u).2.1, (hc u).2.2⟩⟩
      · refine ⟨by rw [h2]; exact hd, ⟨m', by rw [h1]; exact hvs⟩, fun w => ?_⟩
        rw [he]
        by_cases hw : w = c.1
        · rw [hw, setAt_same]
          have hl := emplace_len (key := Prod.fst) (o.out c.1) (g.outs c.1) (c.2.1, c.2.2)
          have := (hc c.1).2.1
          exact ⟨(hc c.1).1.emplace _ _, by simp only; omega, fun hr => (hc c.1).2.2.1 (by rw [← hl.2]; exact hr),
            by rw [hl.2]; exact (hc c.1).2.2.2⟩
        · rw [setAt_ne _ hw]
          exact ⟨(hc w).1, Nat.le_succ_of_le (hc w).2.1, (hc w).2.2⟩
  same := by
    intro n g c x hn hg
    obtain ⟨hd, ⟨m, hm⟩, hc⟩ := hg
    simp only [AdjN.tryAddEdge]
    rcases hv : grow g.vertices c.1 c.2.1 with _ | vs
    · left; simp
    · simp only
      have hfit : (g.outs c.1).Fits := fun hr => by
        have := (hc c.1).2.2.1 hr; have := (hc c.1).2.1; omega
      rcases emplace_modify (fun hh => hb ((hc c.1).2.2.2 ▸ hh) c.1) (hc c.1).1 hfit (f := fun d => (d.1, x)) (fun _ => rfl)
        (y := (c.2.1, c.2.2)) with ⟨h1, h2⟩ | ⟨h1, h2, h3⟩
      · have hi := AdjN.impl_outs (g := { g with vertices := vs }) (o := o) (moved := moved) (by exact hd)
          (outs' := g.outs) (u := c.1) (v := c.2.1) (b := c.2.2) (b' := x) h2
        rcases hr : ({ g with vertices := vs } : AdjN Int β).tryAddEdgeImpl o moved c.1 c.2.1 c.2.2 with
          _ | ⟨g1, a⟩
        · left; rw [hr] at hi; exact ⟨rfl, hi⟩
        · rw [hr] at hi
          obtain ⟨-, -, ⟨rfl, rfl, -⟩ | ⟨-, -, he, -⟩⟩ := AdjN.impl_result (by exact hd) hr
          · right; left; exact ⟨_, rfl, hi⟩
          · have he : ((g.outs c.1).idEmplace Prod.fst (o.out c.1) (c.2.1, c.2.2)).2.2 = true := he
            rw [h1] at he; simp at he
      · have hi := AdjN.impl_outs (g := { g with vertices := vs }) (o := o) (moved := moved) (by exact hd)
          (outs' := g.outs) (u := c.1) (v := c.2.1) (b := c.2.2) (b' := x) h3
        rcases hr : ({ g with vertices := vs } : AdjN Int β).tryAddEdgeImpl o moved c.1 c.2.1 c.2.2 with
          _ | ⟨g1, a⟩
        · left; rw [hr] at hi; exact ⟨rfl, hi⟩
        · rw [hr] at hi
          right
          obtain ⟨e1, -, ⟨rfl, rfl, -⟩ | ⟨rfl, hu, -, he⟩⟩ := AdjN.impl_result (by exact hd) hr
          · left; exact ⟨_, rfl, hi⟩
          · right
            refine ⟨g1, _, _, rfl, ?_, hi⟩
            have ho : g1.outs c.1 = ((g.outs c.1).idEmplace Prod.fst (o.out c.1) (c.2.1, c.2.2)).1 := by
              rw [he, setAt_same]
            rw [AdjN.write_eq (d := (c.2.1, c.2.2)) x (by rw [e1]; exact hu) (by simp only [ho]; exact h2)]
            simp only [Option.isSome_some, if_true, ho]
            rw [he, setAt_setAt]
  comm := by
    intro n g h x g' c hn hg hw
    obtain ⟨hd, ⟨m, hm⟩, hc⟩ := hg
    obtain ⟨hhv, d, ha, rfl⟩ := AdjN.write_some hw
    simp only [AdjN.tryAddEdge]
    rcases hv : grow g.vertices c.1 c.2.1 with _ | vs
    · left; simp
    · simp only
      obtain ⟨m', hmm, hvs⟩ := grow_bigger (hm ▸ hv)
      have hhv' : h.1 ∈ vs := by rw [hvs]; exact firstVertices_mono hmm (hm ▸ hhv)
      obtain ⟨c1, hc1, hc2, hc3⟩ : ∃ c1, (setAt g.outs h.1 ((g.outs h.1).modify h.2.2 fun d => (d.1, x)) c.1).idEmplace
            Prod.fst (o.out c.1) (c.2.1, c.2.2) =
          (c1, ((g.outs c.1).idEmplace Prod.fst (o.out c.1) (c.2.1, c.2.2)).2) ∧
          (setAt g.outs c.1 ((g.outs c.1).idEmplace Prod.fst (o.out c.1) (c.2.1, c.2.2)).1 h.1).at h.2.2 = some d ∧
          setAt (setAt g.outs h.1 ((g.outs h.1).modify h.2.2 fun d => (d.1, x))) c.1 c1 =
            setAt (setAt g.outs c.1 ((g.outs c.1).idEmplace Prod.fst (o.out c.1) (c.2.1, c.2.2)).1) h.1
              ((setAt g.outs c.1 ((g.outs c.1).idEmplace Prod.fst (o.out c.1) (c.2.1, c.2.2)).1 h.1).modify h.2.2
                fun d => (d.1, x)) := by
        by_cases hu : c.1 = h.1
        · obtain ⟨h1, h2⟩ := modify_emplace (fun hh => hb ((hc h.1).2.2.2 ▸ hh) h.1) (hc h.1).1 ha (f := fun d => (d.1, x)) (fun _ => rfl)
            (c.2.1, c.2.2)
          refine ⟨((g.outs h.1).idEmplace Prod.fst (o.out h.1) (c.2.1, c.2.2)).1.modify h.2.2
            fun d => (d.1, x), ?_, ?_, ?_⟩
          · rw [hu, setAt_same]; exact h1
          · rw [hu, setAt_same]; exact h2
          · rw [hu, setAt_setAt, setAt_setAt, setAt_same]
        · refine ⟨_, by rw [setAt_ne _ hu], ?_, ?_⟩
          · rw [setAt_ne _ (Ne.symm hu)]; exact ha
          · rw [setAt_ne _ (Ne.symm hu), setAt_comm _ hu]
      have hi := AdjN.impl_outs (g := { g with vertices := vs }) (o := o) (moved := moved) (by exact hd) hc1
      rcases hr : ({ g with vertices := vs } : AdjN Int β).tryAddEdgeImpl o moved c.1 c.2.1 c.2.2 with
        _ | ⟨g1, a⟩
      · left; rw [hr] at hi; exact ⟨rfl, hi⟩
      · rw [hr] at hi
        right
        refine ⟨g1, a, _, rfl, ?_, hi⟩
        obtain ⟨e1, -, ⟨rfl, rfl, -⟩ | ⟨rfl, hu, -, he⟩⟩ := AdjN.impl_result (by exact hd) hr
        · exact AdjN.write_eq (g := { g with vertices := vs }) x hhv' ha
        · have ha1 : (g1.outs h.1).at h.2.2 = some d := by rw [he]; exact hc2
          rw [AdjN.write_eq x (by rw [e1]; exact hhv') ha1]
          simp only [Option.isSome_some, if_true]
          rw [he, hc3]

end Actl.Storage
