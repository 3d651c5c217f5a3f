import Verif.Props.MixedWrites

/-!
# C141: `find_edge` and the numbers of out-edges after any mixture of insertions and assignments to bundles

* `mixedW_find`, `mixedW_find_none`: what `find_edge` returns.
* `mixedW_find_unique`: in containers without duplicates it is the handle that was returned.
* `mixedW_degrees`: the out-edges of all the vertices together count every edge once or twice.
-/

namespace Actl.Storage

open Actl.Ids Actl.Traversal Actl.Built

section
variable {V R β : Type} [LinearOrder V] {rep : Rep V R} {k ke : Kind} {g : AdjC V R β} {es : List (V × V × (β × Int))} {P : V → Prop}

/-- `find_edge` finds the first of the out-edges with this target. -/
theorem CInv.findEdge (h : CInv rep k ke g es) (hr : g.hasOut = false → GoodRep rep g.dir P) (hP : ∀ v ∈ g.vertices, P v)
    (hl : k = .vec ∨ ke = .vec → es.length < 2 ^ 31) {u : V} {l : List (EdgeN V)} (hu : g.outEdges rep u = some l) (v : V) :
    g.findEdge rep u v = match l.find? (fun e => decide (e.2.1 = v)) with
      | some e => some (some e)
      | none => if g.hasOut then none else some none := by
  have huv : u ∈ g.vertices := by
    by_contra hc
    simp [AdjC.outEdges, hc] at hu
  cases ho : g.hasOut
  · simp only [AdjC.findEdge, huv, not_true_eq_false, if_false, ho, Bool.false_eq_true, hu, Option.map_some]
    cases l.find? (fun e => decide (e.2.1 = v)) <;> rfl
  · obtain ⟨f1, f2⟩ := idFind_spec (h.out u).wf (h.fits hl u) (outKey (some v, 0))
    have hget : ∀ y ∈ (g.outs u).values, ∃ w, y.1 = some w ∧ g.getEdge rep u y = some (u, w, y.2) := by
      intro y hy
      obtain ⟨d, hd, rfl⟩ := List.mem_map.mp ((h.out u).perm.mem_iff.mp hy)
      refine ⟨d.1, ?_, getEdge_out h hr hP hd⟩
      rw [ho]; rfl
    have hfind : ∀ ys : List (Option V × Int), (∀ y ∈ ys, ∃ w, y.1 = some w ∧ g.getEdge rep u y = some (u, w, y.2)) →
        (ys.filterMap (g.getEdge rep u)).find? (fun e => decide (e.2.1 = v)) =
          (ys.find? fun y => decide (outKey y = outKey (some v, 0))).bind (g.getEdge rep u) := by
      intro ys
      induction ys with
      | nil => intro _; rfl
      | cons y ys ih =>
        intro hy
        obtain ⟨w, w1, w2⟩ := hy y (List.mem_cons_self ..)
        rw [List.filterMap_cons_some w2, List.find?_cons, List.find?_cons, ih fun y h => hy y (List.mem_cons_of_mem _ h)]
        have : decide (outKey y = outKey ((some v, 0) : Option V × Int)) = decide (w = v) := by
          refine decide_eq_decide.mpr ?_
          unfold outKey
          rw [w1]
          exact ⟨fun e => Option.some.inj e, fun e => by rw [e]⟩
        rw [this]
        cases decide (w = v)
        · rfl
        · exact w2.symm
    have hm : (g.outs u).values.mapM (g.getEdge rep u) = some ((g.outs u).values.filterMap (g.getEdge rep u)) :=
      mapM_filterMap fun y hy => by
        obtain ⟨w, -, w2⟩ := hget y hy
        rw [w2]; rfl
    have hl' : l = (g.outs u).values.filterMap (g.getEdge rep u) := by
      simp only [AdjC.outEdges, huv, not_true_eq_false, if_false, hm] at hu
      exact (Option.some.inj hu).symm
    have hfl := hfind _ hget
    rw [← hl'] at hfl
    simp only [AdjC.findEdge, huv, not_true_eq_false, if_false, ho, if_true]
    by_cases hex : ∃ y ∈ (g.outs u).values, outKey y = outKey ((some v, 0) : Option V × Int)
    · obtain ⟨e1, e2⟩ := f1 hex
      obtain ⟨x, hx⟩ := Option.isSome_iff_exists.mp e2
      rw [hx] at e1
      rw [← e1, Option.bind_some] at hfl
      obtain ⟨w, -, w2⟩ := hget x (List.mem_of_find?_eq_some e1.symm)
      rw [w2] at hfl
      rw [hfl, hx]
      simp only [w2, Option.map_some]
    · have hno : ∀ y ∈ (g.outs u).values, outKey y ≠ outKey ((some v, 0) : Option V × Int) :=
        fun y hy e => hex ⟨y, hy, e⟩
      have hend := f2 hno
      obtain ⟨_, _, _, _, _, _, hend'⟩ := ids_spec (h.out u).wf (h.fits hl u)
      have hnf : (g.outs u).values.find? (fun y => decide (outKey y = outKey ((some v, 0) : Option V × Int))) = none :=
        List.find?_eq_none.mpr fun y hy => by simpa using hno y hy
      rw [hnf, Option.bind_none] at hfl
      rw [hfl, hend, hend']

end

variable {α R β κ : Type} [LinearOrder κ] {key : α → κ} {dflt : α} {ordV : Order α} {rep : Rep Int R} {o : OrdersC Int R β}
  {junk : Int} {dir : Dir} {hasOut : Bool} {k ke kv : Kind} {g : MixedC α R β} {H : List (Event α β)} {P : Int → Prop}

/-- What `find_edge` looks at, after any calls and assignments. -/
theorem mixedW_first (h : MadeW key dflt ordV rep o junk dir hasOut k ke kv g H) (hk : hasOut = false → k.assoc = false)
    (hke : ke.assoc = false) (hr : hasOut = false → GoodRep rep dir P) (hP : ∀ v, (kv = .vec → IsInt v) → P v)
    {a : AdjC Int R β} (ha : g.see = some a) {u : Int} {l : List (EdgeN Int)} (hl : a.outEdges rep u = some l) (v : Int) :
    a.findEdge rep u v = match l.find? (fun e => decide (e.2.1 = v)) with
      | some e => some (some e)
      | none => if hasOut then none else some none := by
  obtain ⟨g0, hg⟩ := h.ghost hk hke
  obtain ⟨s1, -⟩ := hg.sees
  have hi := hg.made.inv hk hke
  obtain ⟨es, vl, a1, a2, -, -, -, a6, -⟩ := hi.edges
  have hsee : g0.see = some { g0.adj with vertices := vl } := by unfold MixedC.see; rw [a1]; rfl
  obtain rfl := Option.some.inj (ha.symm.trans (s1.trans hsee))
  have hd : g0.adj.dir = dir := hi.dirEq
  have ho : g0.adj.hasOut = hasOut := hi.outEq
  have hf := a2.findEdge (P := P) (fun e => by
      show GoodRep rep g0.adj.dir P
      rw [hd]
      exact hr (ho.symm.trans e))
    (fun v hv => hP v fun hkv => hg.made.isInt hk hke a1 hv hkv)
    (fun e => by
      have := hi.len e
      omega) hl v
  rw [hf]
  cases l.find? (fun e => decide (e.2.1 = v))
  · show (if g0.adj.hasOut = true then none else some none) = _
    rw [ho]
  · rfl

/-- The edge added by the call joins `u` to `v`. -/
def Joins (un : Bool) (c : Int × Int × β) (u v : Int) : Prop :=
  (c.1 = u ∧ c.2.1 = v) ∨ (un = true ∧ c.1 = v ∧ c.2.1 = u)

theorem mem_outOf_joins {ι : Type} {un : Bool} {hs : List (Int × Int × ι)} {u : Int} {d : Int × ι} :
    d ∈ outOf un hs u ↔ ∃ e ∈ hs, Joins un e u d.1 ∧ d.2 = e.2.2 := by
  rw [mem_outOf]
  constructor
  · rintro ⟨e, he, ⟨h1, rfl⟩ | ⟨-, h2, h3, rfl⟩⟩
    · exact ⟨e, he, Or.inl ⟨h1, rfl⟩, rfl⟩
    · exact ⟨e, he, Or.inr ⟨h2, rfl, h3⟩, rfl⟩
  · obtain ⟨d1, d2⟩ := d
    rintro ⟨e, he, ⟨h1, h2⟩ | ⟨h1, h2, h3⟩, h4⟩
    · exact ⟨e, he, Or.inl ⟨h1, Prod.ext h2.symm h4⟩⟩
    · by_cases hu : e.1 = u
      · exact ⟨e, he, Or.inl ⟨hu, Prod.ext (by rw [h3, ← hu, h2]) h4⟩⟩
      · exact ⟨e, he, Or.inr ⟨hu, h1, h3, Prod.ext h2.symm h4⟩⟩

/-- The first out-edge in the order of insertion is that of the first call. -/
theorem find_outOf {σ ι : Type} {un : Bool} {u v : Int} {x : Int × Int × ι} : ∀ cs : List (σ × Option (Int × Int × ι)),
    ((outOf un (cs.filterMap Prod.snd) u).map fun d => (u, d.1, d.2)).find? (fun e => decide (e.2.1 = v)) = some x →
    ∃ pre c post e, cs = pre ++ c :: post ∧ c.2 = some e ∧ Joins un e u v ∧ x = (u, v, e.2.2) ∧
      ∀ d ∈ pre, ∀ f, d.2 = some f → ¬Joins un f u v
  | [], h => by simp [outOf] at h
  | (s, none) :: cs, h => by
    have h' : ((outOf un (cs.filterMap Prod.snd) u).map fun d => (u, d.1, d.2)).find? (fun e => decide (e.2.1 = v)) = some x := h
    obtain ⟨pre, c, post, e, h1, h2, h3, h4, h5⟩ := find_outOf cs h'
    refine ⟨(s, none) :: pre, c, post, e, by rw [h1]; rfl, h2, h3, h4, ?_⟩
    intro d hd f hf
    rcases List.mem_cons.mp hd with rfl | hd
    · cases hf
    · exact h5 d hd f hf
  | (s, some e0) :: cs, h => by
    by_cases hj : Joins un e0 u v
    · refine ⟨[], (s, some e0), cs, e0, rfl, rfl, hj, ?_, fun d hd => by cases hd⟩
      have hd : ∀ t : List (Int × Int × ι), outOf un (e0 :: t) u = (v, e0.2.2) :: outOf un t u := by
        intro t
        unfold outOf
        rcases hj with ⟨h1, h2⟩ | ⟨h1, h2, h3⟩
        · rw [List.filterMap_cons_some (b := (v, e0.2.2))]
          rw [if_pos h1, h2]
        · rw [List.filterMap_cons_some (b := (v, e0.2.2))]
          by_cases hu : e0.1 = u
          · rw [if_pos hu, h3, ← hu, h2]
          · rw [if_neg hu, if_pos ⟨h1, h3⟩, h2]
      have hcs : ((s, some e0) :: cs).filterMap Prod.snd = e0 :: cs.filterMap Prod.snd := rfl
      rw [hcs, hd, List.map_cons, List.find?_cons_of_pos (by simp)] at h
      exact (Option.some.inj h).symm
    · have h' : ((outOf un (cs.filterMap Prod.snd) u).map fun d => (u, d.1, d.2)).find? (fun e => decide (e.2.1 = v)) = some x := by
        have hcs : ((s, some e0) :: cs).filterMap Prod.snd = e0 :: cs.filterMap Prod.snd := rfl
        rw [← h, hcs]
        by_cases hn : ∃ d, outOf un (e0 :: cs.filterMap Prod.snd) u = d :: outOf un (cs.filterMap Prod.snd) u ∧ Joins un e0 u d.1
        · obtain ⟨d, d1, d2⟩ := hn
          rw [d1, List.map_cons, List.find?_cons_of_neg]
          intro hc
          rw [of_decide_eq_true hc] at d2
          exact hj d2
        · have : outOf un (e0 :: cs.filterMap Prod.snd) u = outOf un (cs.filterMap Prod.snd) u := by
            by_contra hne
            refine hn ?_
            unfold outOf at hne ⊢
            by_cases h1 : e0.1 = u
            · exact ⟨(e0.2.1, e0.2.2), List.filterMap_cons_some (by rw [if_pos h1]), Or.inl ⟨h1, rfl⟩⟩
            · by_cases h2 : un = true ∧ e0.2.1 = u
              · exact ⟨(e0.1, e0.2.2), List.filterMap_cons_some (by rw [if_neg h1, if_pos h2]), Or.inr ⟨h2.1, rfl, h2.2⟩⟩
              · exact absurd (List.filterMap_cons_none (by rw [if_neg h1, if_neg h2])) hne
          rw [this]
      obtain ⟨pre, c, post, e, h1, h2, h3, h4, h5⟩ := find_outOf cs h'
      refine ⟨(s, some e0) :: pre, c, post, e, by rw [h1]; rfl, h2, h3, h4, ?_⟩
      intro d hd f hf
      rcases List.mem_cons.mp hd with rfl | hd
      · obtain rfl := Option.some.inj hf
        exact hj
      · exact h5 d hd f hf

/-- **C141** If a call added an edge that joins `u` to `v`, `find_edge(u, v)` returns such an edge: with these ends, the id of the handle
that the call returned, and the bundle last assigned to it, or that of the call.  With the out-edges in a sequence it is the edge of the
first such call. -/
theorem mixedW_find (h : MadeW key dflt ordV rep o junk dir hasOut k ke kv g H) (hk : hasOut = false → k.assoc = false)
    (hke : ke.assoc = false) (hr : hasOut = false → GoodRep rep dir P) (hP : ∀ v, (kv = .vec → IsInt v) → P v)
    {a : AdjC Int R β} (ha : g.see = some a) {u v : Int}
    (hex : ∃ c ∈ edgeCalls (calls H), c.2.isSome = true ∧ Joins dir.un c.1 u v) :
    ∃ pre c post e, edgeCalls (calls H) = pre ++ c :: post ∧ c.2 = some e ∧ Joins dir.un c.1 u v ∧
      a.findEdge rep u v = some (some (u, v, e.2.2)) ∧
      a.bundle (u, v, e.2.2) = some ((lastBundle H e.2.2).getD c.1.2.2) ∧
      (k.assoc = false → ∀ d ∈ pre, d.2.isSome = true → ¬Joins dir.un d.1 u v) := by
  obtain ⟨a', vs, hs, b1, -, -, b4, -, -, b7, -, b9, b10, -⟩ := mixedW_edges h hk hke hr hP
  obtain rfl := Option.some.inj (ha.symm.trans b1)
  have hjoin : ∀ c ∈ edgeCalls (calls H), ∀ e, c.2 = some e → (Joins dir.un e u v ↔ Joins dir.un c.1 u v) := by
    intro c hc e he
    obtain ⟨e1, e2, -⟩ := b9 c hc e he
    unfold Joins
    rw [e1, e2]
  obtain ⟨c0, hc0, hs0, hj0⟩ := hex
  obtain ⟨e0, he0⟩ := Option.isSome_iff_exists.mp hs0
  have hmem0 : e0 ∈ hs := by rw [b4]; exact List.mem_filterMap.mpr ⟨c0, hc0, he0⟩
  have hu : u ∈ vs := by
    obtain ⟨v1, v2⟩ := b7 c0 hc0
    rcases hj0 with ⟨rfl, -⟩ | ⟨-, -, rfl⟩
    · exact v1
    · exact v2
  obtain ⟨l, l1, l2, l3⟩ := b10 u hu
  have hff := mixedW_first h hk hke hr hP ha l1 v
  have hsome : (l.find? fun e => decide (e.2.1 = v)).isSome = true := by
    refine List.find?_isSome.mpr ⟨(u, v, e0.2.2), ?_, by simp⟩
    refine l2.mem_iff.mpr (List.mem_map.mpr ⟨(v, e0.2.2), ?_, rfl⟩)
    exact mem_outOf_joins.mpr ⟨e0, hmem0, (hjoin c0 hc0 e0 he0).mpr hj0, rfl⟩
  obtain ⟨x, hx⟩ := Option.isSome_iff_exists.mp hsome
  rw [hx] at hff
  by_cases hka : k.assoc = false
  · have hx' := hx
    rw [l3 hka, b4] at hx'
    obtain ⟨pre, c, post, e, p1, p2, p3, p4, p5⟩ := find_outOf _ hx'
    have hc : c ∈ edgeCalls (calls H) := by rw [p1]; simp
    refine ⟨pre, c, post, e, p1, p2, (hjoin c hc e p2).mp p3, by rw [hff, p4], (b9 c hc e p2).2.2, ?_⟩
    intro _ d hd hds hdj
    obtain ⟨f, hf⟩ := Option.isSome_iff_exists.mp hds
    have hdc : d ∈ edgeCalls (calls H) := by rw [p1]; exact List.mem_append_left _ hd
    exact p5 d hd f hf ((hjoin d hdc f hf).mpr hdj)
  · have hxm := l2.mem_iff.mp (List.mem_of_find?_eq_some hx)
    have hxv := List.find?_some hx
    obtain ⟨d, hd, rfl⟩ := List.mem_map.mp hxm
    obtain ⟨e, he, hj, hid⟩ := mem_outOf_joins.mp hd
    have hdv : d.1 = v := of_decide_eq_true hxv
    rw [hdv] at hj
    rw [b4] at he
    obtain ⟨c, hc, hce⟩ := List.mem_filterMap.mp he
    obtain ⟨pre, post, hp⟩ := List.append_of_mem hc
    refine ⟨pre, c, post, e, hp, hce, (hjoin c hc e hce).mp hj, ?_, (b9 c hc e hce).2.2, fun h => absurd h hka⟩
    rw [hff]
    show some (some (u, d.1, d.2)) = _
    rw [hdv, hid]

/-- **C141** If no call added an edge that joins `u` to `v`, `find_edge(u, v)` is undefined where the targets are kept in the out-edges,
and returns `edge{}` where they are not. -/
theorem mixedW_find_none (h : MadeW key dflt ordV rep o junk dir hasOut k ke kv g H) (hk : hasOut = false → k.assoc = false)
    (hke : ke.assoc = false) (hr : hasOut = false → GoodRep rep dir P) (hP : ∀ v, (kv = .vec → IsInt v) → P v)
    {a : AdjC Int R β} (ha : g.see = some a) {u v : Int} (hu : (g.atVertex u).isSome = true)
    (hno : ∀ c ∈ edgeCalls (calls H), c.2.isSome = true → ¬Joins dir.un c.1 u v) :
    a.findEdge rep u v = if hasOut then none else some none := by
  obtain ⟨a', vs, hs, b1, b2, -, b4, -, -, -, -, b9, b10, -⟩ := mixedW_edges h hk hke hr hP
  obtain rfl := Option.some.inj (ha.symm.trans b1)
  obtain ⟨vs', w1, -, -, w4, -⟩ := mixedW_vertices h hk hke
  obtain rfl := Option.some.inj (b2.symm.trans w1)
  obtain ⟨l, l1, l2, -⟩ := b10 u ((w4 u).mpr hu)
  rw [mixedW_first h hk hke hr hP ha l1 v]
  have : l.find? (fun e => decide (e.2.1 = v)) = none := by
    refine List.find?_eq_none.mpr fun x hx hxv => ?_
    obtain ⟨d, hd, rfl⟩ := List.mem_map.mp (l2.mem_iff.mp hx)
    obtain ⟨e, he, hj, -⟩ := mem_outOf_joins.mp hd
    have hdv : d.1 = v := of_decide_eq_true hxv
    rw [hdv] at hj
    rw [b4] at he
    obtain ⟨c, hc, hce⟩ := List.mem_filterMap.mp he
    obtain ⟨e1, e2, -⟩ := b9 c hc e hce
    refine hno c hc (by rw [hce]; rfl) ?_
    unfold Joins at hj ⊢
    rwa [e1, e2] at hj
  rw [this]

theorem Joins.ends {ι ι' : Type} {un : Bool} {c : Int × Int × ι} {d : Int × Int × ι'} {u v : Int} (hc : Joins un c u v)
    (hd : Joins un d u v) : Storage.ends un c = Storage.ends un d := by
  unfold Storage.ends
  rcases hc with ⟨rfl, rfl⟩ | ⟨h1, rfl, rfl⟩ <;> rcases hd with ⟨h2, h3⟩ | ⟨h2, h3, h4⟩
  · rw [h2, h3]
  · rw [if_pos h2, if_pos h2, h3, h4, min_comm, max_comm]
  · rw [if_pos h1, if_pos h1, h2, h3, min_comm, max_comm]
  · rw [h3, h4]

/-- **C141** Where the out-edges have no duplicates, `find_edge(u, v)` finds the edge of the only call that added one. -/
theorem mixedW_find_unique (h : MadeW key dflt ordV rep o junk dir hasOut k ke kv g H) (hk : hasOut = false → k.assoc = false)
    (hke : ke.assoc = false) (hr : hasOut = false → GoodRep rep dir P) (hP : ∀ v, (kv = .vec → IsInt v) → P v) (hu : k.unique = true)
    {a : AdjC Int R β} (ha : g.see = some a) {c : (Int × Int × β) × Option (EdgeN Int)} {e : EdgeN Int}
    (hc : c ∈ edgeCalls (calls H)) (he : c.2 = some e) {u v : Int} (hj : Joins dir.un c.1 u v) :
    a.findEdge rep u v = some (some (u, v, e.2.2)) ∧ a.bundle (u, v, e.2.2) = some ((lastBundle H e.2.2).getD c.1.2.2) := by
  obtain ⟨pre, c', post, e', p1, p2, p3, p4, p5, -⟩ := mixedW_find h hk hke hr hP ha (u := u) (v := v) ⟨c, hc, by rw [he]; rfl, hj⟩
  obtain ⟨a', vs, hs, -, -, -, b4, b5, -, -, -, b9, -⟩ := mixedW_edges h hk hke hr hP
  have hc' : c' ∈ edgeCalls (calls H) := by rw [p1]; simp
  have hnd := accept_unique dir.un ((edgeCalls (calls H)).map Prod.fst) [] List.nodup_nil
  rw [hu] at b5
  rw [accept_answered _ _ _ _ b5, List.nil_append, List.map_map] at hnd
  have hcc : c' = c := by
    refine List.inj_on_of_nodup_map hnd ?_ ?_ (p3.ends hj)
    · exact List.mem_filter.mpr ⟨hc', by rw [p2]; rfl⟩
    · exact List.mem_filter.mpr ⟨hc, by rw [he]; rfl⟩
  subst hcc
  obtain rfl := Option.some.inj (p2.symm.trans he)
  exact ⟨p4, p5⟩

/-! ### Numbers of out-edges -/

theorem sum_pointwise (f f' : Int → Nat) : ∀ vs : List Int, (vs.map fun u => f u + f' u).sum = (vs.map f).sum + (vs.map f').sum
  | [] => rfl
  | v :: vs => by
    rw [List.map_cons, List.map_cons, List.map_cons, List.sum_cons, List.sum_cons, List.sum_cons, sum_pointwise f f' vs]
    omega

theorem sum_absent {x : Int} : ∀ vs : List Int, x ∉ vs → (vs.map fun u => if x = u then 1 else 0).sum = 0
  | [], _ => rfl
  | w :: vs, h => by
    rw [List.map_cons, List.sum_cons, if_neg (by rintro rfl; exact h (List.mem_cons_self ..)),
      sum_absent vs fun hx => h (List.mem_cons_of_mem _ hx)]

theorem sum_indicator {x : Int} : ∀ vs : List Int, vs.Nodup → x ∈ vs → (vs.map fun u => if x = u then 1 else 0).sum = 1
  | [], _, hx => by cases hx
  | w :: vs, hn, hx => by
    obtain ⟨h1, h2⟩ := List.nodup_cons.mp hn
    rw [List.map_cons, List.sum_cons]
    by_cases hw : x = w
    · subst hw
      rw [if_pos rfl, sum_absent vs h1]
    · rw [if_neg hw, sum_indicator vs h2 ((List.mem_cons.mp hx).resolve_left hw)]

/-- The out-edges of different vertices together. -/
theorem sum_outOf {ι : Type} (un : Bool) (vs : List Int) (hn : vs.Nodup) (hs : List (Int × Int × ι))
    (hv : ∀ e ∈ hs, e.1 ∈ vs ∧ e.2.1 ∈ vs) :
    (vs.map fun u => (outOf un hs u).length).sum =
      hs.length + if un then (hs.filter fun e => decide (e.1 ≠ e.2.1)).length else 0 := by
  induction hs with
  | nil =>
    simp [outOf]
  | cons e hs ih =>
    have ih := ih fun e he => hv e (List.mem_cons_of_mem _ he)
    obtain ⟨v1, v2⟩ := hv e (List.mem_cons_self ..)
    have hstep : ∀ u, (outOf un (e :: hs) u).length =
        (outOf un hs u).length + ((if e.1 = u then 1 else 0) + if un = true ∧ e.1 ≠ e.2.1 then (if e.2.1 = u then 1 else 0) else 0) := by
      intro u
      unfold outOf
      by_cases h1 : e.1 = u
      · rw [List.filterMap_cons_some (b := (e.2.1, e.2.2)) (by rw [if_pos h1]), if_pos h1, List.length_cons]
        by_cases h2 : un = true ∧ e.1 ≠ e.2.1
        · rw [if_pos h2, if_neg fun h3 => h2.2 (h1.trans h3.symm)]
        · rw [if_neg h2]
      · by_cases h2 : un = true ∧ e.2.1 = u
        · rw [List.filterMap_cons_some (b := (e.1, e.2.2)) (by rw [if_neg h1, if_pos h2]), if_neg h1, List.length_cons,
            if_pos ⟨h2.1, fun h => h1 (h.trans h2.2)⟩, if_pos h2.2]
        · rw [List.filterMap_cons_none (by rw [if_neg h1, if_neg h2]), if_neg h1]
          by_cases h3 : un = true ∧ e.1 ≠ e.2.1
          · rw [if_pos h3, if_neg fun h => h2 ⟨h3.1, h⟩]; rfl
          · rw [if_neg h3]; rfl
    simp only [hstep]
    rw [sum_pointwise, sum_pointwise, ih, sum_indicator vs hn v1]
    by_cases h2 : un = true ∧ e.1 ≠ e.2.1
    · simp only [if_pos h2, sum_indicator vs hn v2, if_pos h2.1]
      rw [List.filter_cons_of_pos (by simpa using h2.2), List.length_cons, List.length_cons]
      omega
    · simp only [if_neg h2, List.length_cons]
      cases un with
      | false => simp
      | true =>
        have : e.1 = e.2.1 := by by_contra hc; exact h2 ⟨rfl, hc⟩
        rw [List.filter_cons_of_neg (by simpa using this)]
        simp; omega

/-- **C141** The out-edges of all the vertices together: every edge once in a directed or bidirectional graph; in an undirected graph every
edge twice, except loops, which are there once. -/
theorem mixedW_degrees (h : MadeW key dflt ordV rep o junk dir hasOut k ke kv g H) (hk : hasOut = false → k.assoc = false)
    (hke : ke.assoc = false) (hr : hasOut = false → GoodRep rep dir P) (hP : ∀ v, (kv = .vec → IsInt v) → P v)
    {a : AdjC Int R β} (ha : g.see = some a) :
    ∃ vs, g.vertices = some vs ∧ (∀ u ∈ vs, (a.outEdges rep u).isSome = true) ∧
      (vs.map fun u => ((a.outEdges rep u).getD []).length).sum = a.edgeCount + if dir.un then
        ((edgeCalls (calls H)).filter fun c => c.2.isSome && decide (c.1.1 ≠ c.1.2.1)).length else 0 := by
  obtain ⟨a', vs, hs, b1, b2, -, b4, -, b6, b7, -, b9, b10, -⟩ := mixedW_edges h hk hke hr hP
  obtain rfl := Option.some.inj (ha.symm.trans b1)
  obtain ⟨vs', w1, w2, -⟩ := mixedW_vertices h hk hke
  obtain rfl := Option.some.inj (b2.symm.trans w1)
  refine ⟨vs, b2, fun u hu => ?_, ?_⟩
  · obtain ⟨l, l1, -⟩ := b10 u hu
    rw [l1]; rfl
  · have hlen : (vs.map fun u => ((a.outEdges rep u).getD []).length) = vs.map fun u => (outOf dir.un hs u).length := by
      refine List.map_congr_left fun u hu => ?_
      obtain ⟨l, l1, l2, -⟩ := b10 u hu
      rw [l1, Option.getD_some, l2.length_eq, List.length_map]
    rw [hlen, b6, sum_outOf dir.un vs w2 hs]
    · congr 2
      rw [b4]
      have : ∀ cs : List ((Int × Int × β) × Option (EdgeN Int)), (∀ c ∈ cs, ∀ e, c.2 = some e → e.1 = c.1.1 ∧ e.2.1 = c.1.2.1) →
          ((cs.filterMap Prod.snd).filter fun e => decide (e.1 ≠ e.2.1)).length =
            (cs.filter fun c => c.2.isSome && decide (c.1.1 ≠ c.1.2.1)).length := by
        intro cs
        induction cs with
        | nil => intro _; rfl
        | cons c cs ih =>
          intro hc
          have ih := ih fun c h => hc c (List.mem_cons_of_mem _ h)
          obtain ⟨x, _ | e⟩ := c
          · rw [List.filter_cons_of_neg (by simp)]
            exact ih
          · obtain ⟨e1, e2⟩ := hc _ (List.mem_cons_self ..) e rfl
            have hcs : ((x, some e) :: cs).filterMap Prod.snd = e :: cs.filterMap Prod.snd := rfl
            rw [hcs]
            dsimp only at e1 e2
            by_cases hne : x.1 = x.2.1
            · rw [List.filter_cons_of_neg (by simp [e1, e2, hne]), List.filter_cons_of_neg (by simp [hne]), ih]
            · rw [List.filter_cons_of_pos (by simp [e1, e2, hne]), List.filter_cons_of_pos (by simp [hne]), List.length_cons,
                List.length_cons, ih]
      exact this _ fun c hc e he => ⟨(b9 c hc e he).1, (b9 c hc e he).2.1⟩
    · intro e he
      rw [b4] at he
      obtain ⟨c, hc, hce⟩ := List.mem_filterMap.mp he
      obtain ⟨e1, e2, -⟩ := b9 c hc e hce
      rw [e1, e2]
      exact b7 c hc

/-! ### Examples -/

set_option synthInstance.maxHeartbeats 400000
set_option synthInstance.maxSize 1000

/-- Parallel edges and a loop, ends kept by the edge container: the first edge is found from both sides, with the bundle assigned last. -/
example : ((MixedC.init .undirected false .vec .list .list).runW id 0 natOrder (twoRep Int) plainC 77 .vec .list .list []
      [.call (.vertex 10), .call (.vertex 20), .call (.edge 1 0 "x"), .call (.edge 0 1 "z"), .call (.edge 0 0 "l"),
        .setEdge (1, 0, 0) "y"]).map
    (fun r => r.1.see.map fun a => ([a.findEdge (twoRep Int) 1 0, a.findEdge (twoRep Int) 0 1, a.findEdge (twoRep Int) 0 0,
        a.findEdge (twoRep Int) 1 1], a.bundle (0, 1, 0),
      [0, 1].map fun u => ((a.outEdges (twoRep Int) u).getD []).length, a.edgeCount)) =
    some (some ([some (some (1, 0, 0)), some (some (0, 1, 0)), some (some (0, 0, 2)), some none], some "y", [3, 2], 3)) := by
  decide +kernel

/-- Targets in the out-edges, without duplicates: an edge that is not there is undefined to look for. -/
example : ((MixedC.init .directed true .set .vec .vec).runW id 0 natOrder (noRep Int) plainC 77 .set .vec .vec []
      [.call (.edge 0 1 "x"), .call (.edge 0 3 "z"), .call (.edge 0 1 "v"), .setEdge (0, 3, 1) "y"]).map
    (fun r => r.1.see.map fun a => ([a.findEdge (noRep Int) 0 3, a.findEdge (noRep Int) 0 1, a.findEdge (noRep Int) 3 0],
      a.bundle (0, 3, 1), [0, 1, 2, 3].map fun u => ((a.outEdges (noRep Int) u).getD []).length)) =
    some (some ([some (some (0, 3, 1)), some (some (0, 1, 0)), none], some "y", [2, 0, 0, 0])) := by
  decide +kernel

end Actl.Storage
